import Verif.Lemmas.RuleContND

/-!
# C165, C166: the multidimensional rule and filters depend continuously on their inputs
-/

namespace Mfs.Props

open Matrix Mfs.Spec Filter Topology Mfs.QuadND Mfs.Cont Mfs.FilterND

variable {N d : ℕ} {basis full : List (List ℕ)} {mats : List (List (List ℤ))}

/-- **C165.** Wherever the Gram matrix of the moments is positive definite, the value of the multidimensional rule on a continuous
function is jointly continuous in the moments, the mean and the scale; the moment vectors with a positive definite Gram matrix form
an open set. Nothing is assumed on how the eigenvectors are chosen, on repeated eigenvalues or on the signs of the weights. -/
theorem C165_nd_rule_continuous (B : Backend) (hB : B.Valid) (T : Tables N d basis full mats) (sort ldl : Bool) (F : List ℝ → ℝ)
    (hF : Continuous fun v : Fin d → ℝ => F (List.ofFn v)) :
    IsOpen {ms : Fin full.length → ℝ | (gramOn basis (momentAt full (List.ofFn ms))).PosDef} ∧
    ContinuousOn (fun ms : Fin full.length → ℝ => integND (momentQuadratureND B (List.ofFn ms) mats none none sort ldl) F)
      {ms | (gramOn basis (momentAt full (List.ofFn ms))).PosDef} ∧
    ContinuousOn (fun p : (Fin full.length → ℝ) × (Fin d → ℝ) => integND (momentQuadratureND B (List.ofFn p.1) mats (some (List.ofFn p.2)) none sort ldl) F)
      {p | (gramOn basis (momentAt full (List.ofFn p.1))).PosDef} ∧
    ContinuousOn (fun p : (Fin full.length → ℝ) × (Fin d → ℝ) × (Fin d → ℝ) =>
        integND (momentQuadratureND B (List.ofFn p.1) mats (some (List.ofFn p.2.1)) (some (List.ofFn p.2.2)) sort ldl) F)
      {p | (gramOn basis (momentAt full (List.ofFn p.1))).PosDef} := by
  refine ⟨?_, fun ms h => ?_, fun p h => ?_, fun p h => ?_⟩
  · rw [isOpen_iff_mem_nhds]
    intro m hm
    exact eventually_gramND (LConv.ofFn (tendsto_id (α := Fin full.length → ℝ) (x := 𝓝 m))) hm
  · exact tendsto_rule_raw T B hB (LConv.ofFn (tendsto_id.mono_right nhdsWithin_le_nhds)) h sort ldl (DConv.const hF)
  · have hp' : Tendsto (fun q : (Fin full.length → ℝ) × (Fin d → ℝ) => q)
      (𝓝[{p | (gramOn basis (momentAt full (List.ofFn p.1))).PosDef}] p) (𝓝 p) := tendsto_id.mono_right nhdsWithin_le_nhds
    exact tendsto_rule_central T B hB (LConv.ofFn ((continuous_fst.tendsto p).comp hp')) h (LConv.ofFn ((continuous_snd.tendsto p).comp hp'))
      sort ldl (DConv.const hF)
  · have hp' : Tendsto (fun q : (Fin full.length → ℝ) × (Fin d → ℝ) × (Fin d → ℝ) => q)
      (𝓝[{p | (gramOn basis (momentAt full (List.ofFn p.1))).PosDef}] p) (𝓝 p) := tendsto_id.mono_right nhdsWithin_le_nhds
    exact tendsto_rule_scaled T B hB (LConv.ofFn ((continuous_fst.tendsto p).comp hp')) h
      (LConv.ofFn (((continuous_fst.comp continuous_snd).tendsto p).comp hp')) (LConv.ofFn (((continuous_snd.comp continuous_snd).tendsto p).comp hp'))
      sort ldl (DConv.const hF)

/-! ## C166 -/

/-- a run of a recursion is continuous, and good runs are stable, if every good step is. -/
theorem traj_contOK {ι : Type*} {l : Filter ι} {S Y : Type} [TopologicalSpace Y] (Conv : (ι → S) → S → Prop) {ok : S → Y → Prop} {g : S → Y → S} {lik : S → Y → ℝ}
    (hstep : ∀ s s0 (y : ι → Y) y0, Conv s s0 → ok s0 y0 → Tendsto y l (𝓝 y0) → Conv (fun i => g (s i) (y i)) (g s0 y0) ∧
      (∀ᶠ i in l, ok (s i) (y i)) ∧ 0 < lik s0 y0 ∧ Tendsto (fun i => lik (s i) (y i)) l (𝓝 (lik s0 y0))) (dft : S) (T : ℕ) (ys : ι → Fin T → Y) (ys0 : Fin T → Y)
    (hy : Tendsto ys l (𝓝 ys0)) (s : ι → S) (s0 : S) (hs : Conv s s0) (h0 : RunOK ok g s0 (List.ofFn ys0)) :
    (∀ᶠ i in l, RunOK ok g (s i) (List.ofFn (ys i))) ∧
    Tendsto (fun i => ((liks g lik (s i) (List.ofFn (ys i))).map Real.log).sum) l (𝓝 ((liks g lik s0 (List.ofFn ys0)).map Real.log).sum) ∧
    ∀ t < T, Conv (fun i => (traj g (s i) (List.ofFn (ys i))).getD t dft) ((traj g s0 (List.ofFn ys0)).getD t dft) := by
  induction T generalizing s s0 with
  | zero => exact ⟨Eventually.of_forall fun i => by simp [RunOK], by simpa [liks] using tendsto_const_nhds, by simp⟩
  | succ T ih =>
    rw [List.ofFn_succ] at h0
    obtain ⟨h1, h2, h3, h4⟩ := hstep s s0 (fun i => ys i 0) (ys0 0) hs h0.1 (((continuous_apply _).tendsto _).comp hy)
    obtain ⟨e0, e1, e2⟩ := ih (fun i t => ys i t.succ) (fun t => ys0 t.succ)
      (tendsto_pi_nhds.2 fun t => ((continuous_apply _).tendsto _).comp hy) _ _ h1 h0.2
    simp only [List.ofFn_succ, liks, traj, List.map_cons, List.sum_cons]
    refine ⟨?_, ((Real.continuousAt_log h3.ne').tendsto.comp h4).add e1, fun t ht => ?_⟩
    · filter_upwards [h2, e0] with i hi hi' using ⟨hi, hi'⟩
    · cases t with
      | zero => simpa using h1
      | succ t => simpa using e2 t (by omega)

section

variable {ι : Type*} {l : Filter ι}

theorem LConv.map_list {α : Type} (L : List α) {F : ι → α → ℝ} {F0 : α → ℝ} (h : ∀ a ∈ L, Tendsto (fun i => F i a) l (𝓝 (F0 a))) :
    LConv l L.length (fun i => L.map (F i)) (L.map F0) where
  len i := by simp
  len0 := by simp
  lim k hk := by
    have h1 : ∀ G : α → ℝ, (L.map G).getD k 0 = G L[k] := fun G => by
      rw [List.getD_eq_getElem _ _ (by simpa using hk), List.getElem_map]
    simp only [h1]
    exact h _ (List.getElem_mem hk)

theorem continuous_monomial {α : List ℕ} (hα : α.length = d) : Continuous fun w : Fin d → ℝ => monomial (List.ofFn w) α := by
  obtain ⟨a, rfl⟩ : ∃ a : Fin d → ℕ, α = List.ofFn a := ⟨fun j => α[j]'(by rw [hα]; exact j.2), by apply List.ext_getElem <;> simp [hα]⟩
  simp only [monomial, zip_ofFn, List.prod_ofFn]
  exact continuous_finsetProd _ fun j _ => (continuous_apply j).pow _

/-- a moving monomial. -/
theorem DConv.monomial {w : ι → List ℝ → List ℝ} {w0 : List ℝ → List ℝ} {v : ι → (Fin d → ℝ) → Fin d → ℝ} {v0 : (Fin d → ℝ) → Fin d → ℝ}
    (hw : ∀ i x, w i (List.ofFn x) = List.ofFn (v i x)) (hw0 : ∀ x, w0 (List.ofFn x) = List.ofFn (v0 x))
    (hv : ∀ x j, Tendsto (fun p : ι × (Fin d → ℝ) => v p.1 p.2 j) (l ×ˢ 𝓝 x) (𝓝 (v0 x j))) {α : List ℕ} (hα : α.length = d) :
    DConv l d (fun i x => Spec.monomial (w i x) α) fun x => Spec.monomial (w0 x) α := by
  intro x
  simp only [hw, hw0]
  exact ((continuous_monomial hα).tendsto _).comp (tendsto_pi_nhds.2 fun j => hv x j)

end

variable {Y : Type} [TopologicalSpace Y] {B : Backend} {pdf : Y → List ℝ → ℝ} {stable : Bool}

/-- a step of the raw filter is good: the Gram matrices of the filtering and of the predicted moments are positive definite and
the predictive likelihood is positive. -/
def okRms (B : Backend) (stable : Bool) (pdf : Y → List ℝ → ℝ) (basis full : List (List ℕ)) (mats : List (List (List ℤ))) (P : CondMoments Unit)
    (s : List ℝ) (y : Y) : Prop :=
  (gramOn basis (momentAt full s)).PosDef ∧ (gramOn basis (momentAt full (predRms B stable full mats P s))).PosDef ∧
    0 < likRms B stable pdf full mats P s y

/-- the same for the filter of central moments. -/
def okCms (B : Backend) (stable : Bool) (pdf : Y → List ℝ → ℝ) (d : ℕ) (basis full : List (List ℕ)) (mats : List (List (List ℤ))) (P : CondMoments (List ℝ))
    (cm : List ℝ → List ℝ) (s : List ℝ × List ℝ) (y : Y) : Prop :=
  (gramOn basis (momentAt full s.1)).PosDef ∧ (gramOn basis (momentAt full (predCms B stable d full mats P cm s).1)).PosDef ∧
    0 < likCms B stable pdf d full mats P cm s y

/-- the same for the filter of scaled moments; the predicted and the new scales are positive too. -/
def okScms (B : Backend) (stable : Bool) (pdf : Y → List ℝ → ℝ) (d : ℕ) (basis full : List (List ℕ)) (mats : List (List (List ℤ)))
    (P : CondMoments (List ℝ × List ℝ)) (cmv : List ℝ → List ℝ × List ℝ) (s : List ℝ × List ℝ × List ℝ) (y : Y) : Prop :=
  (gramOn basis (momentAt full s.1)).PosDef ∧ (gramOn basis (momentAt full (predScms B stable d full mats P cmv s).1)).PosDef ∧
    0 < likScms B stable pdf d full mats P cmv s y ∧ (∀ j < d, 0 < (predScms B stable d full mats P cmv s).2.2.getD j 0) ∧
    ∀ j < d, 0 < (nextScms B stable pdf d full mats P cmv s y).2.2.getD j 0

section

variable {ι : Type*} {l : Filter ι}

theorem eyeRows_len {α : List ℕ} (h : α ∈ eyeRows d) : α.length = d := by
  simp only [eyeRows, List.mem_map] at h
  obtain ⟨j, _, rfl⟩ := h
  simp

theorem step_rms (hB : B.Valid) (T : Tables N d basis full mats) (hpdf : Continuous fun p : Y × (Fin d → ℝ) => pdf p.1 (List.ofFn p.2))
    (P : CondMoments Unit) (hP : ∀ k < full.length, Continuous fun v : Fin d → ℝ => (P.row full () (List.ofFn v)).getD k 0)
    (s : ι → List ℝ) (s0 : List ℝ) (y : ι → Y) (y0 : Y) (hs : LConv l full.length s s0) (h0 : okRms B stable pdf basis full mats P s0 y0)
    (hy : Tendsto y l (𝓝 y0)) :
    LConv l full.length (fun i => nextRms B stable pdf full mats P (s i) (y i)) (nextRms B stable pdf full mats P s0 y0) ∧
    (∀ᶠ i in l, okRms B stable pdf basis full mats P (s i) (y i)) ∧ 0 < likRms B stable pdf full mats P s0 y0 ∧
    Tendsto (fun i => likRms B stable pdf full mats P (s i) (y i)) l (𝓝 (likRms B stable pdf full mats P s0 y0)) := by
  obtain ⟨g1, g2, g3⟩ := h0
  have hpred : LConv l full.length (fun i => predRms B stable full mats P (s i)) (predRms B stable full mats P s0) :=
    LConv.map_range fun k hk => tendsto_rule_raw T B hB hs g1 false stable (DConv.const (F := fun x => (P.row full () x).getD k 0) (hP k hk))
  have hlik : Tendsto (fun i => likRms B stable pdf full mats P (s i) (y i)) l (𝓝 (likRms B stable pdf full mats P s0 y0)) :=
    tendsto_rule_raw T B hB hpred g2 false stable (DConv.param hpdf hy)
  refine ⟨?_, ?_, g3, hlik⟩
  · refine LConv.map_list full fun α hα => (tendsto_rule_raw T B hB hpred g2 false stable ?_).div hlik g3.ne'
    exact (DConv.const (continuous_monomial (T.mem_full.1 hα).1)).mul (DConv.param hpdf hy)
  · filter_upwards [eventually_gramND hs g1, eventually_gramND hpred g2, hlik.eventually (eventually_gt_nhds g3)] with i a b c
    exact ⟨a, b, c⟩

theorem dconv_central {m : ι → List ℝ} {m0 : List ℝ} (hm : LConv l d m m0) {α : List ℕ} (hα : α.length = d) :
    DConv l d (fun i x => monomial (List.zipWith (· - ·) x (m i)) α) fun x => monomial (List.zipWith (· - ·) x m0) α := by
  have key : ∀ (m : List ℝ), m.length = d → ∀ v : Fin d → ℝ, List.zipWith (· - ·) (List.ofFn v) m = List.ofFn fun j : Fin d => v j - m.getD j 0 := by
    intro m hm v
    conv_lhs => rw [list_eq_ofFn m hm]
    rw [zip_ofFn]
  refine DConv.monomial (v := fun i x j => x j - (m i).getD j 0) (v0 := fun x j => x j - m0.getD j 0) (fun i x => key _ (hm.len i) x)
    (fun x => key _ hm.len0 x) (fun x j => ?_) hα
  exact (((continuous_apply j).tendsto x).comp tendsto_snd).sub ((hm.lim' j).comp tendsto_fst)

theorem step_cms (hB : B.Valid) (T : Tables N d basis full mats) (hpdf : Continuous fun p : Y × (Fin d → ℝ) => pdf p.1 (List.ofFn p.2))
    (P : CondMoments (List ℝ)) (hP : ∀ k < full.length, Continuous fun p : (Fin d → ℝ) × (Fin d → ℝ) => (P.row full (List.ofFn p.1) (List.ofFn p.2)).getD k 0)
    (cm : List ℝ → List ℝ) (hcm : ∀ j < d, Continuous fun v : Fin d → ℝ => (cm (List.ofFn v)).getD j 0)
    (s : ι → List ℝ × List ℝ) (s0 : List ℝ × List ℝ) (y : ι → Y) (y0 : Y) (hs : LConv l full.length (fun i => (s i).1) s0.1) (hm : LConv l d (fun i => (s i).2) s0.2)
    (h0 : okCms B stable pdf d basis full mats P cm s0 y0) (hy : Tendsto y l (𝓝 y0)) :
    (LConv l full.length (fun i => (nextCms B stable pdf d full mats P cm (s i) (y i)).1) (nextCms B stable pdf d full mats P cm s0 y0).1 ∧
      LConv l d (fun i => (nextCms B stable pdf d full mats P cm (s i) (y i)).2) (nextCms B stable pdf d full mats P cm s0 y0).2) ∧
    (∀ᶠ i in l, okCms B stable pdf d basis full mats P cm (s i) (y i)) ∧ 0 < likCms B stable pdf d full mats P cm s0 y0 ∧
    Tendsto (fun i => likCms B stable pdf d full mats P cm (s i) (y i)) l (𝓝 (likCms B stable pdf d full mats P cm s0 y0)) := by
  obtain ⟨g1, g2, g3⟩ := h0
  have hmean : LConv l d (fun i => (predCms B stable d full mats P cm (s i)).2) (predCms B stable d full mats P cm s0).2 :=
    LConv.map_range fun k hk => tendsto_rule_central T B hB hs g1 hm false stable (DConv.const (F := fun x => (cm x).getD k 0) (hcm k hk))
  have hpred : LConv l full.length (fun i => (predCms B stable d full mats P cm (s i)).1) (predCms B stable d full mats P cm s0).1 := by
    refine LConv.map_range fun k hk => tendsto_rule_central T B hB hs g1 hm false stable
      (F := fun i x => (P.row full (predCms B stable d full mats P cm (s i)).2 x).getD k 0)
      (F0 := fun x => (P.row full (predCms B stable d full mats P cm s0).2 x).getD k 0) ?_
    have := DConv.param (F := fun (m : Fin d → ℝ) x => (P.row full (List.ofFn m) x).getD k 0) (hP k hk) hmean.vec
    simp only [← list_eq_ofFn _ hmean.len0, ← list_eq_ofFn _ (hmean.len _)] at this
    exact this
  have hlik : Tendsto (fun i => likCms B stable pdf d full mats P cm (s i) (y i)) l (𝓝 (likCms B stable pdf d full mats P cm s0 y0)) :=
    tendsto_rule_central T B hB hpred g2 hmean false stable (DConv.param hpdf hy)
  have hmn : LConv l d (fun i => (nextCms B stable pdf d full mats P cm (s i) (y i)).2) (nextCms B stable pdf d full mats P cm s0 y0).2 := by
    have hl : (eyeRows d).length = d := by simp [eyeRows]
    have := LConv.map_list (eyeRows d) (l := l) (F := fun i α => integND (ruleCms B stable d full mats P cm (s i)) (fun x => monomial (x.map (· - 0)) α * pdf (y i) x)
        / likCms B stable pdf d full mats P cm (s i) (y i)) (F0 := fun α => integND (ruleCms B stable d full mats P cm s0) (fun x => monomial (x.map (· - 0)) α * pdf y0 x)
        / likCms B stable pdf d full mats P cm s0 y0) (fun α hα => ?_)
    · rw [hl] at this
      exact this
    · refine (tendsto_rule_central T B hB hpred g2 hmean false stable ?_).div hlik g3.ne'
      simp only [sub_zero, List.map_id']
      exact (DConv.const (continuous_monomial (eyeRows_len hα))).mul (DConv.param hpdf hy)
  refine ⟨⟨?_, hmn⟩, ?_, g3, hlik⟩
  · refine LConv.map_list full fun α hα => (tendsto_rule_central T B hB hpred g2 hmean false stable ?_).div hlik g3.ne'
    exact (dconv_central hmn (T.mem_full.1 hα).1).mul (DConv.param hpdf hy)
  · filter_upwards [eventually_gramND hs g1, eventually_gramND hpred g2, hlik.eventually (eventually_gt_nhds g3)] with i a b c
    exact ⟨a, b, c⟩

theorem dconv_scaled {m c : ι → List ℝ} {m0 c0 : List ℝ} (hm : LConv l d m m0) (hc : LConv l d c c0) (h0 : ∀ j < d, c0.getD j 0 ≠ 0) {α : List ℕ} (hα : α.length = d) :
    DConv l d (fun i x => monomial (List.zipWith (· / ·) (List.zipWith (· - ·) x (m i)) (c i)) α)
      fun x => monomial (List.zipWith (· / ·) (List.zipWith (· - ·) x m0) c0) α := by
  have key : ∀ (m c : List ℝ), m.length = d → c.length = d → ∀ v : Fin d → ℝ, List.zipWith (· / ·) (List.zipWith (· - ·) (List.ofFn v) m) c
      = List.ofFn fun j : Fin d => (v j - m.getD j 0) / c.getD j 0 := by
    intro m c hm hc v
    conv_lhs => rw [list_eq_ofFn m hm, list_eq_ofFn c hc]
    rw [zip_ofFn, zip_ofFn]
  refine DConv.monomial (v := fun i x j => (x j - (m i).getD j 0) / (c i).getD j 0) (v0 := fun x j => (x j - m0.getD j 0) / c0.getD j 0)
    (fun i x => key _ _ (hm.len i) (hc.len i) x) (fun x => key _ _ hm.len0 hc.len0 x) (fun x j => ?_) hα
  exact ((((continuous_apply j).tendsto x).comp tendsto_snd).sub ((hm.lim' j).comp tendsto_fst)).div ((hc.lim' j).comp tendsto_fst) (h0 j j.2)

theorem LConv.sqrt {c : ι → List ℝ} {c0 : List ℝ} {n : ℕ} (h : LConv l n c c0) : LConv l n (fun i => (c i).map Real.sqrt) (c0.map Real.sqrt) where
  len i := by simp [h.len i]
  len0 := by simp [h.len0]
  lim k hk := by
    have h1 : ∀ L : List ℝ, (L.map Real.sqrt).getD k 0 = Real.sqrt (L.getD k 0) := fun L => by
      rw [List.getD_eq_getElem?_getD, List.getElem?_map, List.getD_eq_getElem?_getD]
      cases L[k]? <;> simp
    simp only [h1]
    exact (Real.continuous_sqrt.tendsto _).comp (h.lim k hk)

theorem step_scms (hB : B.Valid) (T : Tables N d basis full mats) (hpdf : Continuous fun p : Y × (Fin d → ℝ) => pdf p.1 (List.ofFn p.2))
    (P : CondMoments (List ℝ × List ℝ)) (hP : ∀ k < full.length, ContinuousOn (fun p : ((Fin d → ℝ) × (Fin d → ℝ)) × (Fin d → ℝ) =>
      (P.row full (List.ofFn p.1.1, List.ofFn p.1.2) (List.ofFn p.2)).getD k 0) {p | ∀ j, 0 < p.1.2 j})
    (cmv : List ℝ → List ℝ × List ℝ) (hcm : ∀ j < d, Continuous fun v : Fin d → ℝ => (cmv (List.ofFn v)).1.getD j 0)
    (hcv : ∀ j < d, Continuous fun v : Fin d → ℝ => (cmv (List.ofFn v)).2.getD j 0)
    (s : ι → List ℝ × List ℝ × List ℝ) (s0 : List ℝ × List ℝ × List ℝ) (y : ι → Y) (y0 : Y) (hs : LConv l full.length (fun i => (s i).1) s0.1)
    (hm : LConv l d (fun i => (s i).2.1) s0.2.1) (hc : LConv l d (fun i => (s i).2.2) s0.2.2)
    (h0 : okScms B stable pdf d basis full mats P cmv s0 y0) (hy : Tendsto y l (𝓝 y0)) :
    (LConv l full.length (fun i => (nextScms B stable pdf d full mats P cmv (s i) (y i)).1) (nextScms B stable pdf d full mats P cmv s0 y0).1 ∧
      LConv l d (fun i => (nextScms B stable pdf d full mats P cmv (s i) (y i)).2.1) (nextScms B stable pdf d full mats P cmv s0 y0).2.1 ∧
      LConv l d (fun i => (nextScms B stable pdf d full mats P cmv (s i) (y i)).2.2) (nextScms B stable pdf d full mats P cmv s0 y0).2.2) ∧
    (∀ᶠ i in l, okScms B stable pdf d basis full mats P cmv (s i) (y i)) ∧ 0 < likScms B stable pdf d full mats P cmv s0 y0 ∧
    Tendsto (fun i => likScms B stable pdf d full mats P cmv (s i) (y i)) l (𝓝 (likScms B stable pdf d full mats P cmv s0 y0)) := by
  obtain ⟨g1, g2, g3, g4, g5⟩ := h0
  have hl : (eyeRows d).length = d := by simp [eyeRows]
  have hmean : LConv l d (fun i => (predScms B stable d full mats P cmv (s i)).2.1) (predScms B stable d full mats P cmv s0).2.1 :=
    LConv.map_range fun k hk => tendsto_rule_scaled T B hB hs g1 hm hc false stable (DConv.const (F := fun x => (cmv x).1.getD k 0) (hcm k hk))
  have hscale : LConv l d (fun i => (predScms B stable d full mats P cmv (s i)).2.2) (predScms B stable d full mats P cmv s0).2.2 :=
    LConv.sqrt (LConv.map_range fun k hk => tendsto_rule_scaled T B hB hs g1 hm hc false stable (DConv.const (F := fun x => (cmv x).2.getD k 0) (hcv k hk)))
  have hpred : LConv l full.length (fun i => (predScms B stable d full mats P cmv (s i)).1) (predScms B stable d full mats P cmv s0).1 := by
    refine LConv.map_range fun k hk => tendsto_rule_scaled T B hB hs g1 hm hc false stable
      (F := fun i x => (P.row full (predScms B stable d full mats P cmv (s i)).2 x).getD k 0)
      (F0 := fun x => (P.row full (predScms B stable d full mats P cmv s0).2 x).getD k 0) ?_
    have hopen : IsOpen {p : ((Fin d → ℝ) × (Fin d → ℝ)) × (Fin d → ℝ) | ∀ j, 0 < p.1.2 j} := by
      rw [Set.ofPred_forall]
      exact isOpen_iInter_of_finite fun j => isOpen_lt continuous_const ((continuous_apply j).comp (continuous_snd.comp continuous_fst))
    intro v
    have h1 : Tendsto (fun p : ι × (Fin d → ℝ) => (((fun j : Fin d => (predScms B stable d full mats P cmv (s p.1)).2.1.getD j 0),
        (fun j : Fin d => (predScms B stable d full mats P cmv (s p.1)).2.2.getD j 0)), p.2)) (l ×ˢ 𝓝 v)
        (𝓝 (((fun j : Fin d => (predScms B stable d full mats P cmv s0).2.1.getD j 0), (fun j : Fin d => (predScms B stable d full mats P cmv s0).2.2.getD j 0)), v)) :=
      ((hmean.vec.comp tendsto_fst).prodMk_nhds (hscale.vec.comp tendsto_fst)).prodMk_nhds tendsto_snd
    have h2 := ((hP k hk).continuousAt (hopen.mem_nhds (x := (((fun j : Fin d => (predScms B stable d full mats P cmv s0).2.1.getD j 0),
      (fun j : Fin d => (predScms B stable d full mats P cmv s0).2.2.getD j 0)), v)) fun j => g4 j j.2)).tendsto.comp h1
    simp only [Function.comp_def, ← list_eq_ofFn _ hmean.len0, ← list_eq_ofFn _ (hmean.len _), ← list_eq_ofFn _ hscale.len0, ← list_eq_ofFn _ (hscale.len _)] at h2
    exact h2
  have hlik : Tendsto (fun i => likScms B stable pdf d full mats P cmv (s i) (y i)) l (𝓝 (likScms B stable pdf d full mats P cmv s0 y0)) :=
    tendsto_rule_scaled T B hB hpred g2 hmean hscale false stable (DConv.param hpdf hy)
  have hmn : LConv l d (fun i => (nextScms B stable pdf d full mats P cmv (s i) (y i)).2.1) (nextScms B stable pdf d full mats P cmv s0 y0).2.1 := by
    have := LConv.map_list (eyeRows d) (l := l) (F := fun i α => integND (ruleScms B stable d full mats P cmv (s i)) (fun x => monomial (x.map fun t => (t - 0) / 1) α * pdf (y i) x)
        / likScms B stable pdf d full mats P cmv (s i) (y i)) (F0 := fun α => integND (ruleScms B stable d full mats P cmv s0) (fun x => monomial (x.map fun t => (t - 0) / 1) α * pdf y0 x)
        / likScms B stable pdf d full mats P cmv s0 y0) (fun α hα => ?_)
    · rw [hl] at this
      exact this
    · refine (tendsto_rule_scaled T B hB hpred g2 hmean hscale false stable ?_).div hlik g3.ne'
      simp only [sub_zero, div_one, List.map_id']
      exact (DConv.const (continuous_monomial (eyeRows_len hα))).mul (DConv.param hpdf hy)
  have hsn : LConv l d (fun i => (nextScms B stable pdf d full mats P cmv (s i) (y i)).2.2) (nextScms B stable pdf d full mats P cmv s0 y0).2.2 := by
    have := LConv.map_list (eyeRows d) (l := l) (F := fun i α => Real.sqrt (integND (ruleScms B stable d full mats P cmv (s i))
        (fun x => monomial (List.zipWith (fun t m => (t - m) / 1) x (nextScms B stable pdf d full mats P cmv (s i) (y i)).2.1) (α.map (· * 2)) * pdf (y i) x)
        / likScms B stable pdf d full mats P cmv (s i) (y i))) (F0 := fun α => Real.sqrt (integND (ruleScms B stable d full mats P cmv s0)
        (fun x => monomial (List.zipWith (fun t m => (t - m) / 1) x (nextScms B stable pdf d full mats P cmv s0 y0).2.1) (α.map (· * 2)) * pdf y0 x)
        / likScms B stable pdf d full mats P cmv s0 y0)) (fun α hα => ?_)
    · rw [hl] at this
      exact this
    · refine (Real.continuous_sqrt.tendsto _).comp ((tendsto_rule_scaled T B hB hpred g2 hmean hscale false stable ?_).div hlik g3.ne')
      simp only [div_one]
      exact (dconv_central hmn (by simp [eyeRows_len hα])).mul (DConv.param hpdf hy)
  refine ⟨⟨?_, hmn, hsn⟩, ?_, g3, hlik⟩
  · refine LConv.map_list full fun α hα => (tendsto_rule_scaled T B hB hpred g2 hmean hscale false stable ?_).div hlik g3.ne'
    exact (dconv_scaled hmn hsn (fun j hj => (g5 j hj).ne') (T.mem_full.1 hα).1).mul (DConv.param hpdf hy)
  · have e4 : ∀ᶠ i in l, ∀ j < d, 0 < (predScms B stable d full mats P cmv (s i)).2.2.getD j 0 := by
      have : ∀ᶠ i in l, ∀ j : Fin d, 0 < (predScms B stable d full mats P cmv (s i)).2.2.getD j 0 :=
        eventually_all.2 fun j => (hscale.lim' j).eventually (eventually_gt_nhds (g4 j j.2))
      exact this.mono fun i hi j hj => hi ⟨j, hj⟩
    have e5 : ∀ᶠ i in l, ∀ j < d, 0 < (nextScms B stable pdf d full mats P cmv (s i) (y i)).2.2.getD j 0 := by
      have : ∀ᶠ i in l, ∀ j : Fin d, 0 < (nextScms B stable pdf d full mats P cmv (s i) (y i)).2.2.getD j 0 :=
        eventually_all.2 fun j => (hsn.lim' j).eventually (eventually_gt_nhds (g5 j j.2))
      exact this.mono fun i hi j hj => hi ⟨j, hj⟩
    filter_upwards [eventually_gramND hs g1, eventually_gramND hpred g2, hlik.eventually (eventually_gt_nhds g3), e4, e5] with i a b c a4 a5
    exact ⟨a, b, c, a4, a5⟩

end

/-- **C166, raw moments.** Let the conditional moments be continuous in the state and the measurement density be jointly continuous.
Consider the inputs (initial moments, measurements) for which along the run all Gram matrices of filtering and predicted moments are
positive definite and all predictive likelihoods positive. They form an open set, and on it the negative log-likelihood and all
filtering moments are continuous in the initial moments and the measurements. -/
theorem C166_nd_rms_continuous (hB : B.Valid) (Tb : Tables N d basis full mats) (hpdf : Continuous fun p : Y × (Fin d → ℝ) => pdf p.1 (List.ofFn p.2))
    (P : CondMoments Unit) (hP : ∀ k < full.length, Continuous fun v : Fin d → ℝ => (P.row full () (List.ofFn v)).getD k 0) (T : ℕ) :
    ∃ (recs : (Fin full.length → ℝ) × (Fin T → Y) → List (List ℝ)) (nell : (Fin full.length → ℝ) × (Fin T → Y) → ℝ),
      (∀ p, filterRms B P pdf (List.ofFn p.2) (full, mats) (List.ofFn p.1) stable = .ok (recs p, nell p)) ∧
      IsOpen {p : (Fin full.length → ℝ) × (Fin T → Y) | RunOK (okRms B stable pdf basis full mats P) (nextRms B stable pdf full mats P) (List.ofFn p.1) (List.ofFn p.2)} ∧
      ContinuousOn nell {p | RunOK (okRms B stable pdf basis full mats P) (nextRms B stable pdf full mats P) (List.ofFn p.1) (List.ofFn p.2)} ∧
      ∀ t < T, ∀ k < full.length, ContinuousOn (fun p => ((recs p).getD t []).getD k 0)
        {p | RunOK (okRms B stable pdf basis full mats P) (nextRms B stable pdf full mats P) (List.ofFn p.1) (List.ofFn p.2)} := by
  refine ⟨fun p => traj (nextRms B stable pdf full mats P) (List.ofFn p.1) (List.ofFn p.2),
    fun p => - ((liks (nextRms B stable pdf full mats P) (likRms B stable pdf full mats P) (List.ofFn p.1) (List.ofFn p.2)).map Real.log).sum, fun p => ?_, ?_⟩
  · rw [FilterND.filterRms_eq, if_neg (by simp)]
  have key := fun (p : (Fin full.length → ℝ) × (Fin T → Y))
      (hp : RunOK (okRms B stable pdf basis full mats P) (nextRms B stable pdf full mats P) (List.ofFn p.1) (List.ofFn p.2)) =>
    traj_contOK (l := 𝓝 p) (LConv (𝓝 p) full.length) (step_rms hB Tb hpdf P hP) [] T (fun p => p.2) p.2 (continuous_snd.tendsto p)
      (fun p => List.ofFn p.1) (List.ofFn p.1) (LConv.ofFn (continuous_fst.tendsto p)) hp
  refine ⟨isOpen_iff_mem_nhds.2 fun p hp => (key p hp).1, fun p hp => ((key p hp).2.1.neg).mono_left nhdsWithin_le_nhds,
    fun t ht k hk p hp => (((key p hp).2.2 t ht).lim k hk).mono_left nhdsWithin_le_nhds⟩

/-- **C166, central moments.** The same for the filter of central moments, jointly with the initial mean; the output means are
continuous too. -/
theorem C166_nd_cms_continuous (hB : B.Valid) (Tb : Tables N d basis full mats) (hpdf : Continuous fun p : Y × (Fin d → ℝ) => pdf p.1 (List.ofFn p.2))
    (P : CondMoments (List ℝ)) (hP : ∀ k < full.length, Continuous fun p : (Fin d → ℝ) × (Fin d → ℝ) => (P.row full (List.ofFn p.1) (List.ofFn p.2)).getD k 0)
    (cm : List ℝ → List ℝ) (hcm : ∀ j < d, Continuous fun v : Fin d → ℝ => (cm (List.ofFn v)).getD j 0) (T : ℕ) :
    ∃ (recs : (Fin full.length → ℝ) × (Fin d → ℝ) × (Fin T → Y) → List (List ℝ × List ℝ)) (nell : (Fin full.length → ℝ) × (Fin d → ℝ) × (Fin T → Y) → ℝ),
      (∀ p, filterCms B P cm pdf (List.ofFn p.2.2) (full, mats) (List.ofFn p.1) (List.ofFn p.2.1) stable = .ok (recs p, nell p)) ∧
      IsOpen {p : (Fin full.length → ℝ) × (Fin d → ℝ) × (Fin T → Y) |
        RunOK (okCms B stable pdf d basis full mats P cm) (nextCms B stable pdf d full mats P cm) (List.ofFn p.1, List.ofFn p.2.1) (List.ofFn p.2.2)} ∧
      ContinuousOn nell {p | RunOK (okCms B stable pdf d basis full mats P cm) (nextCms B stable pdf d full mats P cm) (List.ofFn p.1, List.ofFn p.2.1) (List.ofFn p.2.2)} ∧
      ∀ t < T, (∀ k < full.length, ContinuousOn (fun p => ((recs p).getD t ([], [])).1.getD k 0)
          {p | RunOK (okCms B stable pdf d basis full mats P cm) (nextCms B stable pdf d full mats P cm) (List.ofFn p.1, List.ofFn p.2.1) (List.ofFn p.2.2)}) ∧
        ∀ j < d, ContinuousOn (fun p => ((recs p).getD t ([], [])).2.getD j 0)
          {p | RunOK (okCms B stable pdf d basis full mats P cm) (nextCms B stable pdf d full mats P cm) (List.ofFn p.1, List.ofFn p.2.1) (List.ofFn p.2.2)} := by
  refine ⟨fun p => traj (nextCms B stable pdf d full mats P cm) (List.ofFn p.1, List.ofFn p.2.1) (List.ofFn p.2.2),
    fun p => - ((liks (nextCms B stable pdf d full mats P cm) (likCms B stable pdf d full mats P cm) (List.ofFn p.1, List.ofFn p.2.1) (List.ofFn p.2.2)).map Real.log).sum,
    fun p => ?_, ?_⟩
  · rw [FilterND.filterCms_eq]
    simp only [Tb.head_len, List.length_ofFn, ne_eq, not_true, if_false]
  have key := fun (p : (Fin full.length → ℝ) × (Fin d → ℝ) × (Fin T → Y))
      (hp : RunOK (okCms B stable pdf d basis full mats P cm) (nextCms B stable pdf d full mats P cm) (List.ofFn p.1, List.ofFn p.2.1) (List.ofFn p.2.2)) =>
    traj_contOK (l := 𝓝 p) (fun s s0 => LConv (𝓝 p) full.length (fun i => (s i).1) s0.1 ∧ LConv (𝓝 p) d (fun i => (s i).2) s0.2)
      (fun s s0 y y0 hs h0 hy => step_cms hB Tb hpdf P hP cm hcm s s0 y y0 hs.1 hs.2 h0 hy) ([], []) T (fun p => p.2.2) p.2.2
      ((continuous_snd.comp continuous_snd).tendsto p) (fun p => (List.ofFn p.1, List.ofFn p.2.1)) (List.ofFn p.1, List.ofFn p.2.1)
      ⟨LConv.ofFn (continuous_fst.tendsto p), LConv.ofFn ((continuous_fst.comp continuous_snd).tendsto p)⟩ hp
  refine ⟨isOpen_iff_mem_nhds.2 fun p hp => (key p hp).1, fun p hp => ((key p hp).2.1.neg).mono_left nhdsWithin_le_nhds,
    fun t ht => ⟨fun k hk p hp => (((key p hp).2.2 t ht).1.lim k hk).mono_left nhdsWithin_le_nhds,
      fun j hj p hp => (((key p hp).2.2 t ht).2.lim j hj).mono_left nhdsWithin_le_nhds⟩⟩

/-- **C166, scaled moments.** The same for the filter of scaled moments, jointly with the initial mean and scale, as long as the
predicted and the filtering scales stay positive; the conditional moments need only be continuous where the scales are positive. -/
theorem C166_nd_scms_continuous (hB : B.Valid) (Tb : Tables N d basis full mats) (hpdf : Continuous fun p : Y × (Fin d → ℝ) => pdf p.1 (List.ofFn p.2))
    (P : CondMoments (List ℝ × List ℝ)) (hP : ∀ k < full.length, ContinuousOn (fun p : ((Fin d → ℝ) × (Fin d → ℝ)) × (Fin d → ℝ) =>
      (P.row full (List.ofFn p.1.1, List.ofFn p.1.2) (List.ofFn p.2)).getD k 0) {p | ∀ j, 0 < p.1.2 j})
    (cmv : List ℝ → List ℝ × List ℝ) (hcm : ∀ j < d, Continuous fun v : Fin d → ℝ => (cmv (List.ofFn v)).1.getD j 0)
    (hcv : ∀ j < d, Continuous fun v : Fin d → ℝ => (cmv (List.ofFn v)).2.getD j 0) (T : ℕ) :
    ∃ (recs : (Fin full.length → ℝ) × (Fin d → ℝ) × (Fin d → ℝ) × (Fin T → Y) → List (List ℝ × List ℝ × List ℝ))
      (nell : (Fin full.length → ℝ) × (Fin d → ℝ) × (Fin d → ℝ) × (Fin T → Y) → ℝ),
      (∀ p, filterScms B P cmv pdf (List.ofFn p.2.2.2) (full, mats) (List.ofFn p.1) (List.ofFn p.2.1) (List.ofFn p.2.2.1) stable = .ok (recs p, nell p)) ∧
      IsOpen {p : (Fin full.length → ℝ) × (Fin d → ℝ) × (Fin d → ℝ) × (Fin T → Y) |
        RunOK (okScms B stable pdf d basis full mats P cmv) (nextScms B stable pdf d full mats P cmv) (List.ofFn p.1, List.ofFn p.2.1, List.ofFn p.2.2.1) (List.ofFn p.2.2.2)} ∧
      ContinuousOn nell {p | RunOK (okScms B stable pdf d basis full mats P cmv) (nextScms B stable pdf d full mats P cmv)
        (List.ofFn p.1, List.ofFn p.2.1, List.ofFn p.2.2.1) (List.ofFn p.2.2.2)} ∧
      ∀ t < T, (∀ k < full.length, ContinuousOn (fun p => ((recs p).getD t ([], [], [])).1.getD k 0)
          {p | RunOK (okScms B stable pdf d basis full mats P cmv) (nextScms B stable pdf d full mats P cmv)
            (List.ofFn p.1, List.ofFn p.2.1, List.ofFn p.2.2.1) (List.ofFn p.2.2.2)}) ∧
        ∀ j < d, ContinuousOn (fun p => ((recs p).getD t ([], [], [])).2.1.getD j 0)
            {p | RunOK (okScms B stable pdf d basis full mats P cmv) (nextScms B stable pdf d full mats P cmv)
              (List.ofFn p.1, List.ofFn p.2.1, List.ofFn p.2.2.1) (List.ofFn p.2.2.2)} ∧
          ContinuousOn (fun p => ((recs p).getD t ([], [], [])).2.2.getD j 0)
            {p | RunOK (okScms B stable pdf d basis full mats P cmv) (nextScms B stable pdf d full mats P cmv)
              (List.ofFn p.1, List.ofFn p.2.1, List.ofFn p.2.2.1) (List.ofFn p.2.2.2)} := by
  refine ⟨fun p => traj (nextScms B stable pdf d full mats P cmv) (List.ofFn p.1, List.ofFn p.2.1, List.ofFn p.2.2.1) (List.ofFn p.2.2.2),
    fun p => - ((liks (nextScms B stable pdf d full mats P cmv) (likScms B stable pdf d full mats P cmv)
      (List.ofFn p.1, List.ofFn p.2.1, List.ofFn p.2.2.1) (List.ofFn p.2.2.2)).map Real.log).sum, fun p => ?_, ?_⟩
  · rw [FilterND.filterScms_eq]
    simp only [Tb.head_len, List.length_ofFn, ne_eq, not_true, if_false]
  have key := fun (p : (Fin full.length → ℝ) × (Fin d → ℝ) × (Fin d → ℝ) × (Fin T → Y))
      (hp : RunOK (okScms B stable pdf d basis full mats P cmv) (nextScms B stable pdf d full mats P cmv)
        (List.ofFn p.1, List.ofFn p.2.1, List.ofFn p.2.2.1) (List.ofFn p.2.2.2)) =>
    traj_contOK (l := 𝓝 p) (fun s s0 => LConv (𝓝 p) full.length (fun i => (s i).1) s0.1 ∧ LConv (𝓝 p) d (fun i => (s i).2.1) s0.2.1 ∧
        LConv (𝓝 p) d (fun i => (s i).2.2) s0.2.2)
      (fun s s0 y y0 hs h0 hy => step_scms hB Tb hpdf P hP cmv hcm hcv s s0 y y0 hs.1 hs.2.1 hs.2.2 h0 hy) ([], [], []) T (fun p => p.2.2.2) p.2.2.2
      ((continuous_snd.comp (continuous_snd.comp continuous_snd)).tendsto p) (fun p => (List.ofFn p.1, List.ofFn p.2.1, List.ofFn p.2.2.1))
      (List.ofFn p.1, List.ofFn p.2.1, List.ofFn p.2.2.1)
      ⟨LConv.ofFn (continuous_fst.tendsto p), LConv.ofFn ((continuous_fst.comp continuous_snd).tendsto p),
        LConv.ofFn ((continuous_fst.comp (continuous_snd.comp continuous_snd)).tendsto p)⟩ hp
  refine ⟨isOpen_iff_mem_nhds.2 fun p hp => (key p hp).1, fun p hp => ((key p hp).2.1.neg).mono_left nhdsWithin_le_nhds,
    fun t ht => ⟨fun k hk p hp => (((key p hp).2.2 t ht).1.lim k hk).mono_left nhdsWithin_le_nhds,
      fun j hj => ⟨fun p hp => (((key p hp).2.2 t ht).2.1.lim j hj).mono_left nhdsWithin_le_nhds,
        fun p hp => (((key p hp).2.2 t ht).2.2.lim j hj).mono_left nhdsWithin_le_nhds⟩⟩⟩

/-! ### runs meeting the hypotheses -/

/-- moments of two independent fair signs, up to order 3. -/
def signMoment (α : List ℕ) : ℝ := if α.all (fun k => k % 2 = 0) then 1 else 0

theorem sign_gram : (gramOn [[0, 0], [0, 1], [1, 0]] signMoment).PosDef := by
  have : gramOn [[0, 0], [0, 1], [1, 0]] signMoment = 1 := by
    ext a b
    simp only [gramOn, Matrix.of_apply, Matrix.one_apply]
    fin_cases a <;> fin_cases b <;> simp [signMoment]
  rw [this]
  exact Matrix.PosDef.one

variable {full : List (List ℕ)} {mats : List (List (List ℤ))}

theorem sign_rule (T : Tables 2 2 [[0, 0], [0, 1], [1, 0]] full mats) (B : Backend) (hB : B.Valid) (stable : Bool) (c : ℝ) :
    (∀ α ∈ full, integND (momentQuadratureND B (full.map signMoment) mats none none false stable) (fun x => monomial x α * c) = signMoment α * c) ∧
    integND (momentQuadratureND B (full.map signMoment) mats none none false stable) (fun _ => c) = c ∧
    ∀ p ∈ momentQuadratureND B (full.map signMoment) mats none none false stable, p.2.length = 2 := by
  obtain ⟨hex, _, hnode⟩ := C21_nd_reproduces B hB 2 2 (by norm_num) (by norm_num) signMoment _ full mats T.basis_eq T.full_eq T.mats_eq sign_gram false stable
  have hsum := C22_nd_weights_sum_one B hB (full.map signMoment) mats (by rw [T.mats_len]; norm_num)
    (C22_applies 2 2 (by norm_num) T.hd mats T.mats_eq).2 none none false stable
  refine ⟨fun α hα => ?_, ?_, hnode⟩
  · simp only [mul_comm _ c]
    rw [integND_mul_left, hex α (T.mem_full.1 hα)]
    simp [signMoment]
  · have := integND_mul_left (momentQuadratureND B (full.map signMoment) mats none none false stable) c fun _ => 1
    simp only [mul_one] at this
    rw [this]
    have h2 : integND (momentQuadratureND B (full.map signMoment) mats none none false stable) (fun _ => 1) = 1 := by
      rw [integND]
      simpa using hsum
    rw [h2, mul_one]

/-- the affine change of variable with mean zero and unit scale. -/
theorem sign_rule_affine (T : Tables 2 2 [[0, 0], [0, 1], [1, 0]] full mats) (B : Backend) (hB : B.Valid) (stable : Bool) (sc : Option (List ℝ)) (hsc : ∀ c ∈ sc, c = [1, 1])
    (F : List ℝ → ℝ) : integND (momentQuadratureND B (full.map signMoment) mats (some [0, 0]) sc false stable) F
      = integND (momentQuadratureND B (full.map signMoment) mats none none false stable) F := by
  rw [rule_affine T]
  apply integND_congr
  intro p hp
  obtain ⟨a, b, hab⟩ : ∃ a b, p.2 = [a, b] := List.length_eq_two.1 ((sign_rule T B hB stable 1).2.2 p hp)
  rw [hab]
  cases sc with
  | none => simp [affineNode]
  | some c =>
    obtain rfl := hsc c rfl
    simp [affineNode]

/-- the law is drawn anew at every step and the measurements carry no information: the filters stay at the same moments. -/
theorem run_rms (T : Tables 2 2 [[0, 0], [0, 1], [1, 0]] full mats) (B : Backend) (hB : B.Valid) (stable : Bool) (ys : List ℝ) :
    RunOK (okRms B stable (fun (y : ℝ) _ => Real.exp (-y ^ 2)) [[0, 0], [0, 1], [1, 0]] full mats (.multiIndex fun _ α _ => signMoment α))
      (nextRms B stable (fun (y : ℝ) _ => Real.exp (-y ^ 2)) full mats (.multiIndex fun _ α _ => signMoment α)) (full.map signMoment) ys := by
  have hpred : predRms B stable full mats (.multiIndex fun _ α _ => signMoment α) (full.map signMoment) = full.map signMoment := by
    rw [predRms, wsumVec_row]
    exact List.map_congr_left fun α _ => (sign_rule T B hB stable _).2.1
  have hlik : ∀ y : ℝ, likRms B stable (fun (y : ℝ) _ => Real.exp (-y ^ 2)) full mats (.multiIndex fun _ α _ => signMoment α) (full.map signMoment) y = Real.exp (-y ^ 2) := by
    intro y
    rw [likRms, ruleRms, hpred]
    exact (sign_rule T B hB stable _).2.1
  have hnext : ∀ y : ℝ, nextRms B stable (fun (y : ℝ) _ => Real.exp (-y ^ 2)) full mats (.multiIndex fun _ α _ => signMoment α) (full.map signMoment) y = full.map signMoment := by
    intro y
    rw [nextRms, hlik, ruleRms, hpred]
    refine List.map_congr_left fun α hα => ?_
    rw [(sign_rule T B hB stable _).1 α hα, mul_div_cancel_right₀ _ (Real.exp_pos _).ne']
  have hg : (gramOn [[0, 0], [0, 1], [1, 0]] (momentAt full (full.map signMoment))).PosDef := by rw [T.gram]; exact sign_gram
  induction ys with
  | nil => trivial
  | cons y ys ih =>
    refine ⟨⟨hg, ?_, ?_⟩, ?_⟩
    · rw [hpred]; exact hg
    · rw [hlik]; exact Real.exp_pos _
    · rw [hnext]; exact ih

theorem run_scms (T : Tables 2 2 [[0, 0], [0, 1], [1, 0]] full mats) (B : Backend) (hB : B.Valid) (stable : Bool) (ys : List ℝ) :
    RunOK (okScms B stable (fun (y : ℝ) _ => Real.exp (-y ^ 2)) 2 [[0, 0], [0, 1], [1, 0]] full mats (.multiIndex fun _ α _ => signMoment α) (fun _ => ([0, 0], [1, 1])))
      (nextScms B stable (fun (y : ℝ) _ => Real.exp (-y ^ 2)) 2 full mats (.multiIndex fun _ α _ => signMoment α) (fun _ => ([0, 0], [1, 1])))
      (full.map signMoment, [0, 0], [1, 1]) ys := by
  have hc := fun c => (sign_rule T B hB stable c).2.1
  have ha := fun F => sign_rule_affine T B hB stable (some [1, 1]) (by simp) F
  have hpred : predScms B stable 2 full mats (.multiIndex fun _ α _ => signMoment α) (fun _ => ([0, 0], [1, 1])) (full.map signMoment, [0, 0], [1, 1])
      = (full.map signMoment, [0, 0], [1, 1]) := by
    have h1 : wsumVec 2 (momentQuadratureND B (full.map signMoment) mats (some [0, 0]) (some [1, 1]) false stable) (fun _ => [0, 0]) = [0, 0] := by
      simp [wsumVec, FilterND.wsum_eq, ha, hc, List.range_succ]
    have h2 : wsumVec 2 (momentQuadratureND B (full.map signMoment) mats (some [0, 0]) (some [1, 1]) false stable) (fun _ => [1, 1]) = [1, 1] := by
      simp [wsumVec, FilterND.wsum_eq, ha, hc, List.range_succ]
    simp only [predScms]
    rw [h1, h2, wsumVec_row]
    simp only [ha, hc]
    simp
  have hlik : ∀ y : ℝ, likScms B stable (fun (y : ℝ) _ => Real.exp (-y ^ 2)) 2 full mats (.multiIndex fun _ α _ => signMoment α) (fun _ => ([0, 0], [1, 1]))
      (full.map signMoment, [0, 0], [1, 1]) y = Real.exp (-y ^ 2) := by
    intro y
    rw [likScms, ruleScms, hpred]
    simp only [ha, hc]
  have hmem : ∀ α : List ℕ, α.length = 2 → α.sum ≤ 3 → α ∈ full := fun α h1 h2 => T.mem_full.2 ⟨h1, by simp, by simpa using h2⟩
  have hnext : ∀ y : ℝ, nextScms B stable (fun (y : ℝ) _ => Real.exp (-y ^ 2)) 2 full mats (.multiIndex fun _ α _ => signMoment α) (fun _ => ([0, 0], [1, 1]))
      (full.map signMoment, [0, 0], [1, 1]) y = (full.map signMoment, [0, 0], [1, 1]) := by
    intro y
    have he := (Real.exp_pos (-y ^ 2)).ne'
    have hr := fun α hα => (sign_rule T B hB stable (Real.exp (-y ^ 2))).1 α hα
    have hsub : ∀ (α : List ℕ) , integND (momentQuadratureND B (full.map signMoment) mats none none false stable)
        (fun x => monomial (List.zipWith (fun t m => (t - m) / 1) x [0, 0]) α * Real.exp (-y ^ 2))
        = integND (momentQuadratureND B (full.map signMoment) mats none none false stable) fun x => monomial x α * Real.exp (-y ^ 2) := by
      intro α
      apply integND_congr
      intro p hp
      obtain ⟨a, b, hab⟩ := List.length_eq_two.1 ((sign_rule T B hB stable 1).2.2 p hp)
      rw [hab]
      simp
    have hdiv : ∀ (α : List ℕ) , integND (momentQuadratureND B (full.map signMoment) mats none none false stable)
        (fun x => monomial (List.zipWith (· / ·) (List.zipWith (· - ·) x [0, 0]) [1, 1]) α * Real.exp (-y ^ 2))
        = integND (momentQuadratureND B (full.map signMoment) mats none none false stable) fun x => monomial x α * Real.exp (-y ^ 2) := by
      intro α
      apply integND_congr
      intro p hp
      obtain ⟨a, b, hab⟩ := List.length_eq_two.1 ((sign_rule T B hB stable 1).2.2 p hp)
      rw [hab]
      simp
    have hm : ((eyeRows 2).map fun α => integND (momentQuadratureND B (full.map signMoment) mats none none false stable)
        (fun x => monomial (x.map fun t => (t - 0) / 1) α * Real.exp (-y ^ 2)) / Real.exp (-y ^ 2)) = [0, 0] := by
      simp only [sub_zero, div_one, List.map_id']
      have e : eyeRows 2 = [[1, 0], [0, 1]] := by decide
      rw [e]
      simp only [List.map_cons, List.map_nil]
      rw [hr _ (hmem _ rfl (by simp)), hr _ (hmem _ rfl (by simp))]
      simp [signMoment]
    have hs : ((eyeRows 2).map fun α => Real.sqrt (integND (momentQuadratureND B (full.map signMoment) mats none none false stable)
        (fun x => monomial (List.zipWith (fun t m => (t - m) / 1) x [0, 0]) (α.map (· * 2)) * Real.exp (-y ^ 2)) / Real.exp (-y ^ 2))) = [1, 1] := by
      have e : eyeRows 2 = [[1, 0], [0, 1]] := by decide
      simp only [hsub]
      rw [e]
      simp only [List.map_cons, List.map_nil]
      rw [hr _ (hmem _ rfl (by simp)), hr _ (hmem _ rfl (by simp))]
      simp [signMoment, he]
    simp only [nextScms]
    rw [hlik, ruleScms, hpred]
    simp only [ha]
    rw [hm, hs]
    simp only [hdiv]
    congr 1
    refine List.map_congr_left fun α hα => ?_
    rw [hr α hα, mul_div_cancel_right₀ _ he]
  have hg : (gramOn [[0, 0], [0, 1], [1, 0]] (momentAt full (full.map signMoment))).PosDef := by rw [T.gram]; exact sign_gram
  have h1 : ∀ j < 2, (0 : ℝ) < ([1, 1] : List ℝ).getD j 0 := by
    intro j hj
    interval_cases j <;> simp
  induction ys with
  | nil => trivial
  | cons y ys ih =>
    refine ⟨⟨hg, ?_, ?_, ?_, ?_⟩, ?_⟩
    · rw [hpred]; exact hg
    · rw [hlik]; exact Real.exp_pos _
    · rw [hpred]; exact h1
    · rw [hnext]; exact h1
    · rw [hnext]; exact ih

theorem run_cms (T : Tables 2 2 [[0, 0], [0, 1], [1, 0]] full mats) (B : Backend) (hB : B.Valid) (stable : Bool) (ys : List ℝ) :
    RunOK (okCms B stable (fun (y : ℝ) _ => Real.exp (-y ^ 2)) 2 [[0, 0], [0, 1], [1, 0]] full mats (.multiIndex fun _ α _ => signMoment α) (fun _ => [0, 0]))
      (nextCms B stable (fun (y : ℝ) _ => Real.exp (-y ^ 2)) 2 full mats (.multiIndex fun _ α _ => signMoment α) (fun _ => [0, 0]))
      (full.map signMoment, [0, 0]) ys := by
  have hc := fun c => (sign_rule T B hB stable c).2.1
  have ha := fun F => sign_rule_affine T B hB stable none (by simp) F
  have hpred : predCms B stable 2 full mats (.multiIndex fun _ α _ => signMoment α) (fun _ => [0, 0]) (full.map signMoment, [0, 0])
      = (full.map signMoment, [0, 0]) := by
    have h1 : wsumVec 2 (momentQuadratureND B (full.map signMoment) mats (some [0, 0]) none false stable) (fun _ => [0, 0]) = [0, 0] := by
      simp [wsumVec, FilterND.wsum_eq, ha, hc, List.range_succ]
    simp only [predCms]
    rw [h1, wsumVec_row]
    simp only [ha, hc]
  have hlik : ∀ y : ℝ, likCms B stable (fun (y : ℝ) _ => Real.exp (-y ^ 2)) 2 full mats (.multiIndex fun _ α _ => signMoment α) (fun _ => [0, 0])
      (full.map signMoment, [0, 0]) y = Real.exp (-y ^ 2) := by
    intro y
    rw [likCms, ruleCms, hpred]
    simp only [ha, hc]
  have hmem : ∀ α : List ℕ, α.length = 2 → α.sum ≤ 3 → α ∈ full := fun α h1 h2 => T.mem_full.2 ⟨h1, by simp, by simpa using h2⟩
  have hnext : ∀ y : ℝ, nextCms B stable (fun (y : ℝ) _ => Real.exp (-y ^ 2)) 2 full mats (.multiIndex fun _ α _ => signMoment α) (fun _ => [0, 0])
      (full.map signMoment, [0, 0]) y = (full.map signMoment, [0, 0]) := by
    intro y
    have he := (Real.exp_pos (-y ^ 2)).ne'
    have hr := fun α hα => (sign_rule T B hB stable (Real.exp (-y ^ 2))).1 α hα
    have hsub : ∀ (α : List ℕ) , integND (momentQuadratureND B (full.map signMoment) mats none none false stable)
        (fun x => monomial (List.zipWith (· - ·) x [0, 0]) α * Real.exp (-y ^ 2))
        = integND (momentQuadratureND B (full.map signMoment) mats none none false stable) fun x => monomial x α * Real.exp (-y ^ 2) := by
      intro α
      apply integND_congr
      intro p hp
      obtain ⟨a, b, hab⟩ := List.length_eq_two.1 ((sign_rule T B hB stable 1).2.2 p hp)
      rw [hab]
      simp
    have hm : ((eyeRows 2).map fun α => integND (momentQuadratureND B (full.map signMoment) mats none none false stable)
        (fun x => monomial (x.map (· - 0)) α * Real.exp (-y ^ 2)) / Real.exp (-y ^ 2)) = [0, 0] := by
      simp only [sub_zero, List.map_id']
      have e : eyeRows 2 = [[1, 0], [0, 1]] := by decide
      rw [e]
      simp only [List.map_cons, List.map_nil]
      rw [hr _ (hmem _ rfl (by simp)), hr _ (hmem _ rfl (by simp))]
      simp [signMoment]
    simp only [nextCms]
    rw [hlik, ruleCms, hpred]
    simp only [ha]
    rw [hm]
    simp only [hsub]
    congr 1
    refine List.map_congr_left fun α hα => ?_
    rw [hr α hα, mul_div_cancel_right₀ _ he]
  have hg : (gramOn [[0, 0], [0, 1], [1, 0]] (momentAt full (full.map signMoment))).PosDef := by rw [T.gram]; exact sign_gram
  induction ys with
  | nil => trivial
  | cons y ys ih =>
    refine ⟨⟨hg, ?_, ?_⟩, ?_⟩
    · rw [hpred]; exact hg
    · rw [hlik]; exact Real.exp_pos _
    · rw [hnext]; exact ih

/-- the tables of the library for `N = 2`, `d = 2`. -/
example : ∃ full mats, Tables 2 2 [[0, 0], [0, 1], [1, 0]] full mats := by
  obtain ⟨b, f, m, h1, h2, h3, _⟩ := C05_gram_hankel_indices 2 2 (by norm_num) (by norm_num)
  have hb : b = [[0, 0], [0, 1], [1, 0]] := by
    have : MultiIndex.generateMultiIndices 2 (2 - 1) 0 = .ok [[0, 0], [0, 1], [1, 0]] := by rfl
    rw [this] at h1; cases h1; rfl
  subst hb
  exact ⟨f, m, ⟨by norm_num, by norm_num, h1, h2, h3⟩⟩

end Mfs.Props

import Verif.Lemmas.RuleCont

/-!
# C155: the rule and the one-dimensional filters depend continuously on their inputs
-/

namespace Mfs.Props

open Matrix Mfs.Spec Filter Topology Mfs.Quad1 Mfs.Filter1 Mfs.Cont Polynomial

variable {n : ℕ}

/-- **C155, rule.** The value of the rule on a continuous function is continuous in the moments, the mean and the scale, at
every valid moment vector; the valid moment vectors form an open set. Nothing is assumed on how the eigenvectors are chosen. -/
theorem C155_rule_continuous (B : Backend) (hB : B.Valid) (sort ldl : Bool) (f : ℝ → ℝ) (hf : Continuous f) :
    IsOpen {m : Fin n → ℝ | (gramOf (List.ofFn m)).PosDef} ∧
    ContinuousOn (fun p : (Fin n → ℝ) × ℝ × ℝ => ∑ i, (momentQuadrature B (List.ofFn p.1) p.2.1 p.2.2 sort ldl).1 i
      * f ((momentQuadrature B (List.ofFn p.1) p.2.1 p.2.2 sort ldl).2 i)) {p | (gramOf (List.ofFn p.1)).PosDef} := by
  constructor
  · rw [isOpen_iff_mem_nhds]
    intro m hm
    have := eventually_gram (LConv.ofFn (tendsto_id (α := Fin n → ℝ) (x := 𝓝 m))) hm
    filter_upwards [this] with m' hm'
    exact (gram_posDef_iff (List.length_ofFn)).2 hm'
  · intro p hp
    have hp' : Tendsto (fun q : (Fin n → ℝ) × ℝ × ℝ => q) (𝓝[{p | (gramOf (List.ofFn p.1)).PosDef}] p) (𝓝 p) := tendsto_id.mono_right nhdsWithin_le_nhds
    exact tendsto_rule B hB (LConv.ofFn ((continuous_fst.tendsto p).comp hp')) hp sort ldl
      (((continuous_fst.comp continuous_snd).tendsto p).comp hp') (((continuous_snd.comp continuous_snd).tendsto p).comp hp') (CConv.const hf)

/-- the eigenvalues of one decomposition appear in any other. -/
theorem eig_mem {m : ℕ} {K U U' : Matrix (Fin m) (Fin m) ℝ} {lam lam' : Fin m → ℝ} (h : IsEigh K U lam) (h' : IsEigh K U' lam') (i : Fin m) :
    ∃ j, lam' j = lam i := by
  by_contra hno
  push Not at hno
  have he := h.funMat_eq h' fun x => ∏ j, (x - lam' j)
  have hz : funMat U' lam' (fun x => ∏ j, (x - lam' j)) = 0 := by
    ext a b
    rw [funMat_apply, Matrix.zero_apply]
    refine Finset.sum_eq_zero fun k _ => ?_
    rw [Finset.prod_eq_zero (Finset.mem_univ k) (sub_self _), mul_zero]
  rw [hz] at he
  have h1 : Uᵀ * funMat U lam (fun x => ∏ j, (x - lam' j)) * U = diagonal fun k => ∏ j, (lam k - lam' j) := by
    rw [funMat]
    calc Uᵀ * (U * diagonal (fun k => ∏ j, (lam k - lam' j)) * Uᵀ) * U
        = (Uᵀ * U) * diagonal (fun k => ∏ j, (lam k - lam' j)) * (Uᵀ * U) := by simp only [Matrix.mul_assoc]
      _ = _ := by rw [h.orth', Matrix.one_mul, Matrix.mul_one]
  rw [he, Matrix.mul_zero, Matrix.zero_mul] at h1
  have h2 := congrFun (congrFun h1 i) i
  rw [diagonal_apply_eq, Matrix.zero_apply] at h2
  exact Finset.prod_ne_zero_iff.2 (fun j _ => sub_ne_zero.2 (hno j).symm) h2.symm

/-- sorted eigenvalues and the squared entries of the eigenvectors are continuous where the eigenvalues are distinct. -/
theorem tendsto_sorted {ι : Type*} {l : Filter ι} {m : ℕ} {K U : ι → Matrix (Fin m) (Fin m) ℝ} {lam : ι → Fin m → ℝ} {K0 U0 : Matrix (Fin m) (Fin m) ℝ}
    {lam0 : Fin m → ℝ} (hK : Tendsto K l (𝓝 K0)) (hE : ∀ᶠ i in l, IsEigh (K i) (U i) (lam i) ∧ Monotone (lam i)) (h0 : IsEigh K0 U0 lam0)
    (hs : StrictMono lam0) (j : Fin m) :
    Tendsto (fun i => lam i j) l (𝓝 (lam0 j)) ∧ ∀ a, Tendsto (fun i => U i a j ^ 2) l (𝓝 (U0 a j ^ 2)) := by
  have key : ∀ g : Ultrafilter ι, (g : Filter ι) ≤ l → Tendsto (fun i => lam i j) g (𝓝 (lam0 j)) ∧ ∀ a, Tendsto (fun i => U i a j ^ 2) g (𝓝 (U0 a j ^ 2)) := by
    intro g hg
    obtain ⟨U', v', hU', hv', hE'⟩ := exists_lim_eigh g (hK.mono_left hg) ((hE.filter_mono hg).mono fun i hi => hi.1)
    have hm : Monotone v' := by
      intro a b hab
      refine le_of_tendsto_of_tendsto (((continuous_apply a).tendsto _).comp hv') (((continuous_apply b).tendsto _).comp hv') ?_
      filter_upwards [hE.filter_mono hg] with i hi using hi.2 hab
    choose φ hφ using eig_mem h0 hE'
    have hφi : Function.Injective φ := fun a b hab => hs.injective (by rw [← hφ a, ← hφ b, hab])
    have hφs : Function.Surjective φ := Finite.injective_iff_surjective.1 hφi
    have hinj : Function.Injective v' := fun a b hab => by
      obtain ⟨a', rfl⟩ := hφs a
      obtain ⟨b', rfl⟩ := hφs b
      rw [hφ, hφ] at hab
      rw [hs.injective hab]
    have heq : v' = lam0 := by
      refine ((hm.strictMono_of_injective hinj).range_inj hs).1 ?_
      ext x
      constructor
      · rintro ⟨a, rfl⟩
        obtain ⟨a', rfl⟩ := hφs a
        exact ⟨a', (hφ a').symm⟩
      · rintro ⟨a, rfl⟩
        exact ⟨φ a, hφ a⟩
    subst heq
    refine ⟨((continuous_apply j).tendsto _).comp hv', fun a => ?_⟩
    have h1 := congrFun (congrFun (h0.funMat_eq hE' fun x => if x = v' j then 1 else 0) a) a
    simp only [funMat_apply, hinj.eq_iff, mul_ite, mul_one, mul_zero, Finset.sum_ite_eq', Finset.mem_univ, if_true, ← sq] at h1
    rw [h1]
    exact (tendsto_entry hU' a j).pow 2
  rw [tendsto_iff_ultrafilter]
  refine ⟨fun g hg => (key g hg).1, fun a => ?_⟩
  rw [tendsto_iff_ultrafilter]
  exact fun g hg => (key g hg).2 a

/-- **C155, nodes.** With `sort_nodes`, every single node and every single weight is continuous in the moments, the mean and
the scale. -/
theorem C155_nodes_continuous (B : Backend) (hB : B.Valid) (ldl : Bool) (j : Fin (n / 2)) :
    ContinuousOn (fun p : (Fin n → ℝ) × ℝ × ℝ => (momentQuadrature B (List.ofFn p.1) p.2.1 p.2.2 true ldl).2 (Fin.cast (by simp) j))
      {p | (gramOf (List.ofFn p.1)).PosDef} ∧
    ContinuousOn (fun p : (Fin n → ℝ) × ℝ × ℝ => (momentQuadrature B (List.ofFn p.1) p.2.1 p.2.2 true ldl).1 (Fin.cast (by simp) j))
      {p | (gramOf (List.ofFn p.1)).PosDef} := by
  rw [ContinuousOn, ContinuousOn, ← forall₂_and]
  intro p hp
  have hp' : Tendsto (fun q : (Fin n → ℝ) × ℝ × ℝ => q) (𝓝[{p | (gramOf (List.ofFn p.1)).PosDef}] p) (𝓝 p) := tendsto_id.mono_right nhdsWithin_le_nhds
  have hL := LConv.ofFn ((continuous_fst.tendsto p).comp hp')
  obtain ⟨K, U, lam, K0, U0, lam0, hK, h0, hd0, hd⟩ := rules_data B hB hL hp true ldl
  have hmono : ∀ (s : List ℝ) (hs : s.length = n) (lm : Fin (n / 2) → ℝ), (gramOf s).PosDef →
      (∀ i : Fin (n / 2), (momentQuadrature B s 0 1 true ldl).2 (Fin.cast (by rw [hs]) i) = 1 * lm i + 0) → StrictMono lm := by
    intro s hs lm hpd h
    subst hs
    have h1 := (C12_backend_independent B B hB hB s hpd 0 1 true true ldl (fun _ => 0)).2 zero_le_one
    have h2 : lm = (momentQuadrature B s 0 1 true ldl).2 := by
      funext i
      have := h i
      simp only [Fin.cast_eq_self] at this
      rw [this]
      ring
    rw [h2]
    refine h1.strictMono_of_injective ?_
    exact (momentQuadrature_reproduces B hB _ hpd true ldl).injective (posDef_normalised _ hpd)
  have hs0 := hmono _ hL.len0 lam0 hp fun i => (hd0 0 1 i).2
  have hev : ∀ᶠ i in 𝓝[{p | (gramOf (List.ofFn p.1)).PosDef}] p, IsEigh (K i) (U i) (lam i) ∧ Monotone (lam i) := by
    filter_upwards [hd, self_mem_nhdsWithin] with i hi hpi
    exact ⟨hi.1, (hmono _ (hL.len i) (lam i) hpi fun j => (hi.2 0 1 j).2).monotone⟩
  obtain ⟨t1, t2⟩ := tendsto_sorted hK hev h0 hs0 j
  constructor
  · rw [ContinuousWithinAt]
    rw [(hd0 p.2.1 p.2.2 j).2]
    refine ((((continuous_snd.comp continuous_snd).tendsto p).comp hp').mul t1 |>.add (((continuous_fst.comp continuous_snd).tendsto p).comp hp')).congr' ?_
    filter_upwards [hd] with i hi
    exact ((hi.2 _ _ j).2).symm
  · rw [ContinuousWithinAt]
    rw [(hd0 p.2.1 p.2.2 j).1]
    refine (t2 _).congr' ?_
    filter_upwards [hd] with i hi
    exact ((hi.2 _ _ j).1).symm

variable {Y : Type} [TopologicalSpace Y] {B : Backend} {pdf : Y → ℝ → ℝ} {E : ℝ → ℝ[X] →ₗ[ℝ] ℝ}

theorem cconv_pdf_pow {ι : Type*} {l : Filter ι} (hpdf : Continuous fun p : Y × ℝ => pdf p.1 p.2) {y : ι → Y} {y0 : Y} (hy : Tendsto y l (𝓝 y0)) {m c : ι → ℝ} {m0 c0 : ℝ}
    (hm : Tendsto m l (𝓝 m0)) (hc : Tendsto c l (𝓝 c0)) (hc0 : c0 ≠ 0) (k : ℕ) :
    CConv l (fun i x => ((x - m i) / c i) ^ k * pdf (y i) x) fun x => ((x - m0) / c0) ^ k * pdf y0 x := by
  refine CConv.mul (CConv.pow (fun x => ?_) k) (CConv.param hpdf hy)
  exact (tendsto_snd.sub (hm.comp tendsto_fst)).div (hc.comp tendsto_fst) hc0

/-- **C155, raw moments.** Let the conditional laws be positive on squares with moments continuous in the state, and the
measurement density positive and jointly continuous. Then the negative log-likelihood and all filtering moments are jointly
continuous in the initial moments and the measurements. -/
theorem C155_filter_rms (hB : B.Valid) (stable : Bool) (hpos : ∀ y x, 0 < pdf y x) (hpdf : Continuous fun p : Y × ℝ => pdf p.1 p.2) (hn : 2 ≤ n)
    (hE : ∀ x q, q ≠ 0 → q.natDegree < n / 2 → 0 < E x (q ^ 2)) (hEc : ∀ k, Continuous fun x => E x (X ^ k)) (P : ℝ → ℕ → ℝ)
    (hP : ∀ x, ∀ k < n, P x k = E x (X ^ k)) (T : ℕ) :
    ContinuousOn (fun p : (Fin n → ℝ) × (Fin T → Y) => (filterRms B P pdf (List.ofFn p.1) (List.ofFn p.2) stable).2)
      {p | (gramOf (List.ofFn p.1)).PosDef} ∧
    ∀ t < T, ∀ k < n, ContinuousOn (fun p : (Fin n → ℝ) × (Fin T → Y) =>
      ((filterRms B P pdf (List.ofFn p.1) (List.ofFn p.2) stable).1.getD t []).getD k 0) {p | (gramOf (List.ofFn p.1)).PosDef} := by
  have hnb := fun s hs => ((C126_never_breaks B hB stable pdf hpos E n hn hE []).1 P hP s hs).1
  have key : ∀ p : (Fin n → ℝ) × (Fin T → Y), (gramOf (List.ofFn p.1)).PosDef → _ := fun p hp =>
    traj_cont (l := 𝓝[{p : (Fin n → ℝ) × (Fin T → Y) | (gramOf (List.ofFn p.1)).PosDef}] p) (LConv (𝓝[{p | (gramOf (List.ofFn p.1)).PosDef}] p) n)
      (fun s => (gramOf s).PosDef) (g := nextRms B stable P pdf n) (lik := likRms B stable P pdf n) (by
        intro s s0 y y0 hs h0 hy
        have hpred : LConv (𝓝[{p | (gramOf (List.ofFn p.1)).PosDef}] p) n (fun i => predRms B stable P n (s i)) (predRms B stable P n s0) := by
          refine LConv.map_range fun k hk => tendsto_rule B hB hs h0 false stable tendsto_const_nhds tendsto_const_nhds (CConv.const ?_)
          simp only [hP _ k hk]
          exact hEc k
        have hg := hnb s0 hs.len0
        obtain ⟨hl0, hnx⟩ := next_posDef hB hn hg y0 (hpos y0)
        have hlik : Tendsto (fun i => likRms B stable P pdf n (s i) (y i)) _ (𝓝 (likRms B stable P pdf n s0 y0)) :=
          tendsto_rule B hB hpred hg false stable tendsto_const_nhds tendsto_const_nhds (CConv.param hpdf hy)
        refine ⟨LConv.map_range fun k hk => ?_, hnx, hl0, hlik⟩
        refine (tendsto_rule B hB hpred hg false stable tendsto_const_nhds tendsto_const_nhds ?_).div hlik hl0.ne'
        have := cconv_pdf_pow hpdf hy (tendsto_const_nhds (x := (0 : ℝ))) (tendsto_const_nhds (x := (1 : ℝ))) one_ne_zero k
        simpa only [sub_zero, div_one] using this) [] T (fun p => p.2) p.2
      ((continuous_snd.tendsto p).comp (tendsto_id.mono_right nhdsWithin_le_nhds)) (fun p => List.ofFn p.1) (List.ofFn p.1)
      (LConv.ofFn ((continuous_fst.tendsto p).comp (tendsto_id.mono_right nhdsWithin_le_nhds))) hp
  simp only [filterRms_eq, List.length_ofFn]
  refine ⟨fun p hp => (key p hp).1.neg, fun t ht k hk p hp => ((key p hp).2 t ht).lim k hk⟩

/-- **C155, central moments.** The same for the filter of central moments, jointly with the initial mean; the output means are
continuous too. -/
theorem C155_filter_cms (hB : B.Valid) (stable : Bool) (hpos : ∀ y x, 0 < pdf y x) (hpdf : Continuous fun p : Y × ℝ => pdf p.1 p.2) (hn : 2 ≤ n)
    (hE : ∀ x q, q ≠ 0 → q.natDegree < n / 2 → 0 < E x (q ^ 2)) (hEc : ∀ k, Continuous fun x => E x (X ^ k)) (P : ℝ → ℕ → ℝ → ℝ)
    (hP : ∀ x m, ∀ k < n, P x k m = E x ((X - C m) ^ k)) (cm : ℝ → ℝ) (hcm : Continuous cm) (T : ℕ) :
    ContinuousOn (fun p : (Fin n → ℝ) × ℝ × (Fin T → Y) => (filterCms B P cm pdf (List.ofFn p.1) p.2.1 (List.ofFn p.2.2) stable).2)
      {p | (gramOf (List.ofFn p.1)).PosDef} ∧
    ∀ t < T, ContinuousOn (fun p : (Fin n → ℝ) × ℝ × (Fin T → Y) =>
        ((filterCms B P cm pdf (List.ofFn p.1) p.2.1 (List.ofFn p.2.2) stable).1.getD t ([], 0)).2) {p | (gramOf (List.ofFn p.1)).PosDef} ∧
      ∀ k < n, ContinuousOn (fun p : (Fin n → ℝ) × ℝ × (Fin T → Y) =>
        ((filterCms B P cm pdf (List.ofFn p.1) p.2.1 (List.ofFn p.2.2) stable).1.getD t ([], 0)).1.getD k 0) {p | (gramOf (List.ofFn p.1)).PosDef} := by
  have hnb := fun s y => (C126_never_breaks B hB stable pdf hpos E n hn hE [y]).2.1 P cm hP s
  have key : ∀ p : (Fin n → ℝ) × ℝ × (Fin T → Y), (gramOf (List.ofFn p.1)).PosDef → _ := fun p hp =>
    traj_cont (l := 𝓝[{p : (Fin n → ℝ) × ℝ × (Fin T → Y) | (gramOf (List.ofFn p.1)).PosDef}] p)
      (fun s s0 => LConv (𝓝[{p : (Fin n → ℝ) × ℝ × (Fin T → Y) | (gramOf (List.ofFn p.1)).PosDef}] p) n (fun i => (s i).1) s0.1 ∧
        Tendsto (fun i => (s i).2) (𝓝[{p | (gramOf (List.ofFn p.1)).PosDef}] p) (𝓝 s0.2))
      (fun s => (gramOf s.1).PosDef) (g := nextCms B stable P cm pdf n) (lik := likCms B stable P cm pdf n) (by
        rintro s ⟨s0, m0⟩ y y0 ⟨hs, hm⟩ h0 hy
        dsimp only at hs hm h0
        have hmean : Tendsto (fun i => (predCms B stable P cm n (s i)).2) _ (𝓝 (predCms B stable P cm n (s0, m0)).2) :=
          tendsto_rule B hB hs h0 false stable hm tendsto_const_nhds (CConv.const hcm)
        have hpred : LConv (𝓝[{p | (gramOf (List.ofFn p.1)).PosDef}] p) n (fun i => (predCms B stable P cm n (s i)).1) (predCms B stable P cm n (s0, m0)).1 := by
          refine LConv.map_range fun k hk => tendsto_rule B hB hs h0 false stable hm tendsto_const_nhds ?_
          simp only [hP _ _ k hk]
          have := cconv_affine hEc hmean (tendsto_const_nhds (x := (1 : ℝ))) k
          simp only [C_1, one_mul] at this
          exact this
        obtain ⟨hg, hx⟩ := hnb s0 y0 m0 hs.len0
        rw [filterCms_eq, hs.len0] at hx
        have hnx := (hx (nextCms B stable P cm pdf n (s0, m0) y0) (by simp [traj])).1
        have hl0 : 0 < likCms B stable P cm pdf n (s0, m0) y0 := by
          rw [likCms]
          exact integ_pos_of_pos B hB _ (by simpa [predCms] using hn) _ _ _ _ _ (hpos y0)
        have hlik : Tendsto (fun i => likCms B stable P cm pdf n (s i) (y i)) _ (𝓝 (likCms B stable P cm pdf n (s0, m0) y0)) :=
          tendsto_rule B hB hpred hg false stable hmean tendsto_const_nhds (CConv.param hpdf hy)
        have hmn : Tendsto (fun i => (nextCms B stable P cm pdf n (s i) (y i)).2) (𝓝[{p | (gramOf (List.ofFn p.1)).PosDef}] p) (𝓝 (nextCms B stable P cm pdf n (s0, m0) y0).2) := by
          refine (tendsto_rule B hB hpred hg false stable hmean tendsto_const_nhds ?_).div hlik hl0.ne'
          have := cconv_pdf_pow hpdf hy (tendsto_const_nhds (x := (0 : ℝ))) (tendsto_const_nhds (x := (1 : ℝ))) one_ne_zero 1
          simp only [div_one] at this
          exact this
        refine ⟨⟨LConv.map_range fun k hk => ?_, hmn⟩, hnx, hl0, hlik⟩
        refine (tendsto_rule B hB hpred hg false stable hmean tendsto_const_nhds ?_).div hlik hl0.ne'
        have := cconv_pdf_pow hpdf hy hmn (tendsto_const_nhds (x := (1 : ℝ))) one_ne_zero k
        simp only [div_one] at this
        exact this) ([], 0) T (fun p => p.2.2) p.2.2
      (((continuous_snd.comp continuous_snd).tendsto p).comp (tendsto_id.mono_right nhdsWithin_le_nhds)) (fun p => (List.ofFn p.1, p.2.1)) (List.ofFn p.1, p.2.1)
      ⟨LConv.ofFn ((continuous_fst.tendsto p).comp (tendsto_id.mono_right nhdsWithin_le_nhds)),
        ((continuous_fst.comp continuous_snd).tendsto p).comp (tendsto_id.mono_right nhdsWithin_le_nhds)⟩ hp
  simp only [filterCms_eq, List.length_ofFn]
  refine ⟨fun p hp => (key p hp).1.neg, fun t ht => ⟨fun p hp => ((key p hp).2 t ht).2, fun k hk p hp => ((key p hp).2 t ht).1.lim k hk⟩⟩

/-- **C155, scaled moments.** The same for the filter of scaled moments, jointly with the initial mean and scale; the output
means and scales are continuous too. -/
theorem C155_filter_scms (hB : B.Valid) (stable : Bool) (hpos : ∀ y x, 0 < pdf y x) (hpdf : Continuous fun p : Y × ℝ => pdf p.1 p.2) (hn : 4 ≤ n)
    (hE : ∀ x q, q ≠ 0 → q.natDegree < n / 2 → 0 < E x (q ^ 2)) (hEc : ∀ k, Continuous fun x => E x (X ^ k)) (P : ℝ → ℕ → ℝ → ℝ → ℝ)
    (hP : ∀ x m s, ∀ k < n, P x k m s = E x ((C s⁻¹ * (X - C m)) ^ k)) (cm cv : ℝ → ℝ) (hcm : Continuous cm) (hcv : Continuous cv)
    (hcv0 : ∀ x, 0 < cv x) (T : ℕ) :
    ContinuousOn (fun p : (Fin n → ℝ) × ℝ × ℝ × (Fin T → Y) =>
        (filterScms B P cm cv pdf (List.ofFn p.1) p.2.1 p.2.2.1 (List.ofFn p.2.2.2) stable).2) {p | (gramOf (List.ofFn p.1)).PosDef} ∧
    ∀ t < T, ContinuousOn (fun p : (Fin n → ℝ) × ℝ × ℝ × (Fin T → Y) =>
        ((filterScms B P cm cv pdf (List.ofFn p.1) p.2.1 p.2.2.1 (List.ofFn p.2.2.2) stable).1.getD t ([], 0, 0)).2)
        {p | (gramOf (List.ofFn p.1)).PosDef} ∧
      ∀ k < n, ContinuousOn (fun p : (Fin n → ℝ) × ℝ × ℝ × (Fin T → Y) =>
        ((filterScms B P cm cv pdf (List.ofFn p.1) p.2.1 p.2.2.1 (List.ofFn p.2.2.2) stable).1.getD t ([], 0, 0)).1.getD k 0)
        {p | (gramOf (List.ofFn p.1)).PosDef} := by
  have hnb := fun s y => (C126_never_breaks B hB stable pdf hpos E n (by omega) hE [y]).2.2 hn P cm cv hcv0 hP s
  have key : ∀ p : (Fin n → ℝ) × ℝ × ℝ × (Fin T → Y), (gramOf (List.ofFn p.1)).PosDef → _ := fun p hp =>
    traj_cont (l := 𝓝[{p : (Fin n → ℝ) × ℝ × ℝ × (Fin T → Y) | (gramOf (List.ofFn p.1)).PosDef}] p)
      (fun s s0 => LConv (𝓝[{p : (Fin n → ℝ) × ℝ × ℝ × (Fin T → Y) | (gramOf (List.ofFn p.1)).PosDef}] p) n (fun i => (s i).1) s0.1 ∧
        Tendsto (fun i => (s i).2) (𝓝[{p | (gramOf (List.ofFn p.1)).PosDef}] p) (𝓝 s0.2))
      (fun s => (gramOf s.1).PosDef) (g := nextScms B stable P cm cv pdf n) (lik := likScms B stable P cm cv pdf n) (by
        rintro s ⟨s0, m0, c0⟩ y y0 ⟨hs, hmc⟩ h0 hy
        dsimp only at hs hmc h0
        have hm : Tendsto (fun i => (s i).2.1) _ (𝓝 m0) := (continuous_fst.tendsto (m0, c0)).comp hmc
        have hc : Tendsto (fun i => (s i).2.2) _ (𝓝 c0) := (continuous_snd.tendsto (m0, c0)).comp hmc
        have hmean : Tendsto (fun i => (predScms B stable P cm cv n (s i)).2.1) _ (𝓝 (predScms B stable P cm cv n (s0, m0, c0)).2.1) :=
          tendsto_rule B hB hs h0 false stable hm hc (CConv.const hcm)
        have hscale : Tendsto (fun i => (predScms B stable P cm cv n (s i)).2.2) _ (𝓝 (predScms B stable P cm cv n (s0, m0, c0)).2.2) :=
          (Real.continuous_sqrt.tendsto _).comp (tendsto_rule B hB hs h0 false stable hm hc (CConv.const hcv))
        have hsp : 0 < (predScms B stable P cm cv n (s0, m0, c0)).2.2 :=
          Real.sqrt_pos.2 (integ_pos_of_pos B hB _ (by rw [hs.len0]; omega) _ _ _ _ _ hcv0)
        have hpred : LConv (𝓝[{p | (gramOf (List.ofFn p.1)).PosDef}] p) n (fun i => (predScms B stable P cm cv n (s i)).1) (predScms B stable P cm cv n (s0, m0, c0)).1 := by
          refine LConv.map_range fun k hk => tendsto_rule B hB hs h0 false stable hm hc ?_
          simp only [hP _ _ _ k hk]
          exact cconv_affine hEc hmean (hscale.inv₀ hsp.ne') k
        obtain ⟨hg, hx⟩ := hnb s0 y0 m0 c0 hs.len0
        rw [filterScms_eq, hs.len0] at hx
        obtain ⟨hnx, hsn, -⟩ := hx (nextScms B stable P cm cv pdf n (s0, m0, c0) y0) (by simp [traj])
        have hl0 : 0 < likScms B stable P cm cv pdf n (s0, m0, c0) y0 := by
          rw [likScms]
          exact integ_pos_of_pos B hB _ (by simp [predScms]; omega) _ _ _ _ _ (hpos y0)
        have hlik : Tendsto (fun i => likScms B stable P cm cv pdf n (s i) (y i)) _ (𝓝 (likScms B stable P cm cv pdf n (s0, m0, c0) y0)) :=
          tendsto_rule B hB hpred hg false stable hmean hscale (CConv.param hpdf hy)
        have hmn : Tendsto (fun i => (nextScms B stable P cm cv pdf n (s i) (y i)).2.1) _
            (𝓝 (nextScms B stable P cm cv pdf n (s0, m0, c0) y0).2.1) :=
          (tendsto_rule B hB hpred hg false stable hmean hscale (cconv_pdf_pow hpdf hy tendsto_const_nhds tendsto_const_nhds one_ne_zero 1)).div
            hlik hl0.ne'
        have hscn : Tendsto (fun i => (nextScms B stable P cm cv pdf n (s i) (y i)).2.2) _
            (𝓝 (nextScms B stable P cm cv pdf n (s0, m0, c0) y0).2.2) :=
          (Real.continuous_sqrt.tendsto _).comp
            ((tendsto_rule B hB hpred hg false stable hmean hscale (cconv_pdf_pow hpdf hy hmn tendsto_const_nhds one_ne_zero 2)).div hlik hl0.ne')
        refine ⟨⟨LConv.map_range fun k hk => ?_, hmn.prodMk_nhds hscn⟩, hnx, hl0, hlik⟩
        exact (tendsto_rule B hB hpred hg false stable hmean hscale (cconv_pdf_pow hpdf hy hmn hscn hsn.ne' k)).div hlik hl0.ne') ([], 0, 0) T
      (fun p => p.2.2.2) p.2.2.2
      (((continuous_snd.comp (continuous_snd.comp continuous_snd)).tendsto p).comp (tendsto_id.mono_right nhdsWithin_le_nhds))
      (fun p => (List.ofFn p.1, p.2.1, p.2.2.1)) (List.ofFn p.1, p.2.1, p.2.2.1)
      ⟨LConv.ofFn ((continuous_fst.tendsto p).comp (tendsto_id.mono_right nhdsWithin_le_nhds)),
        (((continuous_fst.comp continuous_snd).prodMk (continuous_fst.comp (continuous_snd.comp continuous_snd))).tendsto p).comp
          (tendsto_id.mono_right nhdsWithin_le_nhds)⟩ hp
  simp only [filterScms_eq, List.length_ofFn]
  refine ⟨fun p hp => (key p hp).1.neg, fun t ht => ⟨fun p hp => ((key p hp).2 t ht).2, fun k hk p hp => ((key p hp).2 t ht).1.lim k hk⟩⟩

open Mfs.Moments1

/-- the moments of normal laws are continuous in mean and variance. -/
theorem continuous_gaussL_pow {mu v : ℝ → ℝ} (hmu : Continuous mu) (hv : Continuous v) (hv0 : ∀ x, 0 ≤ v x) (k : ℕ) :
    Continuous fun x => gaussL (mu x) (v x).toNNReal (X ^ k) := by
  have h : ∀ x, gaussL (mu x) (v x).toNNReal (X ^ k)
      = ∑ j ∈ Finset.range (k + 1), √(v x) ^ j * mu x ^ (k - j) * (k.choose j : ℝ) * gaussL 0 1 (X ^ j) := by
    intro x
    have h1 := gaussL_affine 0 1 (mu x) (√(v x)) (X ^ k)
    have h2 : (.mk (√(v x) ^ 2) (sq_nonneg _) * 1 : NNReal) = (v x).toNNReal := by
      ext
      rw [Real.coe_toNNReal _ (hv0 x), mul_one]
      exact Real.sq_sqrt (hv0 x)
    rw [h2, mul_zero, zero_add] at h1
    rw [h1, pow_comp, X_comp, add_pow, map_sum]
    refine Finset.sum_congr rfl fun j _ => ?_
    have : (C √(v x) * X) ^ j * C (mu x) ^ (k - j) * ((k.choose j : ℕ) : ℝ[X]) = (√(v x) ^ j * mu x ^ (k - j) * (k.choose j : ℝ)) • X ^ j := by
      rw [smul_eq_C_mul, mul_pow, ← C_pow, ← C_pow, C_mul, C_mul, ← C_eq_natCast]
      ring_nf
    rw [this, map_smul, smul_eq_mul]
  simp only [h]
  refine continuous_finsetSum _ fun j _ => ?_
  fun_prop

/-- **C155, Euler–Maruyama.** With the moments of `sde_cond_moments_euler` for continuous drift and continuous non-vanishing
dispersion, the filters of raw and of central moments are continuous in the initial moments (and mean) and the measurements. -/
theorem C155_euler (hB : B.Valid) (stable : Bool) (hpos : ∀ y x, 0 < pdf y x) (hpdf : Continuous fun p : Y × ℝ => pdf p.1 p.2) (hn : 2 ≤ n)
    (drift dispersion : ℝ → ℝ) (hdr : Continuous drift) (hdi : Continuous dispersion) (hdi0 : ∀ x, dispersion x ≠ 0) (dt : ℝ) (hdt : 0 < dt)
    (N : ℕ) (hN : n ≤ 2 * N) (T : ℕ) :
    let F := sdeCondMomentsEuler drift dispersion dt N
    ContinuousOn (fun p : (Fin n → ℝ) × (Fin T → Y) => (filterRms B F.raw pdf (List.ofFn p.1) (List.ofFn p.2) stable).2)
      {p | (gramOf (List.ofFn p.1)).PosDef} ∧
    ContinuousOn (fun p : (Fin n → ℝ) × ℝ × (Fin T → Y) => (filterCms B F.central F.mean pdf (List.ofFn p.1) p.2.1 (List.ofFn p.2.2) stable).2)
      {p | (gramOf (List.ofFn p.1)).PosDef} := by
  intro F
  have hE := fun x q (hq : q ≠ 0) (_ : q.natDegree < n / 2) => euler_pos drift dispersion dt hdt hdi0 x q hq
  have hEc := fun k => continuous_gaussL_pow (mu := fun x => x + drift x * dt) (v := fun x => dispersion x ^ 2 * dt) (by fun_prop) (by fun_prop)
    (fun x => by positivity) k
  refine ⟨(C155_filter_rms hB stable hpos hpdf hn hE hEc F.raw
    (fun x k hk => (euler_functional drift dispersion dt hdt.le N x k (by omega)).1) T).1, (C155_filter_cms hB stable hpos hpdf hn hE hEc F.central
    (fun x m k hk => (euler_functional drift dispersion dt hdt.le N x k (by omega)).2 m) F.mean ?_ T).1⟩
  change Continuous fun x => x + drift x * dt
  fun_prop

/-- the hypotheses at the Beneš drift, a normal measurement and a valid moment vector. -/
example : theBackend.Valid ∧ (∀ y x : ℝ, 0 < Real.exp (-(y - x) ^ 2 / 2)) ∧ (Continuous fun p : ℝ × ℝ => Real.exp (-(p.1 - p.2) ^ 2 / 2)) ∧
    Continuous Real.tanh ∧ (∀ x : ℝ, (fun _ => (1 : ℝ)) x ≠ 0) ∧ (gramOf (List.ofFn ![(1 : ℝ), 0, 1, 0])).PosDef :=
  ⟨theBackend_valid, fun _ _ => Real.exp_pos _, by fun_prop, by
    simp only [funext Real.tanh_eq_sinh_div_cosh]
    exact Real.continuous_sinh.div Real.continuous_cosh fun x => (Real.cosh_pos x).ne', by simp,
    by
      have : List.ofFn ![(1 : ℝ), 0, 1, 0] = [1, 0, 1, 0] := by simp [List.ofFn_succ]
      exact (congrArg (fun l => (gramOf l).PosDef) this).mpr gramOf_example⟩

end Mfs.Props

import Verif.Lemmas.TmeSmooth
import Verif.Model.TmeNan

/-!
# Lemmas for C176 and C177: runs along which all conditional variances are positive
-/

namespace Mfs.TmeNan

open Matrix Filter Topology Mfs.Spec Mfs.Quad1 Mfs.Filter1 Mfs.Cont Mfs.Smooth Mfs.Jvp Mfs.Moments1 Mfs.SsModels Mfs.Props Polynomial
open scoped ContDiff

variable {B : Backend} {n : ℕ} {Y : Type}

/-- a property holds at all nodes of the rule if and only if it holds at all sorted nodes. -/
theorem forall_nodes_iff (hB : B.Valid) (ms : List ℝ) (hl : ms.length = n) (hpd : (gramOf ms).PosDef) (m c : ℝ) (sort ldl : Bool) (Q : ℝ → Prop) :
    (∀ j, Q ((momentQuadrature B ms m c sort ldl).2 j)) ↔ ∀ i, Q (c * (nw B ldl ms hl).2 i + m) := by
  classical
  have hp := (gram_posDef_iff hl).1 hpd
  obtain ⟨-, hw, -, hi⟩ := nw_spec B hB ldl ms hl hp
  have h1 := hi m c sort fun x => if Q x then 0 else 1
  have hw' : ∀ j, 0 < (momentQuadrature B ms m c sort ldl).1 j := fun j => by
    subst hl
    rw [(momentQuadrature_affine B ms m c sort ldl).1]
    exact (momentQuadrature_reproduces B hB ms hp sort ldl).weight_pos (posDef_normalised _ hp) j
  have key : ∀ {k : ℕ} (w : Fin k → ℝ) (x : Fin k → ℝ), (∀ i, 0 < w i) → ((∑ i, w i * (if Q (x i) then 0 else 1)) = 0 ↔ ∀ i, Q (x i)) := by
    intro k w x hw
    rw [Finset.sum_eq_zero_iff_of_nonneg fun i _ => mul_nonneg (hw i).le (by split_ifs <;> norm_num)]
    refine forall_congr' fun i => ?_
    by_cases hq : Q (x i) <;> simp [hq, (hw i).ne']
  rw [← key _ _ hw, ← h1, integ, key _ _ hw']

/-- all variances at the nodes of the current rule are positive. -/
def VarPos (B : Backend) (V : ℝ → ℝ) (s : List ℝ × ℝ) : Prop := ∀ i, 0 < V ((momentQuadrature B s.1 s.2 1 false false).2 i)

/-- the conditional moments only matter at the nodes. -/
theorem predCms_congr {P P' : ℝ → ℕ → ℝ → ℝ} (cm : ℝ → ℝ) (s : List ℝ × ℝ)
    (h : ∀ i, ∀ k < n, ∀ c, P ((momentQuadrature B s.1 s.2 1 false false).2 i) k c = P' ((momentQuadrature B s.1 s.2 1 false false).2 i) k c) :
    predCms B false P cm n s = predCms B false P' cm n s := by
  simp only [predCms, Prod.mk.injEq, and_true]
  refine List.map_congr_left fun k hk => ?_
  rw [integ, integ]
  exact Finset.sum_congr rfl fun i _ => by rw [h i k (List.mem_range.1 hk)]

/-- the central moments of `sde_cond_moments_tme_normal` where the variance is not negative. -/
theorem tmeNormal_central (expect : (ℝ → ℝ) → ℝ → ℝ) (mc : ℝ → ℝ × ℝ) (N k : ℕ) (hk : k < 2 * N) (x c : ℝ) (hv : 0 ≤ (mc x).2) :
    (sdeCondMomentsTmeNormal expect mc N).central x k c = gaussL (mc x).1 (mc x).2.toNNReal ((X - C c) ^ k) := by
  refine ((jget_map_range _ hk).trans (rawNormal_central _ _ c hv k)).trans ?_
  rw [gaussL_apply]; simp only [eval_pow, eval_sub, eval_X, eval_C]

/-- where the variances are positive, a step of the filter of central moments is valid. -/
theorem step_ok (hB : B.Valid) (hn : 2 ≤ n) (pdf : Y → ℝ → ℝ) (hpos : ∀ y x, 0 < pdf y x) (P : ℝ → ℕ → ℝ → ℝ) (cm mu V : ℝ → ℝ)
    (hP : ∀ x, 0 < V x → ∀ k < n, ∀ c, P x k c = gaussL (mu x) (V x).toNNReal ((X - C c) ^ k)) (s : List ℝ × ℝ) (hl : s.1.length = n)
    (hpd : (gramOf s.1).PosDef) (hv : VarPos B V s) (y : Y) :
    OkCms B false P cm pdf n s y ∧ (nextCms B false P cm pdf n s y).1.length = n ∧ (gramOf (nextCms B false P cm pdf n s y).1).PosDef := by
  classical
  obtain ⟨s, c⟩ := s
  let L : ℝ → ℝ[X] →ₗ[ℝ] ℝ := fun x => gaussL (mu x) (if 0 < V x then (V x).toNNReal else 1)
  have hof : List.ofFn (fun k : Fin n => s.getD k 0) = s := by
    refine List.ext_getElem (by simpa using hl.symm) fun k hk hk' => ?_
    rw [List.getElem_ofFn, List.getD_eq_getElem _ _ hk']
  have h := (C168_runs_valid hB false pdf hpos hn L (fun x q hq _ => gaussL_sq_pos _ (by
      split_ifs with h0
      · simpa using h0
      · exact one_ne_zero) q hq) (fun k : Fin n => s.getD k 0) (by rw [hof]; exact hpd) [y, y]).2.1 (fun x k c => L x ((X - C c) ^ k)) cm (fun _ _ _ _ => rfl) c
  rw [hof] at h
  have e : predCms B false P cm n (s, c) = predCms B false (fun x k c => L x ((X - C c) ^ k)) cm n (s, c) := by
    refine predCms_congr cm (s, c) fun i k hk c' => ?_
    rw [hP _ (hv i) k hk]
    simp only [L, if_pos (hv i)]
  have e1 : likCms B false P cm pdf n (s, c) y = likCms B false (fun x k c => L x ((X - C c) ^ k)) cm pdf n (s, c) y := by rw [likCms, e]; rfl
  have e2 : nextCms B false P cm pdf n (s, c) y = nextCms B false (fun x k c => L x ((X - C c) ^ k)) cm pdf n (s, c) y := by
    rw [nextCms, nextCms, e, e1]
  obtain ⟨h1, h2, -⟩ := h
  refine ⟨⟨hpd, ?_, ?_⟩, by simp [nextCms], ?_⟩
  · rw [e]; exact h1.2.1
  · rw [e1]; exact h1.2.2
  · rw [e2]; exact h2.1

theorem run_ok (hB : B.Valid) (hn : 2 ≤ n) (pdf : Y → ℝ → ℝ) (hpos : ∀ y x, 0 < pdf y x) (P : ℝ → ℕ → ℝ → ℝ) (cm mu V : ℝ → ℝ)
    (hP : ∀ x, 0 < V x → ∀ k < n, ∀ c, P x k c = gaussL (mu x) (V x).toNNReal ((X - C c) ^ k)) (ys : List Y) (s : List ℝ × ℝ) (hl : s.1.length = n)
    (hpd : (gramOf s.1).PosDef) (hv : RunOK (fun s _ => VarPos B V s) (nextCms B false P cm pdf n) s ys) :
    RunOK (OkCms B false P cm pdf n) (nextCms B false P cm pdf n) s ys := by
  induction ys generalizing s with
  | nil => trivial
  | cons y ys ih =>
    obtain ⟨h1, h2, h3⟩ := step_ok hB hn pdf hpos P cm mu V hP s hl hpd hv.1 y
    exact ⟨h1, ih _ h2 h3 hv.2⟩

variable {E : Type*} [NormedAddCommGroup E] [NormedSpace ℝ E] {θ : E} {r : WithTop ℕ∞}

/-- positivity of the variances at the nodes of a rule is an open condition. -/
theorem varPos_eventually (hB : B.Valid) {V : E → ℝ → ℝ} (hV : Joint r θ V) {s : E → List ℝ × ℝ} (hs : Sm r θ n fun t => (s t).1)
    (hc : ContDiffAt ℝ r (fun t => (s t).2) θ) (hpd : (gramOf (s θ).1).PosDef) (hv : VarPos B (V θ) (s θ)) : ∀ᶠ t in 𝓝 θ, VarPos B (V t) (s t) := by
  have ha := contDiffAt_nw B hB hs hpd false
  have hv := (forall_nodes_iff hB _ (hs.len θ) hpd (s θ).2 1 false false (fun x => 0 < V θ x)).1 hv
  have h1 : ∀ᶠ t in 𝓝 θ, (gramOf (s t).1).PosDef := by
    filter_upwards [eventually_gram hs.lconv hpd] with t ht
    exact (gram_posDef_iff (hs.len t)).2 ht
  have h2 : ∀ᶠ t in 𝓝 θ, ∀ i, 0 < V t (1 * (nw B false (s t).1 (hs.len t)).2 i + (s t).2) := by
    refine eventually_all.2 fun i => ?_
    have hx : ContDiffAt ℝ r (fun t => (t, 1 * (nw B false (s t).1 (hs.len t)).2 i + (s t).2)) θ :=
      contDiffAt_id.prodMk ((contDiffAt_const.mul (contDiffAt_pi.1 (contDiffAt_snd.comp θ ha) i)).add hc)
    have := (ContDiffAt.comp (g := fun p : E × ℝ => V p.1 p.2) θ (hV _) hx).continuousAt
    exact this.eventually (lt_mem_nhds (hv i))
  filter_upwards [h1, h2] with t ht1 ht2
  exact (forall_nodes_iff hB _ (hs.len t) ht1 (s t).2 1 false false (fun x => 0 < V t x)).2 ht2

/-- so is positivity along a run. -/
theorem run_eventually (hB : B.Valid) (hn : 2 ≤ n) (P : E → ℝ → ℕ → ℝ → ℝ)
    (hP : ∀ k < n, ∀ x c, ContDiffAt ℝ r (fun p : E × ℝ × ℝ => P p.1 p.2.1 k p.2.2) (θ, x, c)) (cm V : E → ℝ → ℝ) (hcm : Joint r θ cm) (hV : Joint r θ V)
    (mu : ℝ → ℝ) (hPV : ∀ x, 0 < V θ x → ∀ k < n, ∀ c, P θ x k c = gaussL (mu x) (V θ x).toNNReal ((X - C c) ^ k)) (pdf : E → Y → ℝ → ℝ)
    (hpos : ∀ y x, 0 < pdf θ y x) (ys : List Y) (hpdf : ∀ y ∈ ys, Joint r θ fun t => pdf t y) (s : E → List ℝ × ℝ) (hs : Sm r θ n fun t => (s t).1)
    (hc : ContDiffAt ℝ r (fun t => (s t).2) θ) (hpd : (gramOf (s θ).1).PosDef)
    (hv : RunOK (fun s _ => VarPos B (V θ) s) (nextCms B false (P θ) (cm θ) (pdf θ) n) (s θ) ys) :
    ∀ᶠ t in 𝓝 θ, RunOK (fun s _ => VarPos B (V t) s) (nextCms B false (P t) (cm t) (pdf t) n) (s t) ys := by
  induction ys generalizing s with
  | nil => exact Eventually.of_forall fun t => trivial
  | cons y ys ih =>
    obtain ⟨h1, h2, h3⟩ := step_ok hB hn (pdf θ) hpos (P θ) (cm θ) mu (V θ) hPV (s θ) (hs.len θ) hpd hv.1 y
    have hof : ∀ t, List.ofFn (fun k : Fin n => (s t).1.getD k 0) = (s t).1 := fun t => by
      refine List.ext_getElem (by simp [hs.len t]) fun k hk hk' => ?_
      rw [List.getElem_ofFn, List.getD_eq_getElem _ _ hk']
    have key := (C168_cms_smooth (r := r) (θ := θ) (n := n) hB false P hP cm hcm pdf (fun t k => (s t).1.getD k 0)
      (contDiffAt_pi.2 fun k => hs.smooth k k.2) (fun t => (s t).2) hc (T := 1) (fun _ _ => y) (fun _ => hpdf y (by simp)) (by
        rw [hof]
        exact ⟨h1, trivial⟩)).2 0 one_pos
    have hfil : ∀ t, (filterCms B (P t) (cm t) (pdf t) (s t).1 (s t).2 [y]).1.getD 0 ([], 0) = nextCms B false (P t) (cm t) (pdf t) n (s t) y := fun t => by
      rw [filterCms_eq, hs.len t]
      rfl
    simp only [hof] at key
    have hlist : List.ofFn (fun _ : Fin 1 => y) = [y] := rfl
    rw [hlist] at key
    simp only [hfil] at key
    filter_upwards [varPos_eventually hB hV hs hc hpd hv.1, ih (fun y' hy' => hpdf y' (by simp [hy'])) (fun t => nextCms B false (P t) (cm t) (pdf t) n (s t) y)
      ⟨fun t => by simp [nextCms], key.2⟩ key.1 h3 hv.2] with t ht1 ht2
    exact ⟨ht1, ht2⟩

/-- all conditional moments used in a step are numbers. -/
def Finite (B : Backend) (Pn : ℝ → ℕ → ℝ → Option ℝ) (cm : ℝ → ℝ) (n : ℕ) (s : List ℝ × ℝ) : Prop :=
  ∀ i, ∀ k < n, (Pn ((momentQuadrature B s.1 s.2 1 false false).2 i) k (wsum (momentQuadrature B s.1 s.2 1 false false) cm)).isSome

/-- the filter with NaN is the filter without as long as no conditional moment is NaN, and NaN after that. -/
theorem foldlM_cmsStep (Pn : ℝ → ℕ → ℝ → Option ℝ) (cm : ℝ → ℝ) (pdf : Y → ℝ → ℝ) (s : List ℝ × ℝ) (a : ℝ) (ys : List Y) :
    (RunOK (fun s _ => Finite B Pn cm n s) (nextCms B false (fun x k c => (Pn x k c).getD 0) cm pdf n) s ys →
      ys.foldlM (cmsStep B Pn cm pdf n) (s, a) = some (lastState (nextCms B false (fun x k c => (Pn x k c).getD 0) cm pdf n) s ys,
        a - ((liks (nextCms B false (fun x k c => (Pn x k c).getD 0) cm pdf n) (likCms B false (fun x k c => (Pn x k c).getD 0) cm pdf n) s ys).map Real.log).sum)) ∧
    (¬RunOK (fun s _ => Finite B Pn cm n s) (nextCms B false (fun x k c => (Pn x k c).getD 0) cm pdf n) s ys →
      ys.foldlM (cmsStep B Pn cm pdf n) (s, a) = none) := by
  induction ys generalizing s a with
  | nil => simp [RunOK, lastState, liks]
  | cons y ys ih =>
    obtain ⟨i1, i2⟩ := ih (nextCms B false (fun x k c => (Pn x k c).getD 0) cm pdf n s y) (a - Real.log (likCms B false (fun x k c => (Pn x k c).getD 0) cm pdf n s y))
    rw [List.foldlM_cons]
    by_cases hf : Finite B Pn cm n s
    · have e : cmsStep B Pn cm pdf n (s, a) y = some (nextCms B false (fun x k c => (Pn x k c).getD 0) cm pdf n s y,
          a - Real.log (likCms B false (fun x k c => (Pn x k c).getD 0) cm pdf n s y)) := by
        rw [cmsStep]
        exact if_pos hf
      rw [e]
      simp only [RunOK, hf, true_and]
      refine ⟨fun h => (i1 h).trans ?_, i2⟩
      simp only [lastState, List.foldl_cons, liks, List.map_cons, List.sum_cons, Option.some.injEq, Prod.mk.injEq, true_and]
      ring
    · have e : cmsStep B Pn cm pdf n (s, a) y = none := by
        rw [cmsStep]
        exact if_neg hf
      rw [e]
      simp [RunOK, hf]

theorem nellCms_eq (Pn : ℝ → ℕ → ℝ → Option ℝ) (cm : ℝ → ℝ) (pdf : Y → ℝ → ℝ) (cms0 : List ℝ) (mean0 : ℝ) (ys : List Y) :
    (RunOK (fun s _ => Finite B Pn cm cms0.length s) (nextCms B false (fun x k c => (Pn x k c).getD 0) cm pdf cms0.length) (cms0, mean0) ys →
      nellCms B Pn cm pdf cms0 mean0 ys = some (filterCms B (fun x k c => (Pn x k c).getD 0) cm pdf cms0 mean0 ys).2) ∧
    (¬RunOK (fun s _ => Finite B Pn cm cms0.length s) (nextCms B false (fun x k c => (Pn x k c).getD 0) cm pdf cms0.length) (cms0, mean0) ys →
      nellCms B Pn cm pdf cms0 mean0 ys = none) := by
  obtain ⟨h1, h2⟩ := foldlM_cmsStep (B := B) (n := cms0.length) Pn cm pdf (cms0, mean0) 0 ys
  refine ⟨fun h => ?_, fun h => ?_⟩
  · rw [nellCms, h1 h, filterCms_eq]
    simp
  · rw [nellCms, h2 h]
    rfl

/-- the filter with NaN where the moments at the nodes are those of a filter without. -/
theorem nellCms_of_run (Q : ℝ → Prop) (Pn : ℝ → ℕ → ℝ → Option ℝ) (P : ℝ → ℕ → ℝ → ℝ) (cm : ℝ → ℝ) (pdf : Y → ℝ → ℝ) (cms0 : List ℝ) (mean0 : ℝ)
    (hP : ∀ x, Q x → ∀ k < cms0.length, ∀ c, Pn x k c = some (P x k c)) (ys : List Y)
    (hrun : RunOK (fun s _ => ∀ i, Q ((momentQuadrature B s.1 s.2 1 false false).2 i)) (nextCms B false P cm pdf cms0.length) (cms0, mean0) ys) :
    nellCms B Pn cm pdf cms0 mean0 ys = some (filterCms B P cm pdf cms0 mean0 ys).2 := by
  have key : ∀ (n : ℕ), (∀ x, Q x → ∀ k < n, ∀ c, Pn x k c = some (P x k c)) → ∀ (ys : List Y) (s : List ℝ × ℝ) (a : ℝ),
      RunOK (fun s _ => ∀ i, Q ((momentQuadrature B s.1 s.2 1 false false).2 i)) (nextCms B false P cm pdf n) s ys →
      ys.foldlM (cmsStep B Pn cm pdf n) (s, a) = some (lastState (nextCms B false P cm pdf n) s ys,
        a - ((liks (nextCms B false P cm pdf n) (likCms B false P cm pdf n) s ys).map Real.log).sum) := by
    intro n hP ys s a hrun
    induction ys generalizing s a with
    | nil => simp [lastState, liks]
    | cons y ys ih =>
      obtain ⟨h1, h2⟩ := hrun
      have hpr : predCms B false (fun x k c => (Pn x k c).getD 0) cm n s = predCms B false P cm n s :=
        predCms_congr cm s fun i k hk c => by rw [hP _ (h1 i) k hk, Option.getD_some]
      have hlik : likCms B false (fun x k c => (Pn x k c).getD 0) cm pdf n s y = likCms B false P cm pdf n s y := by rw [likCms, likCms, hpr]
      have hnx : nextCms B false (fun x k c => (Pn x k c).getD 0) cm pdf n s y = nextCms B false P cm pdf n s y := by rw [nextCms, nextCms, hpr, hlik]
      have e : cmsStep B Pn cm pdf n (s, a) y = some (nextCms B false P cm pdf n s y, a - Real.log (likCms B false P cm pdf n s y)) := by
        rw [← hnx, ← hlik, cmsStep]
        exact if_pos fun i k hk => by rw [hP _ (h1 i) k hk, Option.isSome_some]
      rw [List.foldlM_cons, e]
      refine (ih _ _ h2).trans ?_
      simp only [lastState, List.foldl_cons, liks, List.map_cons, List.sum_cons, Option.some.injEq, Prod.mk.injEq, true_and]
      ring
  rw [nellCms, key _ hP _ _ _ hrun, filterCms_eq]
  simp

/-! ### Which moments are NaN -/

theorem floatPow_half (v : ℝ) (j : ℕ) : floatPow v ((j : ℝ) / 2) = if v < 0 ∧ j % 2 = 1 then none else some (v ^ ((j : ℝ) / 2)) := by
  classical
  rw [floatPow]
  have hiff : (v < 0 ∧ ∀ k : ℤ, (j : ℝ) / 2 ≠ k) ↔ v < 0 ∧ j % 2 = 1 := by
    refine and_congr_right fun _ => ?_
    constructor
    · intro h
      by_contra hj
      refine h (j / 2 : ℕ) ?_
      rw [Int.cast_natCast, Nat.cast_div (by omega) two_ne_zero, Nat.cast_ofNat]
    · rintro hj k hk
      have : (j : ℤ) = 2 * k := by
        have h2 : (j : ℝ) = 2 * k := by linarith
        exact_mod_cast h2
      omega
  by_cases h : v < 0 ∧ j % 2 = 1
  · rw [if_pos h, if_pos (hiff.2 h)]
  · rw [if_neg h, if_neg fun h' => h (hiff.1 h')]

theorem mapM_none {α β : Type} (f : α → Option β) (l : List α) (h : ∃ a ∈ l, f a = none) : l.mapM f = none := by
  induction l with
  | nil => simp at h
  | cons a l ih =>
    rw [List.mapM_cons]
    cases hf : f a with
    | none => rfl
    | some b =>
      obtain ⟨x, hx, hn⟩ := h
      rcases List.mem_cons.1 hx with rfl | hx
      · rw [hf] at hn; cases hn
      · rw [ih ⟨x, hx, hn⟩]; rfl

theorem mapM_some {α β : Type} (f : α → Option β) (g : α → β) (l : List α) (h : ∀ a ∈ l, f a = some (g a)) : l.mapM f = some (l.map g) := by
  induction l with
  | nil => rfl
  | cons a l ih =>
    rw [List.mapM_cons, h a (by simp), ih fun x hx => h x (by simp [hx])]
    rfl

/-- a moment of order at least one is NaN exactly for negative variances. -/
theorem rawMoment_eq (mean v : ℝ) (p : ℕ) : rawMoment mean v p = if v < 0 ∧ 1 ≤ p then none else some (rawMomentOfNormal mean v p) := by
  rw [rawMoment]
  split_ifs with h
  · have : ((List.range (p + 1)).mapM fun m => (floatPow v (((p - m : ℕ) : ℝ) / 2)).map fun w =>
        (p.choose m : ℝ) * mean ^ m * w * rawMomentOfStandardNormal (p - m)) = none := by
      refine mapM_none _ _ ⟨p - 1, List.mem_range.2 (by omega), ?_⟩
      rw [floatPow_half, if_pos ⟨h.1, by omega⟩]
      rfl
    rw [this]
    rfl
  · have : ((List.range (p + 1)).mapM fun m => (floatPow v (((p - m : ℕ) : ℝ) / 2)).map fun w =>
        (p.choose m : ℝ) * mean ^ m * w * rawMomentOfStandardNormal (p - m)) = some ((List.range (p + 1)).map fun m =>
          (p.choose m : ℝ) * mean ^ m * v ^ (((p - m : ℕ) : ℝ) / 2) * rawMomentOfStandardNormal (p - m)) := by
      refine mapM_some _ _ _ fun m _ => ?_
      rw [floatPow_half, if_neg fun h' => h ⟨h'.1, by omega⟩]
      rfl
    rw [this]
    rfl

/-- the central moments with NaN and those of the model without NaN. -/
theorem central_eq (a b : ℝ → ℝ) (dt : ℝ) (order N : ℕ) (x : ℝ) (k : ℕ) (hk : k < 2 * N) (c : ℝ) :
    central a b dt order x k c = if (Tme.meanCov a b dt order x).2 < 0 ∧ 1 ≤ k then none
      else some ((sdeCondMomentsTmeNormal (Tme.expectation a b dt order) (Tme.meanCov a b dt order) N).central x k c) := by
  rw [central, rawMoment_eq]
  congr 2
  exact (jget_map_range _ hk).symm

end Mfs.TmeNan

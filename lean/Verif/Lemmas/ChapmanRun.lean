import Verif.Lemmas.KernelTrunc
import Verif.Spec.Markov
import Verif.Spec.IterKernel
import Mathlib.Probability.Kernel.Composition.IntegralCompProd
import Mathlib.Probability.Kernel.Composition.MeasureComp

/-!
# The Bayes recursion for densities, on the line, on an interval and on a grid
-/

namespace Mfs.GridConv

open MeasureTheory Filter Topology Set ProbabilityTheory Mfs.BruteForce Mfs.Spec

variable {Y : Type}

/-- unnormalised filtering density: `steps` transitions, then the likelihood, for every measurement. -/
noncomputable def run (k : ℝ → ℝ → ℝ) (μ : Measure ℝ) (lik : Y → ℝ → ℝ) (steps : ℕ) (p : ℝ → ℝ) (ys : List Y) : ℝ → ℝ :=
  ys.foldl (fun f y x => lik y x * (op k μ)^[steps] f x) p

theorem run_cons (k : ℝ → ℝ → ℝ) (μ : Measure ℝ) (lik : Y → ℝ → ℝ) (steps : ℕ) (p : ℝ → ℝ) (y : Y) (ys : List Y) :
    run k μ lik steps p (y :: ys) = run k μ lik steps (fun x => lik y x * (op k μ)^[steps] p x) ys := rfl

theorem Close.iterate {k : ℝ → ℝ → ℝ} {C : ℝ} (hk : TransDens k C) {A : ℝ × ℝ → ℝ → ℝ} {α : ℝ → ℝ} (h : Close A α) (n : ℕ) :
    Close (fun ab => (op k (volume.restrict (Ioc ab.1 ab.2)))^[n] (A ab)) ((op k volume)^[n] α) := by
  induction n with
  | zero => exact h
  | succ n ih =>
    simp only [Function.iterate_succ_apply']
    exact ih.apply_op hk

theorem close_run {k : ℝ → ℝ → ℝ} {C : ℝ} (hk : TransDens k C) {lik : Y → ℝ → ℝ} (hlc : ∀ y, Continuous (lik y)) (hl0 : ∀ y x, 0 ≤ lik y x)
    (hlb : ∀ y, ∃ M, ∀ x, lik y x ≤ M) (steps : ℕ) {A : ℝ × ℝ → ℝ → ℝ} {α : ℝ → ℝ} (h : Close A α) (ys : List Y) :
    Close (fun ab => run k (volume.restrict (Ioc ab.1 ab.2)) lik steps (A ab) ys) (run k volume lik steps α ys) := by
  induction ys generalizing A α with
  | nil => exact h
  | cons y ys ih =>
    simp only [run_cons]
    obtain ⟨M, hM⟩ := hlb y
    exact ih ((h.iterate hk steps).mul (hlc y) (hl0 y) hM)

/-! ## Positivity -/

theorem integral_mul_pos {f g : ℝ → ℝ} (hf0 : ∀ x, 0 ≤ f x) (hf : Integrable f) (hpos : 0 < ∫ x, f x) (hg : ∀ x, 0 < g x)
    (hgf : Integrable fun x => g x * f x) : 0 < ∫ x, g x * f x := by
  rw [integral_pos_iff_support_of_nonneg (fun x => mul_nonneg (hg x).le (hf0 x)) hgf]
  rw [integral_pos_iff_support_of_nonneg hf0 hf] at hpos
  refine hpos.trans_le (measure_mono fun x hx => ?_)
  rw [Function.mem_support] at hx ⊢
  exact mul_ne_zero (hg x).ne' hx

theorem iterate_mass {k : ℝ → ℝ → ℝ} {C : ℝ} (hk : TransDens k C) {f : ℝ → ℝ} (hf : Integrable f) (n : ℕ) :
    Integrable ((op k volume)^[n] f) ∧ ∫ x, (op k volume)^[n] f x = ∫ x, f x := by
  induction n with
  | zero => exact ⟨hf, rfl⟩
  | succ n ih =>
    simp only [Function.iterate_succ_apply']
    exact ⟨op_integrable_out hk ih.1, (op_integral hk ih.1).trans ih.2⟩

theorem run_pos {k : ℝ → ℝ → ℝ} {C : ℝ} (hk : TransDens k C) {lik : Y → ℝ → ℝ} (hlc : ∀ y, Continuous (lik y)) (hl0 : ∀ y x, 0 < lik y x)
    (hlb : ∀ y, ∃ M, ∀ x, lik y x ≤ M) (steps : ℕ) {A : ℝ × ℝ → ℝ → ℝ} {α : ℝ → ℝ} (h : Close A α) (hpos : 0 < ∫ x, α x) (ys : List Y) :
    0 < ∫ x, run k volume lik steps α ys x := by
  induction ys generalizing A α with
  | nil => exact hpos
  | cons y ys ih =>
    obtain ⟨M, hM⟩ := hlb y
    have h1 := h.iterate hk steps
    have h2 := h1.mul (hlc y) (fun x => (hl0 y x).le) hM
    rw [run_cons]
    exact ih h2 (integral_mul_pos h1.pos h1.int (by rw [(iterate_mass hk h.int steps).2]; exact hpos) (hl0 y) h2.int)

/-! ## Grids -/

/-- the unnormalised recursion on a grid. -/
noncomputable def gridRun {N : ℕ} (pred : (Fin (N + 2) → ℝ) → Fin (N + 2) → ℝ) (lik : Y → (Fin (N + 2) → ℝ) → Fin (N + 2) → ℝ)
    (xs p : Fin (N + 2) → ℝ) (ys : List Y) : Fin (N + 2) → ℝ :=
  ys.foldl (fun q y i => lik y xs i * pred q i) p

theorem gridRun_cons {N : ℕ} (pred : (Fin (N + 2) → ℝ) → Fin (N + 2) → ℝ) (lik : Y → (Fin (N + 2) → ℝ) → Fin (N + 2) → ℝ)
    (xs p : Fin (N + 2) → ℝ) (y : Y) (ys : List Y) :
    gridRun pred lik xs p (y :: ys) = gridRun pred lik xs (fun i => lik y xs i * pred p i) ys := rfl

/-- the outputs of the scan are the unnormalised recursion divided by its trapezoidal integral. -/
theorem scan_gridRun {N : ℕ} (pred : (Fin (N + 2) → ℝ) → Fin (N + 2) → ℝ) (hpred : ∀ (q : Fin (N + 2) → ℝ) (c : ℝ), pred (fun i => q i / c) = fun i => pred q i / c)
    (lik : Y → (Fin (N + 2) → ℝ) → Fin (N + 2) → ℝ) (xs : Fin (N + 2) → ℝ) (ys : List Y) (p : Fin (N + 2) → ℝ) (c : ℝ) (hc : c ≠ 0)
    (hne : ∀ t < ys.length, trapz (gridRun pred lik xs p (ys.take (t + 1))) xs ≠ 0) (t : ℕ) (ht : t < ys.length) :
    (scan (updateBody pred lik xs) (fun i => p i / c) ys).2.getD t 0
      = fun i => gridRun pred lik xs p (ys.take (t + 1)) i / trapz (gridRun pred lik xs p (ys.take (t + 1))) xs := by
  have htr : ∀ (c : ℝ) (q : Fin (N + 2) → ℝ), trapz (fun i => q i / c) xs = trapz q xs / c := fun c q => by
    rw [trapz, trapz, Finset.sum_div]
    exact Finset.sum_congr rfl fun i _ => by ring
  induction ys generalizing p c t with
  | nil => exact absurd ht (by simp)
  | cons y ys ih =>
    have h0 := hne 0 (by simp)
    simp only [zero_add, List.take_succ_cons, List.take_zero, gridRun_cons] at h0
    change trapz (fun i => lik y xs i * pred p i) xs ≠ 0 at h0
    have hfirst : (updateBody pred lik xs (fun i => p i / c) y).1
        = fun i => (lik y xs i * pred p i) / trapz (fun i => lik y xs i * pred p i) xs := by
      funext i
      simp only [updateBody, hpred]
      have e : (fun i => lik y xs i * (pred p i / c)) = fun i => (lik y xs i * pred p i) / c := by funext i; ring
      rw [e, htr]
      field_simp
    have hsnd : (updateBody pred lik xs (fun i => p i / c) y).2 = (updateBody pred lik xs (fun i => p i / c) y).1 := rfl
    cases t with
    | zero =>
      simp only [scan, List.getD_cons_zero, zero_add, List.take_succ_cons, List.take_zero, gridRun_cons]
      rw [hsnd, hfirst]
      rfl
    | succ t =>
      simp only [scan, List.getD_cons_succ]
      rw [hfirst]
      have := ih (fun i => lik y xs i * pred p i) _ h0 (fun s hs => by
        have := hne (s + 1) (by simpa using hs)
        rwa [List.take_succ_cons, gridRun_cons] at this) t (by simpa using ht)
      rw [this, List.take_succ_cons, gridRun_cons]

theorem predChapman_div {N : ℕ} (m s xs : Fin (N + 2) → ℝ) (steps : ℕ) (q : Fin (N + 2) → ℝ) (c : ℝ) :
    predChapman m s xs steps (fun i => q i / c) = fun i => predChapman m s xs steps q i / c := by
  have hone : ∀ q : Fin (N + 2) → ℝ, integrateTransition m s xs (fun i => q i / c) = fun i => integrateTransition m s xs q i / c := by
    intro q
    funext i
    rw [integrateTransition, integrateTransition, trapz, trapz, Finset.sum_div]
    exact Finset.sum_congr rfl fun i _ => by ring
  induction steps with
  | zero => rfl
  | succ n ih =>
    simp only [predChapman, Function.iterate_succ_apply'] at ih ⊢
    rw [ih, hone]

theorem op_restrict {k : ℝ → ℝ → ℝ} {a b : ℝ} (hab : a ≤ b) (f : ℝ → ℝ) :
    op k (volume.restrict (Ioc a b)) f = fun x => ∫ u in a..b, k x u * f u := by
  funext x
  rw [op, intervalIntegral.integral_of_le hab]

theorem approx_iterate {a b : ℝ} (hab : a ≤ b) {m s : ℝ → ℝ} {C : ℝ} (hk : TransDens (fun x u => normPdf x (m u) (s u)) C) {q : GridFun} {f : ℝ → ℝ}
    (hf : Continuous f) (h : Approx a b q f) (n : ℕ) :
    Continuous ((op (fun x u => normPdf x (m u) (s u)) (volume.restrict (Ioc a b)))^[n] f) ∧
    Approx a b (fun N xs => predChapman (fun i => m (xs i)) (fun i => s (xs i)) xs n (q N xs))
      ((op (fun x u => normPdf x (m u) (s u)) (volume.restrict (Ioc a b)))^[n] f) := by
  induction n with
  | zero => exact ⟨hf, h⟩
  | succ n ih =>
    obtain ⟨ih1, ih2⟩ := ih
    simp only [predChapman, Function.iterate_succ_apply'] at ih2 ⊢
    refine ⟨op_continuous hk ?_, ?_⟩
    · exact (ih1.integrableOn_Icc (a := a) (b := b)).mono_set Ioc_subset_Icc_self
    · rw [op_restrict hab]
      exact approx_congr (approx_kernel (k := fun x u => normPdf x (m u) (s u)) hab ih1 ih2 hk.cont) fun N xs i => by
        rw [integrateTransition]

theorem approx_run {a b : ℝ} (hab : a ≤ b) {m s : ℝ → ℝ} {C : ℝ} (hk : TransDens (fun x u => normPdf x (m u) (s u)) C) {lik : Y → ℝ → ℝ}
    (hlc : ∀ y, Continuous (lik y)) (steps : ℕ) {q : GridFun} {f : ℝ → ℝ} (hf : Continuous f) (h : Approx a b q f) (ys : List Y) :
    Continuous (run (fun x u => normPdf x (m u) (s u)) (volume.restrict (Ioc a b)) lik steps f ys) ∧
    Approx a b (fun N xs => gridRun (predChapman (fun i => m (xs i)) (fun i => s (xs i)) xs steps) (fun y xs i => lik y (xs i)) xs (q N xs) ys)
      (run (fun x u => normPdf x (m u) (s u)) (volume.restrict (Ioc a b)) lik steps f ys) := by
  induction ys generalizing q f with
  | nil => exact ⟨hf, h⟩
  | cons y ys ih =>
    obtain ⟨h1, h2⟩ := approx_iterate hab hk hf h steps
    simp only [run_cons, gridRun_cons]
    exact ih ((hlc y).mul h1) (approx_mul (hlc y) h2)

/-! ## The same recursion for measures -/

/-- the measure with density `p`. -/
noncomputable def wd (p : ℝ → ℝ) : Measure ℝ := volume.withDensity fun x => ENNReal.ofReal (p x)

theorem integrable_wd {p f : ℝ → ℝ} (hp : Measurable p) (hp0 : ∀ x, 0 ≤ p x) : Integrable f (wd p) ↔ Integrable fun x => p x * f x := by
  rw [wd, integrable_withDensity_iff_integrable_smul' hp.ennreal_ofReal (Eventually.of_forall fun x => ENNReal.ofReal_lt_top)]
  simp only [ENNReal.toReal_ofReal (hp0 _), smul_eq_mul]

theorem integral_wd {p f : ℝ → ℝ} (hp : Measurable p) (hp0 : ∀ x, 0 ≤ p x) : ∫ x, f x ∂wd p = ∫ x, p x * f x := by
  rw [wd, integral_withDensity_eq_integral_toReal_smul hp.ennreal_ofReal (Eventually.of_forall fun x => ENNReal.ofReal_lt_top)]
  simp only [ENNReal.toReal_ofReal (hp0 _), smul_eq_mul]

theorem wd_op {k : ℝ → ℝ → ℝ} {C : ℝ} (hk : TransDens k C) (K : Kernel ℝ ℝ) (hK : ∀ u, K u = wd fun x => k x u) {p : ℝ → ℝ}
    (hp : Measurable p) (hp0 : ∀ x, 0 ≤ p x) (hpi : Integrable p) : wd (op k volume p) = (wd p).bind K := by
  ext S hS
  rw [Measure.bind_apply hS K.measurable.aemeasurable, wd, wd, withDensity_apply _ hS,
    lintegral_withDensity_eq_lintegral_mul _ hp.ennreal_ofReal (Kernel.measurable_coe K hS)]
  have h1 : ∀ x, ENNReal.ofReal (op k volume p x) = ∫⁻ u, ENNReal.ofReal (k x u * p u) := fun x =>
    ofReal_integral_eq_lintegral_ofReal (op_integrable hk hpi x) (Eventually.of_forall fun u => mul_nonneg (hk.nonneg x u) (hp0 u))
  simp only [h1, Pi.mul_apply, hK]
  rw [lintegral_lintegral_swap]
  · refine lintegral_congr fun u => ?_
    rw [wd, withDensity_apply _ hS, ← lintegral_const_mul]
    · refine lintegral_congr fun x => ?_
      rw [mul_comm, ENNReal.ofReal_mul (hp0 u)]
    · exact (hk.cont_left u).measurable.ennreal_ofReal
  · refine Measurable.aemeasurable ?_
    exact (hk.cont.measurable.mul (hp.comp measurable_snd)).ennreal_ofReal

theorem wd_iterate {k : ℝ → ℝ → ℝ} {C : ℝ} (hk : TransDens k C) (K : Kernel ℝ ℝ) (hK : ∀ u, K u = wd fun x => k x u) {p : ℝ → ℝ}
    (hp : Continuous p) (hp0 : ∀ x, 0 ≤ p x) (hpi : Integrable p) (n : ℕ) :
    Continuous ((op k volume)^[n] p) ∧ (∀ x, 0 ≤ (op k volume)^[n] p x) ∧ Integrable ((op k volume)^[n] p) ∧
    wd ((op k volume)^[n] p) = (wd p).bind (iterK K n) := by
  induction n with
  | zero => exact ⟨hp, hp0, hpi, by rw [iterK]; exact (Measure.id_comp (μ := wd p)).symm⟩
  | succ n ih =>
    obtain ⟨i1, i2, i3, i4⟩ := ih
    simp only [Function.iterate_succ_apply']
    refine ⟨op_continuous hk i3, op_nonneg hk i2, op_integrable_out hk i3, ?_⟩
    rw [wd_op hk K hK i1.measurable i2 i3, i4, iterK]
    exact Measure.comp_assoc

theorem integral_bind' {μ : Measure ℝ} [SFinite μ] {K : Kernel ℝ ℝ} [IsSFiniteKernel K] {f : ℝ → ℝ} (hf : Integrable f (μ.bind K)) :
    Integrable (fun x => ∫ y, f y ∂K x) μ ∧ ∫ x, f x ∂(μ.bind K) = ∫ x, ∫ y, f y ∂K x ∂μ := by
  have e : μ.bind K = (K ∘ₖ Kernel.const Unit μ) () := Measure.comp_eq_comp_const_apply
  rw [e] at hf ⊢
  have h1 := hf.integral_comp
  have h2 := Kernel.integral_comp hf
  rw [Kernel.const_apply] at h1 h2
  exact ⟨h1, h2⟩

instance iterK_markov (K : Kernel ℝ ℝ) [IsMarkovKernel K] (n : ℕ) : IsMarkovKernel (iterK K n) := by
  induction n with
  | zero => rw [iterK]; infer_instance
  | succ n ih => rw [iterK]; infer_instance

/-- The unnormalised density integrates test functions as the exact Bayes recursion does. -/
theorem run_markovE {k : ℝ → ℝ → ℝ} {C : ℝ} (hk : TransDens k C) (K : Kernel ℝ ℝ) [IsMarkovKernel K] (hK : ∀ u, K u = wd fun x => k x u)
    {lik : Y → ℝ → ℝ} (hlc : ∀ y, Continuous (lik y)) (hl0 : ∀ y x, 0 ≤ lik y x)
    (hlb : ∀ y, ∃ M, ∀ x, lik y x ≤ M) (steps : ℕ) {A : ℝ × ℝ → ℝ → ℝ} {α : ℝ → ℝ} (h : Close A α) (ys : List Y) (f : ℝ → ℝ)
    (hf : Integrable fun x => run k volume lik steps α ys x * f x) :
    Integrable (markovE (iterK K steps) lik f ys) (wd α) ∧
    ∫ x, markovE (iterK K steps) lik f ys x ∂wd α = ∫ x, run k volume lik steps α ys x * f x := by
  induction ys generalizing A α with
  | nil =>
    have hp := h.pos
    exact ⟨(integrable_wd h.cont.measurable hp).2 hf, integral_wd h.cont.measurable hp⟩
  | cons y ys ih =>
    obtain ⟨M, hM⟩ := hlb y
    have h2 := (h.iterate hk steps).mul (hlc y) (hl0 y) hM
    rw [run_cons] at hf
    obtain ⟨j1, j2⟩ := ih h2 hf
    obtain ⟨i1, i2, i3, i4⟩ := wd_iterate hk K hK h.cont h.pos h.int steps
    rw [run_cons, ← j2]
    have hp2 := h2.pos
    rw [integrable_wd h2.cont.measurable hp2] at j1
    rw [integral_wd h2.cont.measurable hp2]
    have e : (fun x => lik y x * (op k volume)^[steps] α x * markovE (iterK K steps) lik f ys x)
        = fun x => (op k volume)^[steps] α x * (lik y x * markovE (iterK K steps) lik f ys x) := by funext x; ring
    rw [e] at j1 ⊢
    rw [← integrable_wd i1.measurable i2, i4] at j1
    have hs : SFinite (wd α) := by rw [wd]; infer_instance
    obtain ⟨l1, l2⟩ := integral_bind' j1
    rw [← integral_wd i1.measurable i2, i4, l2]
    exact ⟨l1, rfl⟩

end Mfs.GridConv

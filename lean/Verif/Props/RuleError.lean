import Verif.Lemmas.GaussError
import Verif.Lemmas.NormalKernel
import Verif.Model.Moments1
import Mathlib.Analysis.Calculus.IteratedDeriv.Defs
import Mathlib.Analysis.SpecialFunctions.Trigonometric.Deriv
import Mathlib.Order.Interval.Set.Infinite
import Mathlib.MeasureTheory.Measure.CharacteristicFunction.Basic

/-!
# C157: how far the quadrature rule is from the law whose moments it was computed from

`moment_quadrature` uses the first `2 n` moments only, so for other integrands its value differs from the expectation. The
difference is at most `M / (2 n)!` times the second moment of any monic polynomial of degree `n`, where `M` bounds the derivative
of order `2 n` of the integrand.
-/

namespace Mfs.Props

open Mfs.Spec Mfs.Quad1 Mfs.Converge Mfs.Moments1 Polynomial MeasureTheory Filter Topology ProbabilityTheory

/-- integration of the polynomials of degree at most `n`. -/
noncomputable def measLE (μ : Measure ℝ) (n : ℕ) : ℝ[X] →ₗ[ℝ] ℝ := ∑ k ∈ Finset.range (n + 1), (∫ x, x ^ k ∂μ) • lcoeff ℝ k

theorem measLE_eq {μ : Measure ℝ} {n : ℕ} (hμ : ∀ k ≤ n, Integrable (fun x : ℝ => x ^ k) μ) (p : ℝ[X]) (hp : p.natDegree ≤ n) :
    measLE μ n p = ∫ x, p.eval x ∂μ := by
  have h : ∀ x, p.eval x = ∑ k ∈ Finset.range (n + 1), p.coeff k * x ^ k := fun x =>
    eval_eq_sum_range' (lt_of_le_of_lt hp (Nat.lt_succ_self n)) x
  simp only [h]
  rw [integral_finsetSum _ fun k hk => (hμ k (by have := Finset.mem_range.1 hk; omega)).const_mul _]
  simp only [measLE, LinearMap.sum_apply, LinearMap.smul_apply, lcoeff_apply, smul_eq_mul, integral_const_mul]
  exact Finset.sum_congr rfl fun k _ => mul_comm _ _

/-- the rule computed from the moments of a law with at least `n` points in its support. -/
theorem rule_of_card (B : Backend) (hB : B.Valid) (μ : Measure ℝ) [IsProbabilityMeasure μ] (ms : List ℝ) (hl : 2 ≤ ms.length)
    (hμ : ∀ k ≤ 2 * (ms.length / 2), Integrable (fun x : ℝ => x ^ k) μ)
    (hcard : ∀ s : Finset ℝ, s.card < ms.length / 2 → μ (s : Set ℝ)ᶜ ≠ 0) (m s : ℝ) (hs : s ≠ 0)
    (hms : ∀ k < ms.length, ms.getD k 0 = ∫ x, ((x - m) / s) ^ k ∂μ) (sort ldl : Bool) :
    PosRule (momentQuadrature B ms m s sort ldl) ∧ Exact μ (momentQuadrature B ms m s sort ldl) := by
  have haff : (affPoly m s).natDegree ≤ 1 := by
    rw [affPoly]
    exact (natDegree_C_mul_le _ _).trans (natDegree_X_sub_C_le _)
  have h := rule_pos B hB (measLE μ (2 * (ms.length / 2))) ?_ ms ?_ hl m s hs ?_ sort ldl
  · refine ⟨h.1, fun p hp => ?_⟩
    rw [h.2 p hp, measLE_eq hμ p hp.le]
  · rw [measLE_eq hμ 1 (by simp)]
    simp
  · intro q hq hd
    have hd2 : (q ^ 2).natDegree ≤ 2 * (ms.length / 2) := natDegree_pow_le.trans (by omega)
    rw [measLE_eq hμ _ hd2]
    have hI := integrable_poly_le hμ _ hd2
    rw [integral_pos_iff_support_of_nonneg (fun x => by rw [eval_pow]; positivity) hI]
    refine lt_of_lt_of_le (pos_iff_ne_zero.2 (hcard q.roots.toFinset ?_)) (measure_mono fun x hx => ?_)
    · exact lt_of_le_of_lt ((Multiset.toFinset_card_le _).trans (card_roots' q)) hd
    · intro h0
      apply hx
      simp only [eval_pow] at h0
      simpa [hq] using pow_eq_zero_iff two_ne_zero |>.1 h0
  · intro k hk
    rw [hms k hk, measLE_eq hμ _ (natDegree_pow_le.trans ((Nat.mul_le_mul_left k haff).trans (by omega)))]
    simp only [eval_pow, affPoly_eval]

theorem hasDerivAt_iteratedDeriv {f : ℝ → ℝ} {N : ℕ} (hf : ContDiff ℝ N f) (k : ℕ) (hk : k < N) (x : ℝ) :
    HasDerivAt (iteratedDeriv k f) (iteratedDeriv (k + 1) f x) x := by
  rw [iteratedDeriv_succ]
  exact ((hf.differentiable_iteratedDeriv k (by exact_mod_cast hk)) x).hasDerivAt

/-- the error for an integrand given with its derivatives. -/
theorem rule_error_chain (B : Backend) (hB : B.Valid) (μ : Measure ℝ) [IsProbabilityMeasure μ] (ms : List ℝ) (hl : 2 ≤ ms.length)
    (hμ : ∀ k ≤ 2 * (ms.length / 2), Integrable (fun x : ℝ => x ^ k) μ)
    (hcard : ∀ s : Finset ℝ, s.card < ms.length / 2 → μ (s : Set ℝ)ᶜ ≠ 0) (m s : ℝ) (hs : s ≠ 0)
    (hms : ∀ k < ms.length, ms.getD k 0 = ∫ x, ((x - m) / s) ^ k ∂μ) (sort ldl : Bool) (F : ℕ → ℝ → ℝ)
    (hF : ∀ k < 2 * (ms.length / 2), ∀ x, HasDerivAt (F k) (F (k + 1) x) x) (I : Set ℝ) (hI : I.OrdConnected) (hI2 : I.Infinite)
    (hIμ : μ Iᶜ = 0) (M : ℝ) (hM : ∀ x ∈ I, |F (2 * (ms.length / 2)) x| ≤ M) (q : ℝ[X]) (hq : q.Monic)
    (hqn : q.natDegree = ms.length / 2) :
    Integrable (F 0) μ ∧ (∀ i, (momentQuadrature B ms m s sort ldl).2 i ∈ I) ∧
    |∫ x, F 0 x ∂μ - integ (momentQuadrature B ms m s sort ldl) (F 0)| ≤
      M / ((2 * (ms.length / 2)).factorial : ℝ) * ∫ x, q.eval x ^ 2 ∂μ := by
  obtain ⟨hr, he⟩ := rule_of_card B hB μ ms hl hμ hcard m s hs hms sort ldl
  set r := momentQuadrature B ms m s sort ldl
  have hmem := node_mem μ hμ hcard r he hI hIμ
  obtain ⟨c, hcI, hc⟩ := hI2.exists_notMem_finset (Finset.univ.image r.2)
  have hc' : ∀ i, c ≠ r.2 i := fun i h => hc (Finset.mem_image.2 ⟨i, Finset.mem_univ i, h.symm⟩)
  have hn : 0 < ms.length / 2 := by omega
  have h := gauss_error hn μ hμ r he hr.inj hI hIμ hmem c hcI hc' F hF hM
  have hM0 : 0 ≤ M := (abs_nonneg _).trans (hM c hcI)
  exact ⟨h.1, hmem, h.2.trans (mul_le_mul_of_nonneg_left (nodePoly_min hn μ hμ r he q hq hqn) (by positivity))⟩

/-- C157. The error of the rule computed from the moments of a law on an interval `I` (which may be the whole line). -/
theorem C157_rule_error (B : Backend) (hB : B.Valid) (μ : Measure ℝ) [IsProbabilityMeasure μ] (ms : List ℝ) (hl : 2 ≤ ms.length)
    (hμ : ∀ k ≤ 2 * (ms.length / 2), Integrable (fun x : ℝ => x ^ k) μ)
    (hcard : ∀ s : Finset ℝ, s.card < ms.length / 2 → μ (s : Set ℝ)ᶜ ≠ 0) (m s : ℝ) (hs : s ≠ 0)
    (hms : ∀ k < ms.length, ms.getD k 0 = ∫ x, ((x - m) / s) ^ k ∂μ) (sort ldl : Bool) (f : ℝ → ℝ)
    (hf : ContDiff ℝ (2 * (ms.length / 2) : ℕ) f) (I : Set ℝ) (hI : I.OrdConnected) (hI2 : I.Infinite) (hIμ : μ Iᶜ = 0) (M : ℝ)
    (hM : ∀ x ∈ I, |iteratedDeriv (2 * (ms.length / 2)) f x| ≤ M) (q : ℝ[X]) (hq : q.Monic) (hqn : q.natDegree = ms.length / 2) :
    Integrable f μ ∧ (∀ i, (momentQuadrature B ms m s sort ldl).2 i ∈ I) ∧
    |∫ x, f x ∂μ - ∑ i, (momentQuadrature B ms m s sort ldl).1 i * f ((momentQuadrature B ms m s sort ldl).2 i)| ≤
      M / ((2 * (ms.length / 2)).factorial : ℝ) * ∫ x, q.eval x ^ 2 ∂μ := by
  have h := rule_error_chain B hB μ ms hl hμ hcard m s hs hms sort ldl (fun k => iteratedDeriv k f)
    (fun k hk x => hasDerivAt_iteratedDeriv hf k hk x) I hI hI2 hIμ M hM q hq hqn
  simpa only [iteratedDeriv_zero, integ] using h

/-- C157, on a bounded interval. -/
theorem C157_interval (B : Backend) (hB : B.Valid) (μ : Measure ℝ) [IsProbabilityMeasure μ] (a b : ℝ) (hab : a < b)
    (hμ : μ (Set.Icc a b)ᶜ = 0) (ms : List ℝ) (hl : 2 ≤ ms.length)
    (hcard : ∀ s : Finset ℝ, s.card < ms.length / 2 → μ (s : Set ℝ)ᶜ ≠ 0) (m s : ℝ) (hs : s ≠ 0)
    (hms : ∀ k < ms.length, ms.getD k 0 = ∫ x, ((x - m) / s) ^ k ∂μ) (sort ldl : Bool) (f : ℝ → ℝ)
    (hf : ContDiff ℝ (2 * (ms.length / 2) : ℕ) f) (M : ℝ) (hM : ∀ x ∈ Set.Icc a b, |iteratedDeriv (2 * (ms.length / 2)) f x| ≤ M) :
    |∫ x, f x ∂μ - ∑ i, (momentQuadrature B ms m s sort ldl).1 i * f ((momentQuadrature B ms m s sort ldl).2 i)| ≤
      M * ((b - a) / 2) ^ (2 * (ms.length / 2)) / ((2 * (ms.length / 2)).factorial : ℝ) := by
  have hae : ∀ᵐ x ∂μ, x ∈ Set.Icc a b := by rw [ae_iff]; exact hμ
  have hres : μ.restrict (Set.Icc a b) = μ := Measure.restrict_eq_self_of_ae_mem hae
  have hint : ∀ g : ℝ → ℝ, Continuous g → Integrable g μ := fun g hg => by
    have := (hg.continuousOn (s := Set.Icc a b)).integrableOn_compact (μ := μ) isCompact_Icc
    rwa [IntegrableOn, hres] at this
  set c := (a + b) / 2 with hc
  have h := C157_rule_error B hB μ ms hl (fun k _ => hint _ (by fun_prop)) hcard m s hs hms sort ldl f hf (Set.Icc a b) Set.ordConnected_Icc
    (Set.Icc_infinite hab) hμ M hM ((X - C c) ^ (ms.length / 2)) ((monic_X_sub_C c).pow _) (by simp)
  refine h.2.2.trans ?_
  have hM0 : 0 ≤ M := (abs_nonneg _).trans (hM a ⟨le_rfl, hab.le⟩)
  rw [mul_comm M, mul_div_assoc, mul_comm]
  refine mul_le_mul_of_nonneg_right ?_ (by positivity)
  have h2 : ∫ x, ((X - C c) ^ (ms.length / 2) : ℝ[X]).eval x ^ 2 ∂μ ≤ ∫ _, ((b - a) / 2) ^ (2 * (ms.length / 2)) ∂μ := by
    refine integral_mono_ae (hint _ (by fun_prop)) (integrable_const _) (hae.mono fun x hx => ?_)
    simp only [eval_pow, eval_sub, eval_X, eval_C]
    rw [← pow_mul, mul_comm (ms.length / 2) 2, ← Even.pow_abs (even_two_mul _)]
    refine pow_le_pow_left₀ (abs_nonneg _) ?_ _
    rw [abs_le, hc]
    constructor <;> linarith [hx.1, hx.2]
  simpa using h2

/-- C157, for `characteristic_fn`. -/
theorem C157_characteristic (B : Backend) (hB : B.Valid) (μ : Measure ℝ) [IsProbabilityMeasure μ] (ms : List ℝ) (hl : 2 ≤ ms.length)
    (hμ : ∀ k ≤ 2 * (ms.length / 2), Integrable (fun x : ℝ => x ^ k) μ)
    (hcard : ∀ s : Finset ℝ, s.card < ms.length / 2 → μ (s : Set ℝ)ᶜ ≠ 0) (m s : ℝ) (hs : s ≠ 0)
    (hms : ∀ k < ms.length, ms.getD k 0 = ∫ x, ((x - m) / s) ^ k ∂μ) (z : ℝ) (q : ℝ[X]) (hq : q.Monic)
    (hqn : q.natDegree = ms.length / 2) :
    ‖characteristicFn B z ms m s - ∫ x, Complex.exp (Complex.I * z * x) ∂μ‖ ≤
      |z| ^ (2 * (ms.length / 2)) / ((2 * (ms.length / 2)).factorial : ℝ) * ∫ x, q.eval x ^ 2 ∂μ := by
  set n := ms.length / 2 with hn
  set Z := characteristicFn B z ms m s - ∫ x, Complex.exp (Complex.I * z * x) ∂μ with hZ
  set θ := Z.arg with hθ
  have h := rule_error_chain B hB μ ms hl hμ hcard m s hs hms false false (fun k x => z ^ k * Real.cos (z * x - θ + k * (Real.pi / 2)))
    (fun k _ x => by
      have h1 : HasDerivAt (fun x => z * x - θ + k * (Real.pi / 2)) z x := by
        simpa using (((hasDerivAt_id x).const_mul z).sub_const θ).add_const (k * (Real.pi / 2))
      refine ((h1.cos).const_mul (z ^ k)).congr_deriv ?_
      rw [show z * x - θ + ((k + 1 : ℕ) : ℝ) * (Real.pi / 2) = z * x - θ + k * (Real.pi / 2) + Real.pi / 2 by push_cast; ring,
        Real.cos_add_pi_div_two]
      ring) Set.univ Set.ordConnected_univ Set.infinite_univ (by simp) (|z| ^ (2 * n)) (fun x _ => by
      rw [abs_mul, abs_pow]
      exact mul_le_of_le_one_right (by positivity) (Real.abs_cos_le_one _)) q hq hqn
  refine le_trans ?_ h.2.2
  simp only [pow_zero, one_mul, Nat.cast_zero, zero_mul, add_zero, integ]
  have hexpi : Integrable (fun x : ℝ => Complex.exp (Complex.I * z * x)) μ := by
    refine (integrable_const (1 : ℝ)).mono' (by fun_prop) (Eventually.of_forall fun x => ?_)
    rw [show Complex.I * z * x = ((z * x : ℝ) : ℂ) * Complex.I by push_cast; ring, Complex.norm_exp_ofReal_mul_I]
  have hre : ∀ x : ℝ, (Complex.exp (-(θ * Complex.I)) * Complex.exp (Complex.I * z * x)).re = Real.cos (z * x - θ) := by
    intro x
    rw [← Complex.exp_add, show -(θ * Complex.I) + Complex.I * z * x = ((z * x - θ : ℝ) : ℂ) * Complex.I by push_cast; ring,
      Complex.exp_ofReal_mul_I_re]
  have hnorm : ((‖Z‖ : ℝ) : ℂ) = Complex.exp (-(θ * Complex.I)) * Z := by
    conv_rhs => rw [← Complex.norm_mul_exp_arg_mul_I Z]
    rw [← hθ, mul_left_comm, ← Complex.exp_add]
    simp
  have hfin : ‖Z‖ = ∑ i, (momentQuadrature B ms m s false).1 i * Real.cos (z * (momentQuadrature B ms m s false).2 i - θ) -
      ∫ x, Real.cos (z * x - θ) ∂μ := by
    have := congrArg Complex.re hnorm
    rw [Complex.ofReal_re] at this
    rw [this, hZ, mul_sub, Complex.sub_re]
    congr 1
    · simp only [characteristicFn, Finset.mul_sum, Complex.re_sum]
      refine Finset.sum_congr rfl fun i _ => ?_
      rw [← mul_assoc, Complex.re_mul_ofReal, hre, mul_comm]
    · rw [← integral_const_mul]
      have h3 := integral_re (𝕜 := ℂ) (hexpi.const_mul (Complex.exp (-(θ * Complex.I))))
      simp only [RCLike.re_eq_complex_re] at h3
      rw [← h3]
      exact integral_congr_ae (Eventually.of_forall fun x => hre x)
  rw [hfin, abs_sub_comm]
  exact le_abs_self _

/-- C157: the bound cannot be improved. For the square of some monic polynomial of degree `n`, whose derivative of order `2 n` is
`(2 n)!`, the rule returns zero. -/
theorem C157_sharp (B : Backend) (hB : B.Valid) (μ : Measure ℝ) [IsProbabilityMeasure μ] (ms : List ℝ) (hl : 2 ≤ ms.length)
    (hμ : ∀ k ≤ 2 * (ms.length / 2), Integrable (fun x : ℝ => x ^ k) μ)
    (hcard : ∀ s : Finset ℝ, s.card < ms.length / 2 → μ (s : Set ℝ)ᶜ ≠ 0) (m s : ℝ) (hs : s ≠ 0)
    (hms : ∀ k < ms.length, ms.getD k 0 = ∫ x, ((x - m) / s) ^ k ∂μ) (sort ldl : Bool) :
    ∃ q : ℝ[X], q.Monic ∧ q.natDegree = ms.length / 2 ∧
      ∑ i, (momentQuadrature B ms m s sort ldl).1 i * q.eval ((momentQuadrature B ms m s sort ldl).2 i) ^ 2 = 0 ∧
      (∀ p : ℝ[X], p.Monic → p.natDegree = ms.length / 2 → ∫ x, q.eval x ^ 2 ∂μ ≤ ∫ x, p.eval x ^ 2 ∂μ) ∧
      derivative^[2 * (ms.length / 2)] (q ^ 2) = C ((2 * (ms.length / 2)).factorial : ℝ) := by
  obtain ⟨hr, he⟩ := rule_of_card B hB μ ms hl hμ hcard m s hs hms sort ldl
  set r := momentQuadrature B ms m s sort ldl
  refine ⟨Converge.nodePoly r.2, nodePoly_monic _, nodePoly_natDegree _, ?_, fun p hp hpn => ?_, ?_⟩
  · refine Finset.sum_eq_zero fun i _ => ?_
    rw [nodePoly_eval, Finset.prod_eq_zero (Finset.mem_univ i) (sub_self _)]
    ring
  · simp only [nodePoly_eval]
    exact nodePoly_min (by omega) μ hμ r he p hp hpn
  · have h := iterate_derivative_monic ((nodePoly_monic r.2).pow 2)
    rwa [(nodePoly_monic r.2).natDegree_pow, nodePoly_natDegree] at h

theorem gauss_central_even (m₀ : ℝ) (v : NNReal) (k : ℕ) :
    ∫ x, (x - m₀) ^ (2 * k) ∂gaussianReal m₀ v = (v : ℝ) ^ k * (((2 * k).factorial : ℝ) / (2 ^ k * k.factorial)) := by
  have h : gaussianReal m₀ v = (gaussianReal 0 1).map fun x => √v * x + m₀ := by
    have h1 := gaussianReal_map_const_mul (μ := 0) (v := 1) (√v)
    have h2 : (gaussianReal 0 1).map (fun x => √v * x + m₀) = ((gaussianReal 0 1).map fun x => √v * x).map fun x => x + m₀ := by
      rw [Measure.map_map (by fun_prop) (by fun_prop)]
      rfl
    rw [h2, h1, gaussianReal_map_add_const]
    congr 1
    · simp
    · ext
      simp
  rw [h, integral_map (by fun_prop) (by fun_prop), ← std_moment_even, ← integral_const_mul]
  refine integral_congr_ae (Eventually.of_forall fun x => ?_)
  simp only [add_sub_cancel_right, mul_pow]
  rw [pow_mul, Real.sq_sqrt (NNReal.coe_nonneg v)]

/-- C157, for `characteristic_fn` given the moments of a normal law: the error decreases faster than any power. -/
theorem C157_characteristic_normal (B : Backend) (hB : B.Valid) (m₀ : ℝ) (v : NNReal) (hv : v ≠ 0) (ms : List ℝ) (hl : 2 ≤ ms.length)
    (m s : ℝ) (hs : s ≠ 0) (hms : ∀ k < ms.length, ms.getD k 0 = ∫ x, ((x - m) / s) ^ k ∂gaussianReal m₀ v) (z : ℝ) :
    ‖characteristicFn B z ms m s - Complex.exp (Complex.I * z * m₀ - v * z ^ 2 / 2)‖ ≤
      (z ^ 2 * v / 2) ^ (ms.length / 2) / ((ms.length / 2).factorial : ℝ) := by
  have h := C157_characteristic B hB (gaussianReal m₀ v) ms hl (fun k _ => integrable_pow_gaussianReal _ _ _)
    (fun t _ => gaussianReal_inf m₀ hv t) m s hs hms z ((X - C m₀) ^ (ms.length / 2)) ((monic_X_sub_C m₀).pow _) (by simp)
  set n := ms.length / 2
  have hc : ∫ x, Complex.exp (Complex.I * z * x) ∂gaussianReal m₀ v = Complex.exp (Complex.I * z * m₀ - v * z ^ 2 / 2) := by
    have h1 := charFun_gaussianReal (μ := m₀) (v := v) z
    rw [charFun_apply_real] at h1
    rw [show Complex.I * z * m₀ - v * z ^ 2 / 2 = z * m₀ * Complex.I - v * z ^ 2 / 2 by ring, ← h1]
    exact integral_congr_ae (Eventually.of_forall fun x => by simp only; congr 1; ring)
  rw [hc] at h
  refine h.trans (le_of_eq ?_)
  have h2 : ∫ x, ((X - C m₀) ^ n : ℝ[X]).eval x ^ 2 ∂gaussianReal m₀ v = (v : ℝ) ^ n * (((2 * n).factorial : ℝ) / (2 ^ n * n.factorial)) := by
    rw [← gauss_central_even]
    refine integral_congr_ae (Eventually.of_forall fun x => ?_)
    simp only [eval_pow, eval_sub, eval_X, eval_C]
    rw [← pow_mul, mul_comm n 2]
  rw [h2, pow_mul, sq_abs]
  have h3 : ((2 * n).factorial : ℝ) ≠ 0 := by positivity
  have h4 : (n.factorial : ℝ) ≠ 0 := by positivity
  rw [div_pow, mul_pow]
  field_simp

/-- the hypotheses hold for the standard normal law, four moments, and the cosine. -/
example : (∀ k ≤ 2 * ([1, 0, 1, 0].length / 2), Integrable (fun x : ℝ => x ^ k) (gaussianReal 0 1)) ∧
    (∀ s : Finset ℝ, s.card < [1, 0, 1, 0].length / 2 → gaussianReal 0 1 (s : Set ℝ)ᶜ ≠ 0) ∧
    (∀ k < [(1 : ℝ), 0, 1, 0].length, [(1 : ℝ), 0, 1, 0].getD k 0 = ∫ x : ℝ, ((x - 0) / 1) ^ k ∂gaussianReal 0 1) ∧
    ContDiff ℝ (4 : ℕ) Real.cos ∧ (∀ x ∈ (Set.univ : Set ℝ), |iteratedDeriv 4 Real.cos x| ≤ 1) ∧
    (X ^ 2 - 1 : ℝ[X]).Monic ∧ ∃ B : Backend, B.Valid := by
  refine ⟨fun k _ => integrable_pow_gaussianReal _ _ _, fun s _ => gaussianReal_inf 0 one_ne_zero s, ?_, Real.contDiff_cos, ?_, ?_,
    _, theBackend_valid⟩
  · intro k hk
    simp only [sub_zero, div_one]
    have h0 := std_moment_even 0
    have h2 := std_moment_even 1
    have h3 := std_moment_odd 1
    simp only [List.length_cons, List.length_nil] at hk
    interval_cases k
    · simp
    · simp
    · simpa using h2.symm
    · simpa using h3.symm
  · intro x _
    have : iteratedDeriv 4 Real.cos = Real.cos := by
      simp [iteratedDeriv_succ, iteratedDeriv_zero]
    rw [this]
    exact Real.abs_cos_le_one x
  · exact monic_X_pow_sub (by simp)

end Mfs.Props

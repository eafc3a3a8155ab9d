import Mathlib.Probability.Distributions.Gamma
import Mathlib.Algebra.Group.ForwardDiff
import Mathlib.RingTheory.Polynomial.Pochhammer
import Mathlib.Analysis.SpecialFunctions.Gaussian.GaussianIntegral
import Verif.Lemmas.Legendre
import Verif.Lemmas.WeakMoments

/-!
# The gamma law and the Laguerre polynomials; the uniform law and the Legendre polynomials
-/

namespace Mfs.Converge

open MeasureTheory ProbabilityTheory Polynomial

/-! ## The gamma law -/

theorem gammaPDF_toReal_smul {k r : ℝ} (hk : 0 < k) (hr : 0 < r) (f : ℝ → ℝ) (x : ℝ) :
    (gammaPDF k r x).toReal • f x = gammaPDFReal k r x * f x := by
  rw [gammaPDF, ENNReal.toReal_ofReal (gammaPDFReal_nonneg hk hr x), smul_eq_mul]

theorem gammaPDFReal_mul (k r : ℝ) (f : ℝ → ℝ) :
    (fun x => gammaPDFReal k r x * f x) = (Set.Ici 0).indicator fun x => r ^ k / Real.Gamma k * (f x * (x ^ (k - 1) * Real.exp (-(r * x)))) := by
  funext x
  by_cases hx : 0 ≤ x
  · rw [Set.indicator_of_mem (by simpa using hx), gammaPDFReal, if_pos hx]; ring
  · rw [Set.indicator_of_notMem (by simpa using hx), gammaPDFReal, if_neg hx, zero_mul]

theorem measurable_gammaPDF' (k r : ℝ) : Measurable (gammaPDF k r) := (measurable_gammaPDFReal k r).ennreal_ofReal

theorem integrable_gamma {k r : ℝ} (hk : 0 < k) (hr : 0 < r) {f : ℝ → ℝ}
    (hf : IntegrableOn (fun x => f x * (x ^ (k - 1) * Real.exp (-(r * x)))) (Set.Ioi 0)) : Integrable f (gammaMeasure k r) := by
  rw [gammaMeasure, integrable_withDensity_iff_integrable_smul' (measurable_gammaPDF' k r) (.of_forall fun x => ENNReal.ofReal_lt_top)]
  simp only [gammaPDF_toReal_smul hk hr]
  rw [gammaPDFReal_mul, integrable_indicator_iff measurableSet_Ici, integrableOn_Ici_iff_integrableOn_Ioi]
  exact hf.const_mul _

theorem integral_gamma {k r : ℝ} (hk : 0 < k) (hr : 0 < r) (f : ℝ → ℝ) :
    ∫ x, f x ∂gammaMeasure k r = r ^ k / Real.Gamma k * ∫ x in Set.Ioi 0, f x * (x ^ (k - 1) * Real.exp (-(r * x))) := by
  rw [gammaMeasure, integral_withDensity_eq_integral_toReal_smul (measurable_gammaPDF' k r) (.of_forall fun x => ENNReal.ofReal_lt_top)]
  simp only [gammaPDF_toReal_smul hk hr]
  rw [gammaPDFReal_mul, integral_indicator measurableSet_Ici, integral_Ici_eq_integral_Ioi, integral_const_mul]

theorem gamma_moment {k r : ℝ} (hk : 0 < k) (hr : 0 < r) (n : ℕ) :
    ∫ x, x ^ n ∂gammaMeasure k r = (1 / r) ^ n * Real.Gamma (k + n) / Real.Gamma k := by
  rw [integral_gamma hk hr]
  have e : ∫ x in Set.Ioi (0 : ℝ), x ^ n * (x ^ (k - 1) * Real.exp (-(r * x))) = (1 / r) ^ (k + n) * Real.Gamma (k + n) := by
    rw [← Real.integral_rpow_mul_exp_neg_mul_Ioi (by positivity : 0 < k + n) hr]
    refine setIntegral_congr_fun measurableSet_Ioi fun x hx => ?_
    have hx : 0 < x := hx
    rw [← mul_assoc, ← Real.rpow_natCast, ← Real.rpow_add hx]
    congr 2; ring
  rw [e, Real.rpow_add (by positivity), Real.rpow_natCast, one_div, Real.inv_rpow hr.le]
  have := (Real.rpow_pos_of_pos hr k).ne'
  field_simp

theorem gamma_someExp {k r : ℝ} (hk : 0 < k) (hr : 0 < r) : SomeExpMoment (gammaMeasure k r) := by
  refine ⟨r / 2, by positivity, integrable_gamma hk hr ?_⟩
  have h := integrableOn_rpow_mul_exp_neg_mul_rpow (p := 1) (s := k - 1) (b := r / 2) (by linarith) one_pos (by positivity)
  refine h.congr_fun (fun x hx => ?_) measurableSet_Ioi
  have hx : 0 < x := hx
  dsimp only
  rw [abs_of_pos hx, Real.rpow_one, mul_left_comm, ← Real.exp_add]
  congr 2; ring

theorem ac_inf {μ : Measure ℝ} [IsProbabilityMeasure μ] (h : μ ≪ volume) (s : Finset ℝ) : μ (s : Set ℝ)ᶜ ≠ 0 := by
  have h0 : μ (s : Set ℝ) = 0 := h (s.finite_toSet.measure_zero volume)
  rw [measure_compl s.finite_toSet.measurableSet (by simp), h0]
  simp

theorem gamma_neg {k r : ℝ} : gammaMeasure k r (Set.Iio 0) = 0 := by
  rw [gammaMeasure, withDensity_apply _ measurableSet_Iio]
  exact lintegral_gammaPDF_of_nonpos le_rfl

/-- the generalised Laguerre polynomial `L_n^{(α)}(x) = Σ_i (-1)^i C(n + α, n - i) x^i / i!`. -/
noncomputable def lagPoly (n : ℕ) (α : ℝ) : ℝ[X] :=
  ∑ i ∈ Finset.range (n + 1), C ((-1) ^ i * Real.Gamma (n + α + 1) / ((n - i).factorial * Real.Gamma (α + i + 1) * i.factorial)) * X ^ i

theorem Gamma_add_nat' {x : ℝ} (hx : 0 < x) (j : ℕ) : Real.Gamma (x + j) = (ascPochhammer ℝ j).eval x * Real.Gamma x := by
  induction j with
  | zero => simp
  | succ j ih =>
    rw [Nat.cast_succ, ← add_assoc, Real.Gamma_add_one (by positivity), ih, ascPochhammer_succ_eval]
    ring

theorem laguerre_orth {k θ : ℝ} (hk : 0 < k) (hθ : 0 < θ) (n j : ℕ) (hj : j < n) :
    ∫ x, ((lagPoly n (k - 1)).comp (C θ⁻¹ * X)).eval x * x ^ j ∂gammaMeasure k (1 / θ) = 0 := by
  have hr : 0 < 1 / θ := by positivity
  have hi : ∀ m : ℕ, Integrable (fun x : ℝ => x ^ m) (gammaMeasure k (1 / θ)) := (gamma_someExp hk hr).pow
  have e : ∀ x : ℝ, ((lagPoly n (k - 1)).comp (C θ⁻¹ * X)).eval x * x ^ j
      = ∑ i ∈ Finset.range (n + 1), ((-1) ^ i * Real.Gamma (n + (k - 1) + 1) / ((n - i).factorial * Real.Gamma (k - 1 + i + 1) * i.factorial) * θ⁻¹ ^ i) * x ^ (i + j) := by
    intro x
    rw [eval_comp, lagPoly, eval_finsetSum, Finset.sum_mul]
    refine Finset.sum_congr rfl fun i _ => ?_
    simp only [eval_mul, eval_C, eval_pow, eval_X, mul_pow, pow_add]
    ring
  simp only [e]
  rw [integral_finsetSum _ fun i _ => (hi _).const_mul _]
  simp only [integral_const_mul, gamma_moment hk hr]
  have hd := congrFun (Polynomial.fwdDiff_iter_eq_zero_of_degree_lt (R := ℝ) (P := ascPochhammer ℝ j) (n := n) (by rw [ascPochhammer_natDegree]; exact hj)) k
  rw [fwdDiff_iter_eq_sum_shift] at hd
  simp only [Pi.zero_apply, zsmul_eq_mul, nsmul_eq_mul, mul_one] at hd
  rw [← mul_zero ((-1) ^ n * Real.Gamma (n + (k - 1) + 1) / n.factorial * θ ^ j / Real.Gamma k), ← hd, Finset.mul_sum]
  refine Finset.sum_congr rfl fun i hi => ?_
  have hin : i ≤ n := by simpa [Nat.lt_succ_iff] using hi
  have hki : 0 < k + i := by positivity
  have hc : ((n.choose i : ℝ)) * (i.factorial * (n - i).factorial) = n.factorial := by
    exact_mod_cast by rw [← mul_assoc]; exact Nat.choose_mul_factorial_mul_factorial hin
  have hs : (-1 : ℝ) ^ n * (-1) ^ (n - i) = (-1) ^ i := by
    obtain ⟨d, rfl⟩ := Nat.exists_eq_add_of_le hin
    rw [Nat.add_sub_cancel_left, pow_add, mul_assoc, ← mul_pow]; simp
  have hG : Real.Gamma (k + ((i + j : ℕ) : ℝ)) = (ascPochhammer ℝ j).eval (k + i) * Real.Gamma (k + i) := by
    rw [← Gamma_add_nat' hki, Nat.cast_add, add_assoc]
  rw [hG, show k - 1 + (i : ℝ) + 1 = k + i by ring, one_div_one_div, pow_add, inv_pow, ← hc, ← hs]
  have h1 := (Real.Gamma_pos_of_pos hki).ne'
  have h2 := (Real.Gamma_pos_of_pos hk).ne'
  have h3 : (i.factorial : ℝ) ≠ 0 := by positivity
  have h4 : ((n - i).factorial : ℝ) ≠ 0 := by positivity
  have h5 : (n.choose i : ℝ) ≠ 0 := by exact_mod_cast (Nat.choose_pos hin).ne'
  push_cast
  field_simp

theorem lagPoly_natDegree (n : ℕ) (α : ℝ) : (lagPoly n α).natDegree ≤ n :=
  natDegree_sum_le_of_forall_le _ _ fun i hi => (natDegree_C_mul_X_pow_le _ _).trans (by simpa [Nat.lt_succ_iff] using hi)

theorem lagPoly_coeff_zero (n : ℕ) {k : ℝ} (hk : 0 < k) : (lagPoly n (k - 1)).eval 0 ≠ 0 := by
  rw [lagPoly, eval_finsetSum, Finset.sum_eq_single 0 (fun i _ hi => by simp [hi]) (by simp)]
  have h1 : 0 < Real.Gamma (n + (k - 1) + 1) := Real.Gamma_pos_of_pos (by linarith [n.cast_nonneg (α := ℝ)])
  have h2 : 0 < Real.Gamma (k - 1 + ((0 : ℕ) : ℝ) + 1) := Real.Gamma_pos_of_pos (by simp; exact hk)
  simp only [eval_C, pow_zero, one_mul, mul_one]
  positivity

/-! ## The uniform law -/

/-- the uniform law on `[a, b]`. -/
noncomputable def uniformLaw (a b : ℝ) : Measure ℝ := ENNReal.ofReal (b - a)⁻¹ • volume.restrict (Set.Ioc a b)

theorem uniform_prob {a b : ℝ} (h : a < b) : IsProbabilityMeasure (uniformLaw a b) := by
  constructor
  have : 0 < b - a := sub_pos.2 h
  rw [uniformLaw, Measure.smul_apply, Measure.restrict_apply_univ, Real.volume_Ioc, smul_eq_mul, ← ENNReal.ofReal_mul (by positivity),
    inv_mul_cancel₀ this.ne', ENNReal.ofReal_one]

theorem uniform_integral {a b : ℝ} (h : a < b) (f : ℝ → ℝ) : ∫ x, f x ∂uniformLaw a b = 1 / (b - a) * ∫ x in a..b, f x := by
  have : 0 < b - a := sub_pos.2 h
  rw [uniformLaw, integral_smul_measure, ENNReal.toReal_ofReal (by positivity), smul_eq_mul, intervalIntegral.integral_of_le h.le, one_div]

theorem uniform_ac (a b : ℝ) : uniformLaw a b ≪ volume :=
  (Measure.smul_absolutelyContinuous).trans Measure.restrict_le_self.absolutelyContinuous

theorem uniform_integrable (a b : ℝ) {f : ℝ → ℝ} (hf : Continuous f) : Integrable f (uniformLaw a b) :=
  (hf.integrableOn_Ioc).smul_measure ENNReal.ofReal_ne_top

theorem uniform_Iio (a b : ℝ) : uniformLaw a b (Set.Iio a) = 0 := by
  rw [uniformLaw, Measure.smul_apply, Measure.restrict_apply measurableSet_Iio]
  have : Set.Iio a ∩ Set.Ioc a b = ∅ := by ext x; simp; intro h1 h2; linarith
  simp [this]

theorem uniform_Ioi (a b : ℝ) : uniformLaw a b (Set.Ioi b) = 0 := by
  rw [uniformLaw, Measure.smul_apply, Measure.restrict_apply measurableSet_Ioi]
  have : Set.Ioi b ∩ Set.Ioc a b = ∅ := by ext x; simp; intro h1 h2; linarith
  simp [this]

theorem legI_legPoly_low (n : ℕ) (q : ℝ[X]) (hq : q.natDegree < n) : legI (legPoly n * q) = 0 := by
  rw [rodrigues n, mul_assoc, legI_C_mul, legI_rodrigues n _ n le_rfl, iterate_derivative_eq_zero hq]
  simp [legI]

theorem legendre_orth {a b : ℝ} (h : a < b) (n : ℕ) (q : ℝ[X]) (hq : q.natDegree < n) :
    ∫ x, (legPoly n).eval ((2 * x - a - b) / (b - a)) * q.eval x ∂uniformLaw a b = 0 := by
  have hb : b - a ≠ 0 := (sub_pos.2 h).ne'
  rw [uniform_integral h]
  have key := intervalIntegral.integral_comp_mul_add (a := a) (b := b)
    (fun y => (legPoly n * q.comp (C ((b - a) / 2) * X + C ((a + b) / 2))).eval y) (c := 2 / (b - a)) (by positivity) (-(a + b) / (b - a))
  have e1 : 2 / (b - a) * a + -(a + b) / (b - a) = -1 := by field_simp; ring
  have e2 : 2 / (b - a) * b + -(a + b) / (b - a) = 1 := by field_simp; ring
  rw [e1, e2] at key
  have e3 : (∫ x in (-1 : ℝ)..1, (legPoly n * q.comp (C ((b - a) / 2) * X + C ((a + b) / 2))).eval x) = 0 :=
    legI_legPoly_low n _ (lt_of_le_of_lt natDegree_comp_le (by
      calc q.natDegree * (C ((b - a) / 2) * X + C ((a + b) / 2) : ℝ[X]).natDegree ≤ q.natDegree * 1 := Nat.mul_le_mul_left _ natDegree_linear_le
        _ < n := by omega))
  rw [e3, smul_zero] at key
  have e4 : ∫ x in a..b, (legPoly n).eval ((2 * x - a - b) / (b - a)) * q.eval x = 0 := by
    rw [← key]
    refine intervalIntegral.integral_congr fun x _ => ?_
    simp only [eval_mul, eval_comp, eval_add, eval_C, eval_X]
    congr 2
    · field_simp; ring
    · field_simp; ring
  rw [e4, mul_zero]

theorem legPoly_natDegree_le (n : ℕ) : (legPoly n).natDegree ≤ n :=
  natDegree_sum_le_of_forall_le _ _ fun i _ => (natDegree_C_mul_X_pow_le _ _).trans (by omega)

theorem legPoly_ne_zero (n : ℕ) : legPoly n ≠ 0 := by
  intro h
  have := legendre_orthogonal n n
  rw [h, if_pos rfl, zero_mul] at this
  have h0 : legI 0 = 0 := by simp [legI]
  rw [h0] at this
  have : (0 : ℝ) < 2 / (2 * n + 1) := by positivity
  linarith

end Mfs.Converge

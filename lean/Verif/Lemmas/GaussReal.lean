import Mathlib.Probability.Distributions.Gaussian.Real
import Mathlib.MeasureTheory.Integral.IntegralEqImproper
import Mathlib.Analysis.Calculus.Deriv.Polynomial
import Mathlib.Topology.Algebra.Polynomial
import Mathlib.Data.Nat.Factorial.DoubleFactorial

/-!
# Polynomial integrals under one-dimensional normal laws
-/

namespace Mfs

open MeasureTheory ProbabilityTheory Polynomial
open scoped NNReal

theorem integrable_pow_gaussianReal (m : ℝ) (v : ℝ≥0) (n : ℕ) : Integrable (fun x : ℝ => x ^ n) (gaussianReal m v) := by
  refine integrable_pow_of_mem_interior_integrableExpSet (X := fun x : ℝ => x) ?_ n
  rw [integrableExpSet_fun_id_gaussianReal]
  simp

theorem integrable_poly_gaussianReal (m : ℝ) (v : ℝ≥0) (p : ℝ[X]) : Integrable (fun x => p.eval x) (gaussianReal m v) := by
  simp only [Polynomial.eval_eq_sum, Polynomial.sum]
  exact integrable_finsetSum _ fun i _ => (integrable_pow_gaussianReal m v i).const_mul _

/-- change of variable `x = m + √v z`. -/
theorem integral_gaussianReal_std (m : ℝ) (v : ℝ≥0) (f : ℝ → ℝ) (hf : Continuous f) :
    ∫ x, f x ∂gaussianReal m v = ∫ z, f (m + √v * z) ∂gaussianReal 0 1 := by
  have h1 : (gaussianReal 0 1).map (fun z => m + √v * z) = gaussianReal m v := by
    have : (fun z => m + √(v : ℝ) * z) = (fun z => m + z) ∘ (fun z => √(v : ℝ) * z) := rfl
    rw [this, ← Measure.map_map (by fun_prop) (by fun_prop), gaussianReal_map_const_mul, gaussianReal_map_const_add]
    congr 1
    · simp
    · ext; simp
  rw [← h1, integral_map (by fun_prop) hf.aestronglyMeasurable]

theorem hasDerivAt_gaussianPDF_std (x : ℝ) :
    HasDerivAt (gaussianPDFReal 0 1) (-x * gaussianPDFReal 0 1 x) x := by
  simp only [gaussianPDFReal_def]
  have : HasDerivAt (fun x : ℝ => -(x - 0) ^ 2 / (2 * ((1 : ℝ≥0) : ℝ))) (-x) x := by
    have h := ((((hasDerivAt_id x).sub_const 0).pow 2).neg).div_const (2 * ((1 : ℝ≥0) : ℝ))
    refine h.congr_deriv ?_
    simp
    ring
  refine (this.exp.const_mul _).congr_deriv ?_
  ring

theorem integrable_poly_mul_pdf (p : ℝ[X]) : Integrable (fun x => p.eval x * gaussianPDFReal 0 1 x) := by
  have h := integrable_poly_gaussianReal 0 1 p
  rw [gaussianReal_of_var_ne_zero 0 one_ne_zero,
    integrable_withDensity_iff_integrable_smul' (measurable_gaussianPDF 0 1) (by simp [gaussianPDF_lt_top])] at h
  refine h.congr (Filter.Eventually.of_forall fun x => ?_)
  simp [toReal_gaussianPDF, mul_comm]

theorem integral_std_eq (f : ℝ → ℝ) : ∫ x, f x ∂gaussianReal 0 1 = ∫ x, f x * gaussianPDFReal 0 1 x := by
  rw [integral_gaussianReal_eq_integral_smul one_ne_zero]
  simp only [smul_eq_mul, mul_comm]

/-- Stein's identity for polynomials. -/
theorem stein (p : ℝ[X]) :
    ∫ x, x * p.eval x ∂gaussianReal 0 1 = ∫ x, (derivative p).eval x ∂gaussianReal 0 1 := by
  have hd : ∀ x, HasDerivAt (fun x => p.eval x * gaussianPDFReal 0 1 x)
      ((derivative p - X * p).eval x * gaussianPDFReal 0 1 x) x := by
    intro x
    refine ((p.hasDerivAt x).mul (hasDerivAt_gaussianPDF_std x)).congr_deriv ?_
    simp only [eval_sub, eval_mul, eval_X]
    ring
  have h0 := integral_eq_zero_of_hasDerivAt_of_integrable hd (integrable_poly_mul_pdf _) (integrable_poly_mul_pdf _)
  rw [← integral_std_eq] at h0
  have e1 : ∀ x, (derivative p - X * p).eval x = (derivative p).eval x - (X * p).eval x := by intro x; simp
  simp only [e1] at h0
  rw [integral_sub (integrable_poly_gaussianReal _ _ _) (integrable_poly_gaussianReal _ _ _)] at h0
  have e2 : ∀ x, (X * p).eval x = x * p.eval x := by intro x; simp
  simp only [e2] at h0
  linarith

theorem std_moment_zero : ∫ x : ℝ, x ^ 0 ∂gaussianReal 0 1 = 1 := by simp

theorem std_moment_one : ∫ x : ℝ, x ^ 1 ∂gaussianReal 0 1 = 0 := by
  simp only [pow_one]; exact integral_id_gaussianReal

theorem std_moment_succ_succ (n : ℕ) :
    ∫ x : ℝ, x ^ (n + 2) ∂gaussianReal 0 1 = (n + 1) * ∫ x : ℝ, x ^ n ∂gaussianReal 0 1 := by
  have h := stein (X ^ (n + 1))
  simp only [eval_pow, eval_X, derivative_X_pow, eval_mul, eval_C, Nat.add_sub_cancel] at h
  have e : ∀ x : ℝ, x * x ^ (n + 1) = x ^ (n + 2) := fun x => by ring
  simp only [e] at h
  rw [h, integral_const_mul]
  push_cast; rfl

theorem std_moment_odd (k : ℕ) : ∫ x : ℝ, x ^ (2 * k + 1) ∂gaussianReal 0 1 = 0 := by
  induction k with
  | zero => exact std_moment_one
  | succ k ih =>
    have := std_moment_succ_succ (2 * k + 1)
    rw [show 2 * (k + 1) + 1 = 2 * k + 1 + 2 by ring, this, ih, mul_zero]

theorem std_moment_even (k : ℕ) : ∫ x : ℝ, x ^ (2 * k) ∂gaussianReal 0 1 = ((2 * k).factorial : ℝ) / (2 ^ k * k.factorial) := by
  induction k with
  | zero => simp
  | succ k ih =>
    have := std_moment_succ_succ (2 * k)
    rw [show 2 * (k + 1) = 2 * k + 2 by ring, this, ih, Nat.factorial_succ, Nat.factorial_succ, Nat.factorial_succ k]
    have h1 : (k.factorial : ℝ) ≠ 0 := by exact_mod_cast k.factorial_ne_zero
    push_cast
    have h2 : (k : ℝ) + 1 ≠ 0 := by positivity
    field_simp
    ring

theorem std_moment_even' (k : ℕ) : ∫ x : ℝ, x ^ (2 * k) ∂gaussianReal 0 1 = ((2 * k - 1).doubleFactorial : ℝ) := by
  induction k with
  | zero => simp
  | succ k ih =>
    have := std_moment_succ_succ (2 * k)
    rw [show 2 * (k + 1) = 2 * k + 2 by ring, this, ih]
    rcases k with _ | k
    · simp
    · rw [show 2 * (k + 1) + 2 - 1 = 2 * (k + 1) - 1 + 2 by omega, Nat.doubleFactorial_add_two]
      push_cast
      congr 1
      have : 2 * (k + 1) - 1 = 2 * k + 1 := by omega
      rw [this]; push_cast; ring

/-- binomial formula for the moments of a normal law. -/
theorem gauss_moment (m : ℝ) (v : ℝ≥0) (p : ℕ) : ∫ x, x ^ p ∂gaussianReal m v =
    ∑ j ∈ Finset.range (p + 1), p.choose j * m ^ j * √v ^ (p - j) * ∫ z : ℝ, z ^ (p - j) ∂gaussianReal 0 1 := by
  rw [integral_gaussianReal_std m v _ (by fun_prop)]
  simp only [add_pow]
  rw [integral_finsetSum]
  · apply Finset.sum_congr rfl
    intro j _
    rw [← integral_const_mul]
    congr 1
    funext z
    rw [mul_pow]; ring
  · intro j _
    have : (fun z : ℝ => m ^ j * (√v * z) ^ (p - j) * (p.choose j : ℝ)) = fun z => (m ^ j * √v ^ (p - j) * p.choose j) * z ^ (p - j) := by
      funext z; rw [mul_pow]; ring
    rw [this]
    exact (integrable_pow_gaussianReal 0 1 _).const_mul _

/-- shifting a normal law. -/
theorem gauss_central (m c : ℝ) (v : ℝ≥0) (p : ℕ) :
    ∫ x, (x - c) ^ p ∂gaussianReal m v = ∫ x, x ^ p ∂gaussianReal (m - c) v := by
  rw [integral_gaussianReal_std m v (fun x => (x - c) ^ p) (by fun_prop), integral_gaussianReal_std (m - c) v _ (by fun_prop)]
  congr 1
  funext z
  congr 1
  ring

end Mfs

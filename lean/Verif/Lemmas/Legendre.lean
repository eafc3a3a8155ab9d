import Mathlib.Algebra.Polynomial.Derivative
import Mathlib.Analysis.SpecialFunctions.Integrals.Basic
import Mathlib.Analysis.Calculus.Deriv.Polynomial
import Mathlib.Topology.Algebra.Polynomial
import Mathlib.MeasureTheory.Integral.IntervalIntegral.IntegrationByParts

/-!
# Legendre polynomials on `[-1, 1]`: explicit coefficients, Rodrigues' formula, orthogonality
-/

namespace Mfs

open Polynomial
open scoped Nat

/-- coefficient of `X^(k - 2i)` in the Legendre polynomial. -/
noncomputable def legCoeff (k i : ℕ) : ℝ :=
  (-1) ^ i * (2 : ℝ) ^ (-(k : ℤ)) * ((2 * k - 2 * i)! : ℝ) / ((i ! : ℝ) * ((k - i)! : ℝ) * ((k - 2 * i)! : ℝ))

/-- the Legendre polynomial `P_k`. -/
noncomputable def legPoly (k : ℕ) : ℝ[X] := ∑ i ∈ Finset.range (k / 2 + 1), C (legCoeff k i) * X ^ (k - 2 * i)

theorem rodrigues (k : ℕ) : legPoly k = C (1 / (2 ^ k * (k ! : ℝ))) * derivative^[k] ((X ^ 2 - 1 : ℝ[X]) ^ k) := by
  have hexp : (X ^ 2 - 1 : ℝ[X]) ^ k = ∑ i ∈ Finset.range (k + 1), C ((-1) ^ i * (k.choose i : ℝ)) * X ^ (2 * k - 2 * i) := by
    rw [sub_eq_neg_add, add_pow]
    apply Finset.sum_congr rfl
    intro i hi
    rw [Finset.mem_range] at hi
    rw [← pow_mul, show 2 * (k - i) = 2 * k - 2 * i by omega]
    simp only [map_mul, map_pow, map_neg, map_one, map_natCast]
    ring
  rw [hexp, iterate_derivative_sum, Finset.mul_sum, legPoly]
  symm
  rw [← Finset.sum_subset (Finset.range_mono (show k / 2 + 1 ≤ k + 1 by omega))]
  · apply Finset.sum_congr rfl
    intro i hi
    rw [Finset.mem_range] at hi
    rw [iterate_derivative_C_mul, iterate_derivative_X_pow_eq_C_mul, ← mul_assoc, ← mul_assoc, ← C_mul, ← C_mul,
      show 2 * k - 2 * i - k = k - 2 * i by omega]
    congr 2
    rw [legCoeff, Nat.cast_choose ℝ (show i ≤ k by omega), zpow_neg, zpow_natCast]
    have hd : ((2 * k - 2 * i).descFactorial k : ℝ) = ((2 * k - 2 * i)! : ℝ) / ((k - 2 * i)! : ℝ) := by
      have := Nat.factorial_mul_descFactorial (show k ≤ 2 * k - 2 * i by omega)
      rw [show 2 * k - 2 * i - k = k - 2 * i by omega] at this
      rw [eq_div_iff (by exact_mod_cast Nat.factorial_ne_zero _), mul_comm]
      exact_mod_cast this
    rw [hd]
    have h1 : (k ! : ℝ) ≠ 0 := by exact_mod_cast k.factorial_ne_zero
    have h2 : (i ! : ℝ) ≠ 0 := by exact_mod_cast i.factorial_ne_zero
    have h3 : ((k - i)! : ℝ) ≠ 0 := by exact_mod_cast (k - i).factorial_ne_zero
    have h4 : ((k - 2 * i)! : ℝ) ≠ 0 := by exact_mod_cast (k - 2 * i).factorial_ne_zero
    field_simp
  · intro i hik hi
    rw [Finset.mem_range] at hi hik
    rw [iterate_derivative_C_mul, iterate_derivative_X_pow_eq_C_mul, Nat.descFactorial_eq_zero_iff_lt.2 (by omega)]
    simp

/-- `∫_{-1}^{1} q`. -/
noncomputable def legI (q : ℝ[X]) : ℝ := ∫ x in (-1 : ℝ)..1, q.eval x

theorem intervalIntegrable_poly (q : ℝ[X]) (a b : ℝ) : IntervalIntegrable (fun x => q.eval x) MeasureTheory.volume a b :=
  q.continuous.intervalIntegrable a b

theorem legI_add (p q : ℝ[X]) : legI (p + q) = legI p + legI q := by
  simp only [legI, eval_add]
  exact intervalIntegral.integral_add (intervalIntegrable_poly p _ _) (intervalIntegrable_poly q _ _)

theorem legI_C_mul (c : ℝ) (q : ℝ[X]) : legI (C c * q) = c * legI q := by
  simp only [legI, eval_mul, eval_C, intervalIntegral.integral_const_mul]

theorem legI_derivative (q : ℝ[X]) : legI (derivative q) = q.eval 1 - q.eval (-1) := by
  rw [legI]
  exact intervalIntegral.integral_eq_sub_of_hasDerivAt (fun x _ => q.hasDerivAt x) (intervalIntegrable_poly _ _ _)

theorem legI_parts {u : ℝ[X]} (h1 : u.eval 1 = 0) (h2 : u.eval (-1) = 0) (q : ℝ[X]) :
    legI (derivative u * q) = -legI (u * derivative q) := by
  have := legI_derivative (u * q)
  rw [derivative_mul, legI_add] at this
  simp only [eval_mul, h1, h2, zero_mul, sub_zero] at this
  linarith

theorem eval_iterate_vanish {k j : ℕ} (h : j < k) (x : ℝ) (hx : x ^ 2 = 1) :
    (derivative^[j] ((X ^ 2 - 1 : ℝ[X]) ^ k)).eval x = 0 := by
  obtain ⟨r, hr⟩ := pow_sub_dvd_iterate_derivative_pow (X ^ 2 - 1 : ℝ[X]) k j
  rw [hr]
  simp only [eval_mul, eval_pow, eval_sub, eval_X, eval_one, hx, sub_self]
  rw [zero_pow (by omega), zero_mul]

theorem legI_rodrigues (k : ℕ) (q : ℝ[X]) : ∀ j ≤ k,
    legI (derivative^[k] ((X ^ 2 - 1 : ℝ[X]) ^ k) * q) = (-1) ^ j * legI (derivative^[k - j] ((X ^ 2 - 1 : ℝ[X]) ^ k) * derivative^[j] q)
  | 0, _ => by simp
  | j + 1, h => by
    rw [legI_rodrigues k q j (by omega), show k - j = (k - (j + 1)) + 1 by omega, Function.iterate_succ_apply',
      legI_parts (eval_iterate_vanish (by omega) _ (by norm_num)) (eval_iterate_vanish (by omega) _ (by norm_num)),
      Function.iterate_succ_apply', pow_succ]
    ring

theorem legI_power (k : ℕ) : legI ((X ^ 2 - 1 : ℝ[X]) ^ k) = (-1) ^ k * 2 ^ (2 * k + 1) * (k ! : ℝ) ^ 2 / ((2 * k + 1)! : ℝ) := by
  induction k with
  | zero => norm_num [legI]
  | succ k ih =>
    have hp := legI_derivative (X * (X ^ 2 - 1 : ℝ[X]) ^ (k + 1))
    have hd : derivative (X * (X ^ 2 - 1 : ℝ[X]) ^ (k + 1))
        = C (2 * k + 3 : ℝ) * (X ^ 2 - 1 : ℝ[X]) ^ (k + 1) + C (2 * ((k : ℝ) + 1)) * (X ^ 2 - 1 : ℝ[X]) ^ k := by
      rw [derivative_mul, derivative_pow_succ]
      simp only [derivative_X, derivative_sub, derivative_X_pow, derivative_one, map_add, map_mul, map_natCast, map_ofNat, map_one]
      push_cast
      ring
    rw [hd, legI_add, legI_C_mul, legI_C_mul, ih] at hp
    simp only [eval_mul, eval_pow, eval_sub, eval_X, eval_one] at hp
    norm_num at hp
    have e : ((2 * (k + 1) + 1)! : ℝ) = (2 * k + 3) * (2 * k + 2) * ((2 * k + 1)! : ℝ) := by
      rw [show 2 * (k + 1) + 1 = (2 * k + 1) + 1 + 1 by ring, Nat.factorial_succ, Nat.factorial_succ]
      push_cast; ring
    rw [e, Nat.factorial_succ]
    have h1 : ((2 * k + 1)! : ℝ) ≠ 0 := by exact_mod_cast (2 * k + 1).factorial_ne_zero
    have h2 : (2 * (k : ℝ) + 3) ≠ 0 := by positivity
    have h3 : (2 * (k : ℝ) + 2) ≠ 0 := by positivity
    generalize legI ((X ^ 2 - 1 : ℝ[X]) ^ (k + 1)) = W at hp ⊢
    push_cast
    field_simp at hp ⊢
    ring_nf at hp ⊢
    linear_combination 2 * hp

theorem natDegree_X_sq_sub_one_pow (k : ℕ) : ((X ^ 2 - 1 : ℝ[X]) ^ k).natDegree = 2 * k := by
  have : (X ^ 2 - 1 : ℝ[X]) = X ^ 2 - C 1 := by simp
  rw [natDegree_pow, this, natDegree_X_pow_sub_C, mul_comm]

theorem coeff_X_sq_sub_one_pow (k : ℕ) : ((X ^ 2 - 1 : ℝ[X]) ^ k).coeff (2 * k) = 1 := by
  have hm : ((X ^ 2 - 1 : ℝ[X]) ^ k).Monic := by
    have : (X ^ 2 - 1 : ℝ[X]) = X ^ 2 - C 1 := by simp
    rw [this]
    exact (monic_X_pow_sub_C 1 (by norm_num)).pow k
  have := hm.coeff_natDegree
  rwa [natDegree_X_sq_sub_one_pow] at this

/-- orthogonality of the Legendre polynomials. -/
theorem legendre_orthogonal (k m : ℕ) : legI (legPoly k * legPoly m) = if k = m then 2 / (2 * k + 1 : ℝ) else 0 := by
  have hlt : ∀ k m : ℕ, m < k → legI (legPoly k * legPoly m) = 0 := by
    intro k m h
    rw [rodrigues k, rodrigues m, mul_assoc, legI_C_mul, legI_rodrigues k _ k le_rfl, iterate_derivative_C_mul,
      ← Function.iterate_add_apply, iterate_derivative_eq_zero (p := (X ^ 2 - 1 : ℝ[X]) ^ m) (x := k + m) (by rw [natDegree_X_sq_sub_one_pow]; omega)]
    simp [legI]
  rcases lt_trichotomy k m with h | rfl | h
  · rw [if_neg (by omega), mul_comm]
    exact hlt m k h
  · rw [if_pos rfl, rodrigues k, mul_assoc, legI_C_mul, legI_rodrigues k _ k le_rfl, iterate_derivative_C_mul,
      ← Function.iterate_add_apply]
    have hc : derivative^[k + k] ((X ^ 2 - 1 : ℝ[X]) ^ k) = C ((2 * k)! : ℝ) := by
      rw [eq_C_of_natDegree_le_zero ((natDegree_iterate_derivative _ _).trans (by rw [natDegree_X_sq_sub_one_pow]; omega)),
        coeff_iterate_derivative, zero_add, ← two_mul, coeff_X_sq_sub_one_pow, Nat.descFactorial_self]
      simp
    rw [hc, Nat.sub_self, Function.iterate_zero_apply, ← C_mul, mul_comm _ (C _), legI_C_mul, legI_power, Nat.factorial_succ]
    have h1 : ((2 * k)! : ℝ) ≠ 0 := by exact_mod_cast (2 * k).factorial_ne_zero
    have h2 : (2 * (k : ℝ) + 1) ≠ 0 := by positivity
    have h3 : (k ! : ℝ) ≠ 0 := by exact_mod_cast k.factorial_ne_zero
    have h4 : ((-1 : ℝ) ^ k) * (-1) ^ k = 1 := by rw [← mul_pow]; norm_num
    push_cast
    field_simp
    rw [pow_succ (2 : ℝ) (2 * k), pow_mul' (2 : ℝ) 2 k]
    linear_combination (2 ^ k) ^ 2 * 2 * h4
  · rw [if_neg (by omega)]
    exact hlt k m h

/-- two linear functionals agreeing on `P_0, …, P_{n-1}` agree on `1, X, …, X^{n-1}`. -/
theorem legendre_span (A B : ℝ[X] →ₗ[ℝ] ℝ) (n : ℕ) (h : ∀ k < n, A (legPoly k) = B (legPoly k)) :
    ∀ p < n, A (X ^ p) = B (X ^ p) := by
  intro p
  induction p using Nat.strong_induction_on with
  | _ p ih =>
    intro hp
    have hk := h p hp
    rw [legPoly, Finset.sum_range_succ'] at hk
    simp only [← smul_eq_C_mul, map_add, map_sum, map_smul, smul_eq_mul, mul_zero, Nat.sub_zero] at hk
    have hs : ∑ i ∈ Finset.range (p / 2), legCoeff p (i + 1) * A (X ^ (p - 2 * (i + 1)))
        = ∑ i ∈ Finset.range (p / 2), legCoeff p (i + 1) * B (X ^ (p - 2 * (i + 1))) := by
      apply Finset.sum_congr rfl
      intro i hi
      rw [Finset.mem_range] at hi
      rw [ih _ (by omega) (by omega)]
    rw [hs] at hk
    refine mul_left_cancel₀ ?_ (add_left_cancel hk)
    rw [legCoeff]
    have h1 : ((2 * p - 2 * 0)! : ℝ) ≠ 0 := by exact_mod_cast (2 * p - 2 * 0).factorial_ne_zero
    have h2 : (p ! : ℝ) ≠ 0 := by exact_mod_cast p.factorial_ne_zero
    simp only [mul_zero, Nat.sub_zero] at h1 ⊢
    simp [h1, h2]

end Mfs

import Verif.Lemmas.GaussReal
import Mathlib.RingTheory.Polynomial.Hermite.Basic
import Mathlib.LinearAlgebra.Lagrange
import Mathlib.Algebra.Polynomial.FieldDivision

/-!
# Hermite polynomials and the Gauss–Hermite rule
-/

namespace Mfs

open Polynomial MeasureTheory ProbabilityTheory

/-- the probabilists' Hermite polynomial over the reals. -/
noncomputable def he (n : ℕ) : ℝ[X] := (hermite n).map (Int.castRingHom ℝ)

theorem he_succ (n : ℕ) : he (n + 1) = X * he n - derivative (he n) := by
  rw [he, hermite_succ, Polynomial.map_sub, Polynomial.map_mul, map_X, ← derivative_map]
  rfl

theorem he_zero : he 0 = 1 := by simp [he]

theorem natDegree_he (n : ℕ) : (he n).natDegree = n := by
  rw [he, (hermite_monic n).natDegree_map, natDegree_hermite]

theorem he_monic (n : ℕ) : (he n).Monic := (hermite_monic n).map _

theorem derivative_he (n : ℕ) : derivative (he (n + 1)) = (n + 1 : ℝ) • he n := by
  induction n with
  | zero => simp [he_succ, he_zero]
  | succ n ih =>
    have h2 : derivative (derivative (he (n + 1))) = (n + 1 : ℝ) • derivative (he n) := by rw [ih, derivative_smul]
    have e := he_succ n
    rw [he_succ (n + 1), derivative_sub, derivative_mul, derivative_X, one_mul, h2, ih]
    rw [show X * ((n + 1 : ℝ) • he n) = (n + 1 : ℝ) • (X * he n) by rw [mul_smul_comm], add_sub_assoc, ← smul_sub, ← e]
    push_cast
    module

/-- expectation of a polynomial under the standard normal law. -/
noncomputable def gE (p : ℝ[X]) : ℝ := ∫ x, p.eval x ∂gaussianReal 0 1

theorem gE_add (p q : ℝ[X]) : gE (p + q) = gE p + gE q := by
  simp only [gE, eval_add]
  exact integral_add (integrable_poly_gaussianReal 0 1 p) (integrable_poly_gaussianReal 0 1 q)

theorem gE_sub (p q : ℝ[X]) : gE (p - q) = gE p - gE q := by
  simp only [gE, eval_sub]
  exact integral_sub (integrable_poly_gaussianReal 0 1 p) (integrable_poly_gaussianReal 0 1 q)

theorem gE_C_mul (c : ℝ) (p : ℝ[X]) : gE (C c * p) = c * gE p := by
  simp only [gE, eval_mul, eval_C]
  exact integral_const_mul _ _

theorem gE_sum {ι : Type*} (s : Finset ι) (f : ι → ℝ[X]) : gE (∑ i ∈ s, f i) = ∑ i ∈ s, gE (f i) := by
  simp only [gE, eval_finsetSum]
  exact integral_finsetSum _ fun i _ => integrable_poly_gaussianReal 0 1 _

theorem gE_one : gE 1 = 1 := by simp [gE]

theorem gE_X_mul (p : ℝ[X]) : gE (X * p) = gE (derivative p) := by
  simp only [gE, eval_mul, eval_X]
  exact stein p

/-- orthogonality of the Hermite polynomials to lower degrees, and the value at their own degree. -/
theorem gE_mul_he (n : ℕ) (q : ℝ[X]) (hq : q.natDegree ≤ n) : gE (q * he n) = n.factorial * q.coeff n := by
  induction n generalizing q with
  | zero =>
    rw [he_zero, mul_one, eq_C_of_natDegree_le_zero hq, ← mul_one (C _), gE_C_mul, gE_one]
    simp
  | succ n ih =>
    have hd : (derivative q).natDegree ≤ n := (natDegree_derivative_le q).trans (by omega)
    have : gE (q * he (n + 1)) = gE (derivative q * he n) := by
      rw [he_succ, mul_sub, gE_sub, show q * (X * he n) = X * (q * he n) by ring, gE_X_mul, derivative_mul, gE_add]
      ring
    rw [this, ih _ hd, coeff_derivative, Nat.factorial_succ]
    push_cast
    ring

variable {n : ℕ} {z : Fin n → ℝ}

/-- the Lagrange basis polynomial through the roots. -/
noncomputable def lag (z : Fin n → ℝ) (j : Fin n) : ℝ[X] := Lagrange.basis Finset.univ z j

theorem lag_eval (hz : Function.Injective z) (j k : Fin n) : (lag z j).eval (z k) = if j = k then 1 else 0 := by
  split_ifs with h
  · subst h
    exact Lagrange.eval_basis_self (hz.injOn) (Finset.mem_univ _)
  · exact Lagrange.eval_basis_of_ne h (Finset.mem_univ _)

theorem lag_natDegree (hz : Function.Injective z) (j : Fin n) : (lag z j).natDegree = n - 1 := by
  have := Lagrange.degree_basis (s := Finset.univ) (v := z) hz.injOn (Finset.mem_univ j)
  rw [Finset.card_univ, Fintype.card_fin] at this
  exact natDegree_eq_of_degree_eq_some this

/-- exactness of the interpolatory rule through the roots of `he n`, with weights `gE (lag z j)`. -/
theorem interp_exact (hz : Function.Injective z) (hroot : ∀ j, (he n).eval (z j) = 0) (p : ℝ[X])
    (hp : p.natDegree < 2 * n) : gE p = ∑ j, gE (lag z j) * p.eval (z j) := by
  have hdiv := modByMonic_add_div p (he n)
  have hr : (p %ₘ he n).degree < (Finset.univ : Finset (Fin n)).card := by
    rw [Finset.card_univ, Fintype.card_fin]
    have := degree_modByMonic_lt p (he_monic n)
    rwa [degree_eq_natDegree (he_monic n).ne_zero, natDegree_he] at this
  have hq : (p /ₘ he n).natDegree < n := by
    rw [natDegree_divByMonic p (he_monic n), natDegree_he]
    omega
  have hint := Lagrange.eq_interpolate (s := Finset.univ) (v := z) hz.injOn hr
  have he1 : ∀ j, p.eval (z j) = (p %ₘ he n).eval (z j) := by
    intro j
    conv_lhs => rw [← hdiv]
    rw [eval_add, eval_mul, hroot, zero_mul, add_zero]
  have h0 : gE (he n * (p /ₘ he n)) = 0 := by
    rw [mul_comm, gE_mul_he n _ hq.le, coeff_eq_zero_of_natDegree_lt hq, mul_zero]
  conv_lhs => rw [← hdiv]
  rw [gE_add, h0, add_zero, hint, Lagrange.interpolate_apply, gE_sum]
  refine Finset.sum_congr rfl fun j _ => ?_
  rw [gE_C_mul, he1 j, mul_comm]
  rfl

theorem prod_roots (hz : Function.Injective z) (hroot : ∀ j, (he n).eval (z j) = 0) : he n = ∏ j, (X - C (z j)) := by
  have hdvd : (∏ j, (X - C (z j))) ∣ he n := by
    refine Finset.prod_dvd_of_coprime (fun i _ j _ hij => pairwise_coprime_X_sub_C hz hij) fun j _ => ?_
    exact dvd_iff_isRoot.2 (hroot j)
  refine eq_of_monic_of_dvd_of_natDegree_le (monic_prod_of_monic _ _ fun j _ => monic_X_sub_C _) (he_monic n) hdvd ?_
  rw [natDegree_he, natDegree_prod_of_monic _ _ fun j _ => monic_X_sub_C _]
  simp

theorem he_pred_eval (hz : Function.Injective z) (hroot : ∀ j, (he n).eval (z j) = 0) (j : Fin n) :
    (n : ℝ) * (he (n - 1)).eval (z j) = ∏ k ∈ Finset.univ.erase j, (z j - z k) := by
  have hn : n - 1 + 1 = n := by have := j.pos; omega
  have hd := derivative_he (n - 1)
  rw [hn] at hd
  have h1 := congrArg (Polynomial.eval (z j)) hd
  rw [prod_roots hz hroot, ← Lagrange.nodal_eq, Lagrange.eval_nodal_derivative_eval_node_eq (Finset.mem_univ j),
    Lagrange.eval_nodal, eval_smul, smul_eq_mul] at h1
  rw [h1]
  congr 1
  rw [← Nat.cast_add_one, hn]

theorem he_pred_ne_zero (hz : Function.Injective z) (hroot : ∀ j, (he n).eval (z j) = 0) (j : Fin n) :
    (he (n - 1)).eval (z j) ≠ 0 := by
  intro h0
  have := he_pred_eval hz hroot j
  rw [h0, mul_zero] at this
  refine Finset.prod_ne_zero_iff.2 (fun k hk => ?_) this.symm
  rw [Finset.mem_erase] at hk
  exact sub_ne_zero.2 fun e => hk.1 (hz e).symm

/-- the weights in closed form. -/
theorem gE_lag (hz : Function.Injective z) (hroot : ∀ j, (he n).eval (z j) = 0) (j : Fin n) :
    gE (lag z j) = n.factorial / ((n : ℝ) ^ 2 * (he (n - 1)).eval (z j) ^ 2) := by
  have hn0 := j.pos
  have hdeg : (lag z j * he (n - 1)).natDegree < 2 * n := by
    refine natDegree_mul_le.trans_lt ?_
    rw [lag_natDegree hz, natDegree_he]
    omega
  have h1 := interp_exact hz hroot _ hdeg
  rw [gE_mul_he (n - 1) _ (lag_natDegree hz j).le, Finset.sum_eq_single j] at h1
  rotate_left
  · intro k _ hk
    rw [eval_mul, lag_eval hz, if_neg (Ne.symm hk), zero_mul, mul_zero]
  · intro h; exact absurd (Finset.mem_univ _) h
  rw [eval_mul, lag_eval hz, if_pos rfl, one_mul] at h1
  have hc : (lag z j).coeff (n - 1) = ((n : ℝ) * (he (n - 1)).eval (z j))⁻¹ := by
    have h2 := Lagrange.leadingCoeff_basis (s := Finset.univ) (v := z) hz.injOn (Finset.mem_univ j)
    rw [leadingCoeff, show (Lagrange.basis Finset.univ z j).natDegree = n - 1 from lag_natDegree hz j] at h2
    rw [lag, h2, he_pred_eval hz hroot j]
  rw [hc] at h1
  have h0 := he_pred_ne_zero hz hroot j
  have hf : (n.factorial : ℝ) = n * (n - 1).factorial := by
    rw [← Nat.cast_mul, Nat.mul_factorial_pred hn0.ne']
  have hn' : (n : ℝ) ≠ 0 := by exact_mod_cast hn0.ne'
  rw [hf]
  field_simp at h1 ⊢
  linarith

/-- the Gauss–Hermite rule is exact for polynomials of degree at most `2 n - 1`. -/
theorem gauss_hermite_exact (hz : Function.Injective z) (hroot : ∀ j, (he n).eval (z j) = 0) (p : ℝ[X])
    (hp : p.natDegree < 2 * n) :
    ∑ j, n.factorial / ((n : ℝ) ^ 2 * (he (n - 1)).eval (z j) ^ 2) * p.eval (z j) = ∫ x, p.eval x ∂gaussianReal 0 1 := by
  rw [← gE, interp_exact hz hroot p hp]
  exact Finset.sum_congr rfl fun j _ => by rw [gE_lag hz hroot]

end Mfs

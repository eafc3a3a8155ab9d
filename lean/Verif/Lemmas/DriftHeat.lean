import Verif.Props.Tme

/-!
# The heat semigroup with drift on polynomials
-/

namespace Mfs.Props

open Polynomial Mfs.Tme MeasureTheory ProbabilityTheory
open scoped NNReal

/-- the generator of `dX = c dt + dW` on polynomials. -/
noncomputable def driftD (c : ℝ) : ℝ[X] →ₗ[ℝ] ℝ[X] := c • derivative + (1 / 2 : ℝ) • (derivative ∘ₗ derivative)

theorem driftD_apply (c : ℝ) (p : ℝ[X]) : driftD c p = c • derivative p + (1 / 2 : ℝ) • derivative (derivative p) := rfl

theorem iterate_derivative_X_mul_aux (p : ℝ[X]) (n : ℕ) :
    derivative^[n] (X * p) = X * derivative^[n] p + (n : ℝ) • derivative^[n - 1] p := by
  induction n with
  | zero => simp
  | succ n ih =>
    rw [Function.iterate_succ_apply', ih, map_add, derivative_smul, derivative_mul, derivative_X, one_mul, Function.iterate_succ_apply']
    cases n with
    | zero => simp [add_comm]
    | succ n =>
      rw [show n + 1 + 1 - 1 = n + 1 by omega, show n + 1 - 1 = n by omega, ← Function.iterate_succ_apply' derivative n]
      push_cast
      rw [add_smul ((n : ℝ) + 1) 1, one_smul]
      abel

/-- Stein's identity. -/
theorem gaussL_X_mul (x : ℝ) (v : ℝ≥0) (p : ℝ[X]) : gaussL x v (X * p) = x * gaussL x v p + v * gaussL x v (derivative p) := by
  set n := p.natDegree + 1 with hn
  have h1 : (X * p : ℝ[X]).natDegree < 2 * (n + 1) := by
    have := natDegree_mul_le (p := (X : ℝ[X])) (q := p)
    rw [natDegree_X] at this
    omega
  have h2 : p.natDegree < 2 * (n + 1) := by omega
  have h3 : (derivative p).natDegree < 2 * n := by
    have := natDegree_derivative_le p
    omega
  rw [gaussL_heat x v (n + 1) _ h1, gaussL_heat x v (n + 1) _ h2, gaussL_heat x v n _ h3]
  have e : ∀ r, (derivative^[2 * r] (X * p)).eval x = x * (derivative^[2 * r] p).eval x + 2 * r * (derivative^[2 * r - 1] p).eval x := by
    intro r
    have := iterate_derivative_X_mul_aux p (2 * r)
    rw [this]
    simp
  simp only [e, mul_add, Finset.sum_add_distrib, Finset.mul_sum]
  congr 1
  · exact Finset.sum_congr rfl fun r _ => by ring
  · rw [Finset.sum_range_succ']
    simp only [Nat.cast_zero, mul_zero, zero_mul, add_zero]
    refine Finset.sum_congr rfl fun r _ => ?_
    have e2 : derivative^[2 * (r + 1) - 1] p = derivative^[2 * r] (derivative p) := by
      rw [show 2 * (r + 1) - 1 = 2 * r + 1 by omega, Function.iterate_succ_apply]
    rw [e2, Nat.factorial_succ]
    push_cast
    have : (r.factorial : ℝ) ≠ 0 := by positivity
    field_simp
    ring

theorem derivative_driftD (c : ℝ) (p : ℝ[X]) : derivative (driftD c p) = driftD c (derivative p) := by
  simp only [driftD_apply, map_add, derivative_smul]

theorem driftD_X_mul (c : ℝ) (p : ℝ[X]) : driftD c (X * p) = X * driftD c p + (c • p + derivative p) := by
  simp only [driftD_apply, derivative_mul, derivative_X, map_add, one_mul, smul_add, mul_add, mul_smul_comm]
  rw [show (1 / 2 : ℝ) • derivative p + ((1 / 2 : ℝ) • derivative p + (1 / 2 : ℝ) • (X * derivative (derivative p)))
    = derivative p + (1 / 2 : ℝ) • (X * derivative (derivative p)) by rw [← add_assoc, ← add_smul]; norm_num]
  abel

theorem iterate_driftD_X_mul (c : ℝ) (p : ℝ[X]) (r : ℕ) :
    (driftD c)^[r + 1] (X * p) = X * (driftD c)^[r + 1] p + ((r : ℝ) + 1) • (driftD c)^[r] (c • p + derivative p) := by
  have hc : ∀ n q, derivative ((driftD c)^[n] q) = (driftD c)^[n] (derivative q) := by
    intro n q
    induction n generalizing q with
    | zero => rfl
    | succ n ih => rw [Function.iterate_succ_apply, Function.iterate_succ_apply, ih, derivative_driftD]
  have hadd : ∀ n (a b : ℝ[X]), (driftD c)^[n] (a + b) = (driftD c)^[n] a + (driftD c)^[n] b := fun n a b => by
    simp only [← Module.End.pow_apply, map_add]
  have hsmul : ∀ n (k : ℝ) (a : ℝ[X]), (driftD c)^[n] (k • a) = k • (driftD c)^[n] a := fun n k a => by
    simp only [← Module.End.pow_apply, map_smul]
  induction r with
  | zero => simp [driftD_X_mul]
  | succ r ih =>
    rw [Function.iterate_succ_apply', ih, map_add, map_smul, driftD_X_mul, ← Function.iterate_succ_apply' (driftD c),
      ← Function.iterate_succ_apply' (driftD c) r, hc, add_assoc]
    congr 1
    rw [hadd (r + 1), hsmul (r + 1)]
    push_cast
    rw [show ((r : ℝ) + 1 + 1) • (c • (driftD c)^[r + 1] p + (driftD c)^[r + 1] (derivative p))
      = (c • (driftD c)^[r + 1] p + (driftD c)^[r + 1] (derivative p)) + ((r : ℝ) + 1) • (c • (driftD c)^[r + 1] p + (driftD c)^[r + 1] (derivative p)) by
        rw [add_smul ((r : ℝ) + 1) 1, one_smul, add_comm]]

/-- the exponential series of the generator, truncated. -/
noncomputable def driftS (c t x : ℝ) (M : ℕ) (p : ℝ[X]) : ℝ :=
  ∑ r ∈ Finset.range (M + 1), t ^ r / (r.factorial : ℝ) * ((driftD c)^[r] p).eval x

theorem driftS_add (c t x : ℝ) (M : ℕ) (p q : ℝ[X]) : driftS c t x M (p + q) = driftS c t x M p + driftS c t x M q := by
  simp only [driftS, ← Module.End.pow_apply, map_add, eval_add, mul_add, Finset.sum_add_distrib]

theorem driftS_smul (c t x : ℝ) (M : ℕ) (k : ℝ) (p : ℝ[X]) : driftS c t x M (k • p) = k * driftS c t x M p := by
  simp only [driftS, ← Module.End.pow_apply, map_smul, eval_smul, smul_eq_mul, Finset.mul_sum]
  exact Finset.sum_congr rfl fun r _ => by ring

theorem driftS_X_mul (c t x : ℝ) (M : ℕ) (p : ℝ[X]) :
    driftS c t x (M + 1) (X * p) = x * driftS c t x (M + 1) p + t * driftS c t x M (c • p + derivative p) := by
  have h1 : driftS c t x (M + 1) (X * p) = (∑ r ∈ Finset.range (M + 1), t ^ (r + 1) / ((r + 1).factorial : ℝ) * ((driftD c)^[r + 1] (X * p)).eval x)
      + x * p.eval x := by
    rw [driftS, Finset.sum_range_succ']
    simp
  have h2 : driftS c t x (M + 1) p = (∑ r ∈ Finset.range (M + 1), t ^ (r + 1) / ((r + 1).factorial : ℝ) * ((driftD c)^[r + 1] p).eval x)
      + p.eval x := by
    rw [driftS, Finset.sum_range_succ']
    simp
  rw [h1, h2, driftS, mul_add, Finset.mul_sum, Finset.mul_sum, add_right_comm, ← Finset.sum_add_distrib]
  congr 1
  refine Finset.sum_congr rfl fun r _ => ?_
  rw [iterate_driftD_X_mul, eval_add, eval_mul, eval_X, eval_smul, smul_eq_mul, Nat.factorial_succ]
  push_cast
  have : (r.factorial : ℝ) ≠ 0 := by positivity
  field_simp
  ring

theorem driftS_pow (c x : ℝ) {t : ℝ} (ht : 0 ≤ t) (n : ℕ) : ∀ M, n ≤ M → driftS c t x M (X ^ n) = gaussL (x + c * t) t.toNNReal (X ^ n) := by
  induction n using Nat.strong_induction_on with
  | _ n ih =>
    intro M hM
    cases n with
    | zero =>
      rw [gaussL_apply, driftS, Finset.sum_range_succ', Finset.sum_eq_zero]
      · simp
      · intro r _
        have : driftD c (1 : ℝ[X]) = 0 := by simp [driftD_apply]
        rw [Function.iterate_succ_apply, pow_zero, this, ← Module.End.pow_apply, map_zero]
        simp
    | succ n =>
      obtain ⟨M, rfl⟩ : ∃ M', M = M' + 1 := ⟨M - 1, by omega⟩
      rw [pow_succ', driftS_X_mul, gaussL_X_mul, driftS_add, driftS_smul, ih n (by omega) (M + 1) (by omega), ih n (by omega) M (by omega),
        Real.coe_toNNReal _ ht, derivative_X_pow, C_mul', driftS_smul, map_smul, smul_eq_mul]
      cases n with
      | zero => simp; ring
      | succ n =>
        rw [show n + 1 - 1 = n by omega, ih n (by omega) M (by omega)]
        ring

/-- the series is the normal law. -/
theorem driftS_eq (c x : ℝ) {t : ℝ} (ht : 0 ≤ t) (M : ℕ) (p : ℝ[X]) (hp : p.natDegree ≤ M) :
    driftS c t x M p = gaussL (x + c * t) t.toNNReal p := by
  have e := p.as_sum_range' (M + 1) (by omega)
  have h : ∀ s : Finset ℕ, (∀ n ∈ s, n ≤ M) → driftS c t x M (∑ n ∈ s, monomial n (p.coeff n)) = gaussL (x + c * t) t.toNNReal (∑ n ∈ s, monomial n (p.coeff n)) := by
    intro s
    induction s using Finset.induction_on with
    | empty => intro _; have := driftS_smul c t x M 0 0; simp at this; simp [this]
    | insert a s ha ih =>
      intro hs
      rw [Finset.sum_insert ha, driftS_add, map_add, ih fun n hn => hs n (Finset.mem_insert_of_mem hn), ← C_mul_X_pow_eq_monomial, C_mul',
        driftS_smul, map_smul, smul_eq_mul, driftS_pow c x ht a M (hs a (Finset.mem_insert_self _ _))]
  rw [e]
  exact h _ fun n hn => by simpa [Nat.lt_succ_iff] using hn

end Mfs.Props

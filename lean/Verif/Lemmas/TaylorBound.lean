import Mathlib.Analysis.Calculus.MeanValue
import Mathlib.Analysis.Calculus.Deriv.Pow
import Mathlib.Analysis.Calculus.Deriv.Comp
import Mathlib.Analysis.Calculus.Deriv.Add
import Mathlib.Analysis.Calculus.Deriv.Shift
import Mathlib.Data.Nat.Factorial.Basic

/-!
# Taylor's formula with a bound on the remainder
-/

namespace Mfs.Spec

open Finset Set

/-- remainder of the Taylor polynomial of degree `n - 1`; `F k` is the `k`-th derivative. -/
theorem abs_taylor_le_nonneg {M : ℝ} (n : ℕ) (F : ℕ → ℝ → ℝ) (hF : ∀ k < n, ∀ x, HasDerivAt (F k) (F (k + 1) x) x) (x r : ℝ)
    (hM : ∀ y ∈ Icc x (x + r), |F n y| ≤ M) (h : ℝ) (h0 : 0 ≤ h) (hr : h ≤ r) :
    |F 0 (x + h) - ∑ k ∈ range n, F k x * h ^ k / (k.factorial : ℝ)| ≤ M * h ^ n / (n.factorial : ℝ) := by
  induction n generalizing F h with
  | zero => simpa using hM (x + h) ⟨by linarith, by linarith⟩
  | succ n ih =>
    have ih' := ih (fun k => F (k + 1)) (fun k hk y => hF (k + 1) (by omega) y) hM
    have hsum : ∀ h, HasDerivAt (fun h => ∑ k ∈ range (n + 1), F k x * h ^ k / (k.factorial : ℝ)) (∑ k ∈ range n, F (k + 1) x * h ^ k / (k.factorial : ℝ)) h := by
      intro h
      have e1 : ∀ k ∈ range n, HasDerivAt (fun h : ℝ => F (k + 1) x * h ^ (k + 1) / ((k + 1).factorial : ℝ)) (F (k + 1) x * h ^ k / (k.factorial : ℝ)) h := by
        intro k _
        have := (((hasDerivAt_pow (k + 1) h).const_mul (F (k + 1) x)).div_const ((k + 1).factorial : ℝ))
        refine this.congr_deriv ?_
        rw [Nat.factorial_succ, Nat.add_sub_cancel]
        have hk : (k.factorial : ℝ) ≠ 0 := by exact_mod_cast k.factorial_ne_zero
        push_cast
        field_simp
      have e2 := (HasDerivAt.fun_sum e1).add_const (F 0 x * h ^ 0 / (Nat.factorial 0 : ℝ))
      refine e2.congr_of_eventuallyEq (Filter.Eventually.of_forall fun h' => ?_)
      simp [sum_range_succ']
    have hder : ∀ h, HasDerivAt (fun h => F 0 (x + h) - ∑ k ∈ range (n + 1), F k x * h ^ k / (k.factorial : ℝ))
        (F 1 (x + h) - ∑ k ∈ range n, F (k + 1) x * h ^ k / (k.factorial : ℝ)) h := fun h =>
      ((hF 0 (by omega) (x + h)).comp_const_add x h).sub (hsum h)
    have hB : ∀ h : ℝ, HasDerivAt (fun h => M * h ^ (n + 1) / ((n + 1).factorial : ℝ)) (M * h ^ n / (n.factorial : ℝ)) h := by
      intro h
      refine (((hasDerivAt_pow (n + 1) h).const_mul M).div_const ((n + 1).factorial : ℝ)).congr_deriv ?_
      rw [Nat.factorial_succ, Nat.add_sub_cancel]
      have hk : (n.factorial : ℝ) ≠ 0 := by exact_mod_cast n.factorial_ne_zero
      push_cast
      field_simp
    have := image_norm_le_of_norm_deriv_right_le_deriv_boundary (a := 0) (b := r) (fun h _ => (hder h).continuousAt.continuousWithinAt)
      (fun h _ => (hder h).hasDerivWithinAt) (B := fun h => M * h ^ (n + 1) / ((n + 1).factorial : ℝ)) (by simp [sum_range_succ']) hB
      (fun h hh => by rw [Real.norm_eq_abs]; exact ih' h hh.1 hh.2.le) ⟨h0, hr⟩
    rwa [Real.norm_eq_abs] at this

/-- the same for increments of either sign. -/
theorem abs_taylor_le {M : ℝ} (n : ℕ) (F : ℕ → ℝ → ℝ) (hF : ∀ k < n, ∀ x, HasDerivAt (F k) (F (k + 1) x) x) (x r : ℝ)
    (hM : ∀ y ∈ Icc (x - r) (x + r), |F n y| ≤ M) (h : ℝ) (hr : |h| ≤ r) :
    |F 0 (x + h) - ∑ k ∈ range n, F k x * h ^ k / (k.factorial : ℝ)| ≤ M * |h| ^ n / (n.factorial : ℝ) := by
  rcases le_total 0 h with h0 | h0
  · rw [abs_of_nonneg h0] at hr ⊢
    exact abs_taylor_le_nonneg n F hF x r (fun y hy => hM y ⟨by linarith [hy.1], hy.2⟩) h h0 hr
  · rw [abs_of_nonpos h0] at hr ⊢
    have := abs_taylor_le_nonneg (M := M) n (fun k y => (-1) ^ k * F k (-y)) (fun k hk y => by
      have h1 := ((hF k hk (-y)).comp y (hasDerivAt_neg y)).const_mul ((-1 : ℝ) ^ k)
      refine h1.congr_deriv ?_
      ring) (-x) r (fun y hy => by
        rw [abs_mul, abs_pow, abs_neg, abs_one, one_pow, one_mul]
        exact hM _ ⟨by linarith [hy.2], by linarith [hy.1]⟩) (-h) (by linarith) hr
    simp only [pow_zero, one_mul, neg_add_rev, neg_neg] at this
    rw [add_comm h x] at this
    refine le_trans (le_of_eq ?_) this
    congr 2
    refine sum_congr rfl fun k _ => ?_
    rw [neg_pow h k]
    have : ((-1 : ℝ) ^ k) * (-1) ^ k = 1 := by rw [← mul_pow]; norm_num
    calc F k x * h ^ k / (k.factorial : ℝ) = ((-1 : ℝ) ^ k * (-1) ^ k) * (F k x * h ^ k / (k.factorial : ℝ)) := by rw [this, one_mul]
      _ = _ := by ring

end Mfs.Spec

import Verif.Lemmas.TaylorBound
import Verif.Props.BruteForce

/-!
# C156: order of consistency of the Kolmogorov operator
-/

namespace Mfs.Props

open Mfs.BruteForce Filter Topology Set Mfs.Spec

variable {N : ℕ}

/-- the operator in terms of the two finite differences. -/
theorem kolmogorov_split (drift dispersion p p' p'' : ℝ → ℝ) (xs : Fin (N + 2) → ℝ) (i : Fin (N + 2))
    (ha : Differentiable ℝ drift) (hg : Differentiable ℝ dispersion) (hg2 : Differentiable ℝ (deriv fun x => dispersion x ^ 2))
    (hp : ∀ x, HasDerivAt p (p' x) x) (hp2 : ∀ x, HasDerivAt p' (p'' x) x) :
    kolmogorovFwdOpt drift dispersion xs (fun j => p (xs j)) i
      = -deriv (fun x => drift x * p x) (xs i) + deriv (deriv fun x => dispersion x ^ 2 * p x) (xs i) / 2
        + (deriv (fun x => dispersion x ^ 2) (xs i) - drift (xs i)) * (gradient (fun j => p (xs j)) (xs 1 - xs 0) i - p' (xs i))
        + dispersion (xs i) ^ 2 / 2 * (gradient (gradient (fun j => p (xs j)) (xs 1 - xs 0)) (xs 1 - xs 0) i - p'' (xs i)) := by
  have hgam : ∀ x, HasDerivAt (fun x => dispersion x ^ 2) (deriv (fun x => dispersion x ^ 2) x) x := fun x =>
    ((hg x).pow 2).hasDerivAt
  have d1 : deriv (fun x => drift x * p x) (xs i) = deriv drift (xs i) * p (xs i) + drift (xs i) * p' (xs i) :=
    ((ha _).hasDerivAt.mul (hp _)).deriv
  have d2 : (deriv fun x => dispersion x ^ 2 * p x)
      = fun x => deriv (fun x => dispersion x ^ 2) x * p x + dispersion x ^ 2 * p' x :=
    funext fun x => ((hgam x).mul (hp x)).deriv
  have d3 : deriv (deriv fun x => dispersion x ^ 2 * p x) (xs i)
      = (deriv (deriv fun x => dispersion x ^ 2) (xs i) * p (xs i) + deriv (fun x => dispersion x ^ 2) (xs i) * p' (xs i))
        + (deriv (fun x => dispersion x ^ 2) (xs i) * p' (xs i) + dispersion (xs i) ^ 2 * p'' (xs i)) := by
    rw [d2]
    exact (HasDerivAt.add ((hg2 _).hasDerivAt.mul (hp _)) ((hgam _).mul (hp2 _))).deriv
  simp only [kolmogorovFwdOpt, d1, d3]
  ring

theorem central_diff {p p1 p2 p3 : ℝ → ℝ} (h1 : ∀ x, HasDerivAt p (p1 x) x) (h2 : ∀ x, HasDerivAt p1 (p2 x) x)
    (h3 : ∀ x, HasDerivAt p2 (p3 x) x) (x h M : ℝ) (hh : 0 < h) (hM : ∀ y ∈ Icc (x - h) (x + h), |p3 y| ≤ M) :
    |(p (x + h) - p (x - h)) / (2 * h) - p1 x| ≤ M * h ^ 2 / 6 := by
  set F : ℕ → ℝ → ℝ := fun k => match k with | 0 => p | 1 => p1 | 2 => p2 | _ => p3
  have hF : ∀ k < 3, ∀ x, HasDerivAt (F k) (F (k + 1) x) x := by
    intro k hk
    interval_cases k
    exacts [h1, h2, h3]
  have a := abs_taylor_le (M := M) 3 F hF x h hM h (abs_of_pos hh).le
  have b := abs_taylor_le (M := M) 3 F hF x h hM (-h) (by rw [abs_neg, abs_of_pos hh])
  simp only [Finset.sum_range_succ, Finset.sum_range_zero, zero_add, Nat.factorial, Nat.cast_one, abs_neg, abs_of_pos hh, ← sub_eq_add_neg] at a b
  have e : (p (x + h) - p (x - h)) / (2 * h) - p1 x = ((p (x + h) - p (x - h)) - 2 * h * p1 x) / (2 * h) := by field_simp
  rw [e, abs_div, abs_of_pos (by positivity : (0 : ℝ) < 2 * h), div_le_iff₀ (by positivity)]
  rw [abs_le] at a b ⊢
  norm_num at a b
  simp only [F] at a b
  constructor <;> nlinarith [a.1, a.2, b.1, b.2]

theorem central_diff2 {p p1 p2 p3 p4 : ℝ → ℝ} (h1 : ∀ x, HasDerivAt p (p1 x) x) (h2 : ∀ x, HasDerivAt p1 (p2 x) x)
    (h3 : ∀ x, HasDerivAt p2 (p3 x) x) (h4 : ∀ x, HasDerivAt p3 (p4 x) x) (x h M : ℝ) (hh : 0 < h)
    (hM : ∀ y ∈ Icc (x - 2 * h) (x + 2 * h), |p4 y| ≤ M) :
    |(p (x + 2 * h) - 2 * p x + p (x - 2 * h)) / (4 * h ^ 2) - p2 x| ≤ M * h ^ 2 / 3 := by
  set F : ℕ → ℝ → ℝ := fun k => match k with | 0 => p | 1 => p1 | 2 => p2 | 3 => p3 | _ => p4
  have hF : ∀ k < 4, ∀ x, HasDerivAt (F k) (F (k + 1) x) x := by
    intro k hk
    interval_cases k
    exacts [h1, h2, h3, h4]
  have hh2 : 0 < 2 * h := by positivity
  have a := abs_taylor_le (M := M) 4 F hF x (2 * h) hM (2 * h) (abs_of_pos hh2).le
  have b := abs_taylor_le (M := M) 4 F hF x (2 * h) hM (-(2 * h)) (by rw [abs_neg, abs_of_pos hh2])
  simp only [Finset.sum_range_succ, Finset.sum_range_zero, zero_add, Nat.factorial, Nat.cast_one, abs_neg, abs_of_pos hh2, ← sub_eq_add_neg] at a b
  have e : (p (x + 2 * h) - 2 * p x + p (x - 2 * h)) / (4 * h ^ 2) - p2 x
      = (p (x + 2 * h) - 2 * p x + p (x - 2 * h) - 4 * h ^ 2 * p2 x) / (4 * h ^ 2) := by field_simp
  rw [e, abs_div, abs_of_pos (by positivity : (0 : ℝ) < 4 * h ^ 2), div_le_iff₀ (by positivity)]
  rw [abs_le] at a b ⊢
  norm_num at a b
  simp only [F] at a b
  constructor <;> nlinarith [a.1, a.2, b.1, b.2]

/-- **C156, interior.** On an evenly spaced grid, at a point that is at least two steps from both ends, the operator differs
from the Kolmogorov forward operator of a four times differentiable density by at most a constant times the square of the
step. -/
theorem C156_second_order (drift dispersion p p1 p2 p3 p4 : ℝ → ℝ) (ha : Differentiable ℝ drift) (hg : Differentiable ℝ dispersion)
    (hg2 : Differentiable ℝ (deriv fun x => dispersion x ^ 2)) (h1 : ∀ x, HasDerivAt p (p1 x) x) (h2 : ∀ x, HasDerivAt p1 (p2 x) x)
    (h3 : ∀ x, HasDerivAt p2 (p3 x) x) (h4 : ∀ x, HasDerivAt p3 (p4 x) x) (x0 h : ℝ) (hh : 0 < h) (i : ℕ) (hi : i + 4 < N + 2) (x M3 M4 : ℝ)
    (hx : x = x0 + ((i + 2 : ℕ) : ℝ) * h) (hM3 : ∀ y ∈ Icc (x - h) (x + h), |p3 y| ≤ M3)
    (hM4 : ∀ y ∈ Icc (x - 2 * h) (x + 2 * h), |p4 y| ≤ M4) :
    |kolmogorovFwdOpt drift dispersion (fun j : Fin (N + 2) => x0 + (j : ℕ) * h) (fun j => p (x0 + (j : ℕ) * h)) ⟨i + 2, by omega⟩
      - (-deriv (fun x => drift x * p x) x + deriv (deriv fun x => dispersion x ^ 2 * p x) x / 2)|
      ≤ (|deriv (fun x => dispersion x ^ 2) x - drift x| * M3 + dispersion x ^ 2 * M4) / 6 * h ^ 2 := by
  have hdx : (x0 + (((1 : Fin (N + 2)) : ℕ) : ℝ) * h) - (x0 + (((0 : Fin (N + 2)) : ℕ) : ℝ) * h) = h := by
    rw [Fin.val_one, Fin.val_zero]; push_cast; ring
  have hs := kolmogorov_split drift dispersion p p1 p2 (fun j : Fin (N + 2) => x0 + (j : ℕ) * h) ⟨i + 2, by omega⟩ ha hg hg2 h1 h2
  have hD1 : ∀ k : ℕ, ∀ hk : k + 1 < N + 1, gradient (fun j : Fin (N + 2) => p (x0 + (j : ℕ) * h)) h ⟨k + 1, by omega⟩
      = (p (x0 + ((k + 2 : ℕ) : ℝ) * h) - p (x0 + (k : ℝ) * h)) / (2 * h) := fun k hk => gradient_interior _ _ _ hk
  have hD2 : gradient (gradient (fun j : Fin (N + 2) => p (x0 + (j : ℕ) * h)) h) h ⟨i + 2, by omega⟩
      = (p (x + 2 * h) - 2 * p x + p (x - 2 * h)) / (4 * h ^ 2) := by
    rw [gradient_interior _ _ (i + 1) (by omega), hD1 (i + 2) (by omega), hD1 i (by omega)]
    have e1 : x0 + ((i + 2 + 2 : ℕ) : ℝ) * h = x + 2 * h := by rw [hx]; push_cast; ring
    have e2 : x0 + (i : ℝ) * h = x - 2 * h := by rw [hx]; push_cast; ring
    rw [e1, e2, ← hx]
    field_simp
    ring
  have e1 : x0 + ((i + 1 + 2 : ℕ) : ℝ) * h = x + h := by rw [hx]; push_cast; ring
  have e2 : x0 + ((i + 1 : ℕ) : ℝ) * h = x - h := by rw [hx]; push_cast; ring
  rw [hs, hdx, hD2]
  have hd := hD1 (i + 1) (by omega)
  rw [e1, e2] at hd
  simp only [← hx]
  rw [show gradient (fun j : Fin (N + 2) => p (x0 + (j : ℕ) * h)) h ⟨i + 2, by omega⟩ = _ from hd]
  have c1 := central_diff h1 h2 h3 x h M3 hh hM3
  have c2 := central_diff2 h1 h2 h3 h4 x h M4 hh hM4
  set A := deriv (fun x => dispersion x ^ 2) x - drift x
  set D := (p (x + h) - p (x - h)) / (2 * h) - p1 x
  set D' := (p (x + 2 * h) - 2 * p x + p (x - 2 * h)) / (4 * h ^ 2) - p2 x
  rw [show ∀ a b c : ℝ, a + b + c - a = b + c from fun a b c => by ring]
  refine (abs_add_le _ _).trans ?_
  rw [abs_mul, abs_mul, abs_of_nonneg (by positivity : 0 ≤ dispersion x ^ 2 / 2)]
  have := mul_le_mul_of_nonneg_left c1 (abs_nonneg A)
  have := mul_le_mul_of_nonneg_left c2 (by positivity : 0 ≤ dispersion x ^ 2 / 2)
  linarith

/-- second-order expansion along a step tending to zero. -/
theorem tendsto_rem {p p1 p2 p3 : ℝ → ℝ} (h1 : ∀ x, HasDerivAt p (p1 x) x) (h2 : ∀ x, HasDerivAt p1 (p2 x) x)
    (h3 : ∀ x, HasDerivAt p2 (p3 x) x) (hc : Continuous p3) (x c : ℝ) :
    Tendsto (fun h => (p (x + c * h) - p x - c * h * p1 x - (c * h) ^ 2 / 2 * p2 x) / h ^ 2) (𝓝[>] 0) (𝓝 0) := by
  set F : ℕ → ℝ → ℝ := fun k => match k with | 0 => p | 1 => p1 | 2 => p2 | _ => p3
  have hF : ∀ k < 3, ∀ x, HasDerivAt (F k) (F (k + 1) x) x := by
    intro k hk
    interval_cases k
    exacts [h1, h2, h3]
  obtain ⟨M, hM⟩ := (isCompact_Icc (a := x - |c|) (b := x + |c|)).exists_bound_of_continuousOn hc.continuousOn
  have hlim : Tendsto (fun h : ℝ => M * |c| ^ 3 / 6 * h) (𝓝[>] 0) (𝓝 0) := by
    have : Tendsto (fun h : ℝ => M * |c| ^ 3 / 6 * h) (𝓝 0) (𝓝 (M * |c| ^ 3 / 6 * 0)) := tendsto_id.const_mul _
    rw [mul_zero] at this
    exact this.mono_left nhdsWithin_le_nhds
  refine squeeze_zero_norm' ?_ hlim
  filter_upwards [Ioc_mem_nhdsGT (zero_lt_one (α := ℝ))] with h hh
  have hle : |c * h| ≤ |c| := by
    rw [abs_mul, abs_of_pos hh.1]
    exact mul_le_of_le_one_right (abs_nonneg _) hh.2
  have a := abs_taylor_le (M := M) 3 F hF x |c| (fun y hy => hM y hy) (c * h) hle
  simp only [Finset.sum_range_succ, Finset.sum_range_zero, zero_add, Nat.factorial, Nat.cast_one] at a
  have hpos : 0 < h ^ 2 := by have := hh.1; positivity
  rw [Real.norm_eq_abs, abs_div, abs_of_pos hpos, div_le_iff₀ hpos]
  rw [abs_mul, abs_of_pos hh.1] at a
  norm_num at a
  calc |p (x + c * h) - p x - c * h * p1 x - (c * h) ^ 2 / 2 * p2 x| ≤ M * (|c| * h) ^ 3 / 6 := by
        refine le_trans (le_of_eq ?_) a
        congr 1
        simp only [F]
        ring
    _ = M * |c| ^ 3 / 6 * h * h ^ 2 := by ring

/-- limits of the two differences that `jnp.gradient` forms next to an end, for a grid continuing in the direction of `s`. -/
theorem tendsto_edge {p p1 p2 p3 : ℝ → ℝ} (h1 : ∀ x, HasDerivAt p (p1 x) x) (h2 : ∀ x, HasDerivAt p1 (p2 x) x)
    (h3 : ∀ x, HasDerivAt p2 (p3 x) x) (hc : Continuous p3) (x s : ℝ) (hs : s ^ 2 = 1) :
    Tendsto (fun h => s * (p (x + s * h) - p x) / h) (𝓝[>] 0) (𝓝 (p1 x)) ∧
    Tendsto (fun h => (p (x + 2 * s * h) - 2 * p (x + s * h) + p x) / (2 * h ^ 2)) (𝓝[>] 0) (𝓝 (p2 x / 2)) ∧
    Tendsto (fun h => s * (p (x + s * h) - p (x - s * h)) / (2 * h)) (𝓝[>] 0) (𝓝 (p1 x)) ∧
    Tendsto (fun h => (p (x + 2 * s * h) - 3 * p x + 2 * p (x - s * h)) / (4 * h ^ 2)) (𝓝[>] 0) (𝓝 (3 / 4 * p2 x)) := by
  have r := tendsto_rem h1 h2 h3 hc x
  have hid : Tendsto (fun h : ℝ => h) (𝓝[>] 0) (𝓝 0) := tendsto_id.mono_left nhdsWithin_le_nhds
  have hne : ∀ᶠ h : ℝ in 𝓝[>] 0, h ≠ 0 := by
    filter_upwards [self_mem_nhdsWithin] with h hh using ne_of_gt hh
  refine ⟨?_, ?_, ?_, ?_⟩
  · have := ((hid.mul (r s)).const_mul s).add ((hid.const_mul (s * p2 x / 2)).add_const (p1 x))
    simp only [mul_zero, zero_add] at this
    refine this.congr' ?_
    filter_upwards [hne] with h hh
    field_simp
    linear_combination (-2 * h * p1 x - s * h ^ 2 * p2 x) * hs
  · have := (((r (2 * s)).sub ((r s).const_mul 2)).div_const 2).add_const (p2 x / 2)
    simp only [mul_zero, sub_zero, zero_div, zero_add] at this
    refine this.congr' ?_
    filter_upwards [hne] with h hh
    field_simp
    linear_combination (-h ^ 2 * p2 x) * hs
  · have := ((hid.mul ((r s).sub (r (-s)))).const_mul (s / 2)).add_const (p1 x)
    simp only [mul_zero, sub_zero, zero_add] at this
    refine this.congr' ?_
    filter_upwards [hne] with h hh
    rw [show x + -s * h = x - s * h by ring]
    field_simp
    linear_combination (-4 * h * p1 x) * hs
  · have := (((r (2 * s)).add ((r (-s)).const_mul 2)).div_const 4).add_const (3 / 4 * p2 x)
    simp only [mul_zero, add_zero, zero_div, zero_add] at this
    refine this.congr' ?_
    filter_upwards [hne] with h hh
    rw [show x + -s * h = x - s * h by ring]
    field_simp
    linear_combination (-3 * h ^ 2 * p2 x) * hs

/-- `gradient` on functions of the index. -/
noncomputable def gradFn (N : ℕ) (f : ℕ → ℝ) (h : ℝ) (i : ℕ) : ℝ :=
  if i = 0 then (f 1 - f 0) / h else if i = N + 1 then (f (N + 1) - f N) / h else (f (i + 1) - f (i - 1)) / (2 * h)

theorem gradFn_zero (f : ℕ → ℝ) (h : ℝ) : gradFn N f h 0 = (f 1 - f 0) / h := if_pos rfl

theorem gradFn_last (f : ℕ → ℝ) (h : ℝ) : gradFn N f h (N + 1) = (f (N + 1) - f N) / h := by
  rw [gradFn, if_neg (by omega), if_pos rfl]

theorem gradFn_mid (f : ℕ → ℝ) (h : ℝ) (i : ℕ) (h0 : i ≠ 0) (h1 : i ≠ N + 1) : gradFn N f h i = (f (i + 1) - f (i - 1)) / (2 * h) := by
  rw [gradFn, if_neg h0, if_neg h1]

theorem gradient_eq_gradFn (f : ℕ → ℝ) (h : ℝ) : gradient (fun j : Fin (N + 2) => f j) h = fun j : Fin (N + 2) => gradFn N f h j := by
  funext j
  rw [gradient, gradFn]
  split_ifs with e1 e2
  · simp
  · simp [e2]
  · rfl

/-- **C156, ends.** At the first and last grid points the operator tends to the forward operator minus a quarter of
`dispersion² p''`, and at their neighbours to the forward operator minus an eighth of it: repeated one-sided differences are
not consistent. The grid is taken such that its point number `i` is `x`. -/
theorem C156_edges (hN : 2 ≤ N) (drift dispersion p p1 p2 p3 : ℝ → ℝ) (ha : Differentiable ℝ drift) (hg : Differentiable ℝ dispersion)
    (hg2 : Differentiable ℝ (deriv fun x => dispersion x ^ 2)) (h1 : ∀ x, HasDerivAt p (p1 x) x) (h2 : ∀ x, HasDerivAt p1 (p2 x) x)
    (h3 : ∀ x, HasDerivAt p2 (p3 x) x) (hc : Continuous p3) (x : ℝ) (i : Fin (N + 2)) :
    let K := fun h => kolmogorovFwdOpt drift dispersion (fun j : Fin (N + 2) => x + ((j : ℕ) - (i : ℕ)) * h)
      (fun j => p (x + ((j : ℕ) - (i : ℕ)) * h)) i
    let FP := -deriv (fun x => drift x * p x) x + deriv (deriv fun x => dispersion x ^ 2 * p x) x / 2
    ((i : ℕ) = 0 ∨ (i : ℕ) = N + 1 → Tendsto K (𝓝[>] 0) (𝓝 (FP - dispersion x ^ 2 * p2 x / 4))) ∧
    ((i : ℕ) = 1 ∨ (i : ℕ) = N → Tendsto K (𝓝[>] 0) (𝓝 (FP - dispersion x ^ 2 * p2 x / 8))) := by
  intro K FP
  have hdx : ∀ h : ℝ, (x + (((1 : Fin (N + 2)) : ℕ) - (i : ℕ) : ℝ) * h) - (x + (((0 : Fin (N + 2)) : ℕ) - (i : ℕ) : ℝ) * h) = h := by
    intro h
    rw [Fin.val_one, Fin.val_zero]; push_cast; ring
  have hK : ∀ h, K h = FP + (deriv (fun x => dispersion x ^ 2) x - drift x)
        * (gradient (fun j : Fin (N + 2) => p (x + ((j : ℕ) - (i : ℕ)) * h)) h i - p1 x)
      + dispersion x ^ 2 / 2 * (gradient (gradient (fun j : Fin (N + 2) => p (x + ((j : ℕ) - (i : ℕ)) * h)) h) h i - p2 x) := by
    intro h
    have := kolmogorov_split drift dispersion p p1 p2 (fun j : Fin (N + 2) => x + ((j : ℕ) - (i : ℕ)) * h) i ha hg hg2 h1 h2
    rw [hdx h] at this
    simp only [sub_self, zero_mul, add_zero] at this
    exact this
  have hlim : ∀ c : ℝ, Tendsto (fun h => gradient (fun j : Fin (N + 2) => p (x + ((j : ℕ) - (i : ℕ)) * h)) h i) (𝓝[>] 0) (𝓝 (p1 x)) →
      Tendsto (fun h => gradient (gradient (fun j : Fin (N + 2) => p (x + ((j : ℕ) - (i : ℕ)) * h)) h) h i) (𝓝[>] 0) (𝓝 (c * p2 x)) →
      Tendsto K (𝓝[>] 0) (𝓝 (FP - dispersion x ^ 2 * p2 x * ((1 - c) / 2))) := by
    intro c t1 t2
    have := (((t1.sub_const (p1 x)).const_mul (deriv (fun x => dispersion x ^ 2) x - drift x)).const_add FP).add
      ((t2.sub_const (p2 x)).const_mul (dispersion x ^ 2 / 2))
    simp only [← hK] at this
    refine this.trans (le_of_eq ?_)
    congr 1
    ring
  have hg1 : ∀ h, gradient (fun j : Fin (N + 2) => p (x + ((j : ℕ) - (i : ℕ)) * h)) h
      = fun j : Fin (N + 2) => gradFn N (fun j : ℕ => p (x + ((j : ℝ) - (i : ℕ)) * h)) h (j : ℕ) := fun h =>
    gradient_eq_gradFn (fun j : ℕ => p (x + ((j : ℝ) - (i : ℕ)) * h)) h
  have hg2' : ∀ h, gradient (gradient (fun j : Fin (N + 2) => p (x + ((j : ℕ) - (i : ℕ)) * h)) h) h i
      = gradFn N (gradFn N (fun j : ℕ => p (x + ((j : ℝ) - (i : ℕ)) * h)) h) h (i : ℕ) := fun h => by
    rw [hg1, gradient_eq_gradFn]
  simp only [hg2'] at hlim
  simp only [hg1] at hlim
  have hne : ∀ᶠ h : ℝ in 𝓝[>] 0, h ≠ 0 := by
    filter_upwards [self_mem_nhdsWithin] with h hh using ne_of_gt hh
  obtain ⟨a1, a2, a3, a4⟩ := tendsto_edge h1 h2 h3 hc x 1 (by norm_num)
  obtain ⟨b1, b2, b3, b4⟩ := tendsto_edge h1 h2 h3 hc x (-1) (by norm_num)
  have fin : ∀ {c d : ℝ}, (1 - c) / 2 = d → ∀ {e : ℝ}, dispersion x ^ 2 * p2 x * d = e →
      Tendsto K (𝓝[>] 0) (𝓝 (FP - dispersion x ^ 2 * p2 x * ((1 - c) / 2))) → Tendsto K (𝓝[>] 0) (𝓝 (FP - e)) := by
    rintro c d hd e he ht
    rwa [← he, ← hd]
  refine ⟨?_, ?_⟩
  · refine fun hi => fin (c := 1 / 2) (d := 1 / 4) (by norm_num) (by ring) (hlim (1 / 2) ?_ ?_)
    · rcases hi with hi | hi
      · refine a1.congr' ?_
        filter_upwards [hne] with h hh
        simp only [hi]
        rw [gradFn_zero]
        norm_num
      · refine b1.congr' ?_
        filter_upwards [hne] with h hh
        simp only [hi]
        rw [gradFn_last, show x + -1 * h = x + ((N : ℝ) - ((N + 1 : ℕ) : ℝ)) * h by push_cast; ring, sub_self, zero_mul, add_zero]
        ring
    · rw [show 1 / 2 * p2 x = p2 x / 2 by ring]
      rcases hi with hi | hi
      · refine a2.congr' ?_
        filter_upwards [hne] with h hh
        simp only [hi]
        rw [gradFn_zero, gradFn_mid _ _ 1 (by omega) (by omega), gradFn_zero]
        norm_num
        field_simp
        ring
      · refine b2.congr' ?_
        filter_upwards [hne] with h hh
        simp only [hi]
        rw [gradFn_last, gradFn_last, gradFn_mid _ _ N (by omega) (by omega)]
        have e1 : x + 2 * -1 * h = x + (((N - 1 : ℕ) : ℝ) - ((N + 1 : ℕ) : ℝ)) * h := by
          rw [Nat.cast_sub (by omega)]; push_cast; ring
        have e2 : x + -1 * h = x + ((N : ℝ) - ((N + 1 : ℕ) : ℝ)) * h := by push_cast; ring
        rw [e1, e2, sub_self, zero_mul, add_zero]
        field_simp
        ring
  · refine fun hi => fin (c := 3 / 4) (d := 1 / 8) (by norm_num) (by ring) (hlim (3 / 4) ?_ ?_)
    · rcases hi with hi | hi
      · refine a3.congr' ?_
        filter_upwards [hne] with h hh
        simp only [hi]
        rw [gradFn_mid _ _ 1 (by omega) (by omega)]
        norm_num
        ring_nf
      · refine b3.congr' ?_
        filter_upwards [hne] with h hh
        simp only [hi]
        rw [gradFn_mid _ _ N (by omega) (by omega)]
        have e1 : x + -1 * h = x + (((N - 1 : ℕ) : ℝ) - (N : ℝ)) * h := by
          rw [Nat.cast_sub (by omega)]; push_cast; ring
        have e2 : x - -1 * h = x + (((N + 1 : ℕ) : ℝ) - (N : ℝ)) * h := by push_cast; ring
        rw [e1, e2]
        ring
    · rcases hi with hi | hi
      · refine a4.congr' ?_
        filter_upwards [hne] with h hh
        simp only [hi]
        rw [gradFn_mid _ _ 1 (by omega) (by omega), gradFn_mid _ _ (1 + 1) (by omega) (by omega), gradFn_zero]
        norm_num
        rw [show x + -h = x - h by ring]
        field_simp
        ring
      · refine b4.congr' ?_
        filter_upwards [hne] with h hh
        simp only [hi]
        rw [gradFn_mid _ _ N (by omega) (by omega), gradFn_last, gradFn_mid _ _ (N - 1) (by omega) (by omega)]
        have e1 : x + 2 * -1 * h = x + (((N - 1 - 1 : ℕ) : ℝ) - (N : ℝ)) * h := by
          rw [Nat.cast_sub (by omega), Nat.cast_sub (by omega)]; push_cast; ring
        have e2 : x - -1 * h = x + (((N + 1 : ℕ) : ℝ) - (N : ℝ)) * h := by push_cast; ring
        rw [e1, e2, show N - 1 + 1 = N by omega, sub_self, zero_mul, add_zero]
        field_simp
        ring

/-- hence no convergence to the forward operator at those points where `dispersion² p''` does not vanish. -/
theorem C156_edges_inconsistent (hN : 2 ≤ N) (drift dispersion p p1 p2 p3 : ℝ → ℝ) (ha : Differentiable ℝ drift) (hg : Differentiable ℝ dispersion)
    (hg2 : Differentiable ℝ (deriv fun x => dispersion x ^ 2)) (h1 : ∀ x, HasDerivAt p (p1 x) x) (h2 : ∀ x, HasDerivAt p1 (p2 x) x)
    (h3 : ∀ x, HasDerivAt p2 (p3 x) x) (hc : Continuous p3) (x : ℝ) (hx : dispersion x ^ 2 * p2 x ≠ 0) (i : Fin (N + 2))
    (hi : (i : ℕ) ≤ 1 ∨ N ≤ (i : ℕ)) :
    ¬ Tendsto (fun h => kolmogorovFwdOpt drift dispersion (fun j : Fin (N + 2) => x + ((j : ℕ) - (i : ℕ)) * h)
      (fun j => p (x + ((j : ℕ) - (i : ℕ)) * h)) i) (𝓝[>] 0)
      (𝓝 (-deriv (fun x => drift x * p x) x + deriv (deriv fun x => dispersion x ^ 2 * p x) x / 2)) := by
  intro hcon
  obtain ⟨e1, e2⟩ := C156_edges hN drift dispersion p p1 p2 p3 ha hg hg2 h1 h2 h3 hc x i
  have hlt := i.2
  by_cases hi' : (i : ℕ) = 0 ∨ (i : ℕ) = N + 1
  · have := tendsto_nhds_unique hcon (e1 hi')
    apply hx
    linarith
  · have := tendsto_nhds_unique hcon (e2 (by omega))
    apply hx
    linarith

/-- the hypotheses at the density `exp (-x²)` (up to a factor) with constant dispersion, at the end point `0` of a grid. -/
example : ∃ p1 p2 p3 p4 : ℝ → ℝ, (∀ x, HasDerivAt (fun x => Real.exp (-x ^ 2)) (p1 x) x) ∧ (∀ x, HasDerivAt p1 (p2 x) x) ∧
    (∀ x, HasDerivAt p2 (p3 x) x) ∧ (∀ x, HasDerivAt p3 (p4 x) x) ∧ Continuous p3 ∧ (fun _ : ℝ => (1 : ℝ)) 0 ^ 2 * p2 0 ≠ 0 := by
  have he : ∀ x : ℝ, HasDerivAt (fun x => Real.exp (-x ^ 2)) (Real.exp (-x ^ 2) * (-(2 * x))) x := fun x => by
    have := ((hasDerivAt_pow 2 x).neg).exp
    simpa using this
  refine ⟨fun x => Real.exp (-x ^ 2) * (-(2 * x)), fun x => Real.exp (-x ^ 2) * (4 * x ^ 2 - 2), fun x => Real.exp (-x ^ 2) * (12 * x - 8 * x ^ 3),
    fun x => Real.exp (-x ^ 2) * (12 - 48 * x ^ 2 + 16 * x ^ 4), he, fun x => ?_, fun x => ?_, fun x => ?_, by fun_prop, by norm_num⟩
  · refine ((he x).mul (((hasDerivAt_id x).const_mul 2).neg)).congr_deriv ?_
    simp only [id, Pi.neg_apply]
    ring
  · refine ((he x).mul (((hasDerivAt_pow 2 x).const_mul 4).sub_const 2)).congr_deriv ?_
    push_cast
    ring
  · refine ((he x).mul (((hasDerivAt_id x).const_mul 12).sub ((hasDerivAt_pow 3 x).const_mul 8))).congr_deriv ?_
    simp only [id, Pi.sub_apply]
    push_cast
    ring

end Mfs.Props

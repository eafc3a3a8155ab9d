import Verif.Lemmas.TaylorBound
import Verif.Lemmas.GaussReal
import Mathlib.Analysis.Calculus.ParametricIntegral
import Mathlib.Analysis.Calculus.ContDiff.Basic
import Mathlib.Analysis.Calculus.IteratedDeriv.Lemmas

/-!
# Functions with bounded derivatives, and their means under normal laws
-/

namespace Mfs.SmoothB

open MeasureTheory ProbabilityTheory
open scoped NNReal

/-- `f` has `n` continuous derivatives, and they and `f` are bounded by `M`. -/
def CB (M : ℝ) : ℕ → (ℝ → ℝ) → Prop
  | 0, f => Continuous f ∧ ∀ x, |f x| ≤ M
  | n + 1, f => (∀ x, |f x| ≤ M) ∧ ∃ f' : ℝ → ℝ, (∀ x, HasDerivAt f (f' x) x) ∧ CB M n f'

theorem CB.bound {M : ℝ} {n : ℕ} {f : ℝ → ℝ} (h : CB M n f) (x : ℝ) : |f x| ≤ M := by
  cases n with
  | zero => exact h.2 x
  | succ n => exact h.1 x

theorem CB.cont {M : ℝ} {n : ℕ} {f : ℝ → ℝ} (h : CB M n f) : Continuous f := by
  cases n with
  | zero => exact h.1
  | succ n =>
    obtain ⟨-, f', hf, -⟩ := h
    exact continuous_iff_continuousAt.2 fun x => (hf x).continuousAt

theorem CB.nonneg {M : ℝ} {n : ℕ} {f : ℝ → ℝ} (h : CB M n f) : 0 ≤ M := (abs_nonneg _).trans (h.bound 0)

theorem CB.mono {M M' : ℝ} {n : ℕ} {f : ℝ → ℝ} (h : CB M n f) (hM : M ≤ M') : CB M' n f := by
  induction n generalizing f with
  | zero => exact ⟨h.1, fun x => (h.2 x).trans hM⟩
  | succ n ih =>
    obtain ⟨h0, f', h1, h2⟩ := h
    exact ⟨fun x => (h0 x).trans hM, f', h1, ih h2⟩

theorem CB.pred {M : ℝ} {n : ℕ} {f : ℝ → ℝ} (h : CB M (n + 1) f) : CB M n f := by
  induction n generalizing f with
  | zero => exact ⟨h.cont, h.bound⟩
  | succ n ih =>
    obtain ⟨h0, f', h1, h2⟩ := h
    exact ⟨h0, f', h1, ih h2⟩

theorem CB.add {M M' : ℝ} {n : ℕ} {f g : ℝ → ℝ} (hf : CB M n f) (hg : CB M' n g) : CB (M + M') n fun x => f x + g x := by
  have hb : ∀ x, |f x + g x| ≤ M + M' := fun x => (abs_add_le _ _).trans (add_le_add (hf.bound x) (hg.bound x))
  induction n generalizing f g with
  | zero => exact ⟨hf.cont.add hg.cont, hb⟩
  | succ n ih =>
    obtain ⟨-, f', f1, f2⟩ := hf
    obtain ⟨-, g', g1, g2⟩ := hg
    exact ⟨hb, fun x => f' x + g' x, fun x => (f1 x).add (g1 x), ih f2 g2 fun x => (abs_add_le _ _).trans (add_le_add (f2.bound x) (g2.bound x))⟩

theorem CB.mul {M M' : ℝ} {n : ℕ} {f g : ℝ → ℝ} (hf : CB M n f) (hg : CB M' n g) : CB (2 ^ n * (M * M')) n fun x => f x * g x := by
  induction n generalizing f g with
  | zero =>
    refine ⟨hf.cont.mul hg.cont, fun x => ?_⟩
    rw [abs_mul, pow_zero, one_mul]
    exact mul_le_mul (hf.bound x) (hg.bound x) (abs_nonneg _) hf.nonneg
  | succ n ih =>
    have h0 := hf.nonneg
    have h0' := hg.nonneg
    refine ⟨fun x => ?_, ?_⟩
    · rw [abs_mul]
      refine (mul_le_mul (hf.bound x) (hg.bound x) (abs_nonneg _) h0).trans ?_
      exact le_mul_of_one_le_left (mul_nonneg h0 h0') (one_le_pow₀ one_le_two)
    · have hf0 := hf.pred
      have hg0 := hg.pred
      obtain ⟨-, f', f1, f2⟩ := hf
      obtain ⟨-, g', g1, g2⟩ := hg
      refine ⟨fun x => f' x * g x + f x * g' x, fun x => (f1 x).mul (g1 x), ?_⟩
      have := (ih f2 hg0).add (ih hf0 g2)
      rwa [← two_mul, ← mul_assoc, ← pow_succ'] at this

theorem CB.const_mul {M : ℝ} {n : ℕ} {f : ℝ → ℝ} (hf : CB M n f) (c : ℝ) : CB (|c| * M) n fun x => c * f x := by
  have hb : ∀ {g : ℝ → ℝ}, (∀ x, |g x| ≤ M) → ∀ x, |c * g x| ≤ |c| * M := fun h x => by
    rw [abs_mul]; exact mul_le_mul_of_nonneg_left (h x) (abs_nonneg _)
  induction n generalizing f with
  | zero => exact ⟨continuous_const.mul hf.cont, hb hf.bound⟩
  | succ n ih =>
    have h0 := hf.bound
    obtain ⟨-, f', f1, f2⟩ := hf
    exact ⟨hb h0, fun x => c * f' x, fun x => (f1 x).const_mul c, ih f2⟩

theorem CB.integrable {M : ℝ} {n : ℕ} {f : ℝ → ℝ} (hf : CB M n f) (ν : Measure ℝ) [IsFiniteMeasure ν] (c : ℝ) : Integrable (fun y => f (c + y)) ν :=
  Integrable.of_bound (C := M) (hf.cont.comp (continuous_const.add continuous_id)).aestronglyMeasurable (Filter.Eventually.of_forall fun _ => hf.bound _)

/-- averages of translates. -/
theorem CB.average {M : ℝ} {n : ℕ} {f : ℝ → ℝ} (hf : CB M n f) (ν : Measure ℝ) [IsProbabilityMeasure ν] : CB M n fun x => ∫ y, f (x + y) ∂ν := by
  have hb : ∀ {g : ℝ → ℝ}, (∀ x, |g x| ≤ M) → ∀ x, |∫ y, g (x + y) ∂ν| ≤ M := fun {g} h x => by
    have := norm_integral_le_of_norm_le_const (μ := ν) (f := fun y => g (x + y)) (C := M) (Filter.Eventually.of_forall fun _ => h _)
    simpa using this
  induction n generalizing f with
  | zero =>
    refine ⟨?_, hb hf.bound⟩
    refine continuous_of_dominated (bound := fun _ => M) (fun x => (hf.cont.comp (continuous_const.add continuous_id)).aestronglyMeasurable)
      (fun x => Filter.Eventually.of_forall fun _ => hf.bound _) (integrable_const _) (Filter.Eventually.of_forall fun y => ?_)
    exact hf.cont.comp (continuous_id.add continuous_const)
  | succ n ih =>
    have hfi := hf
    have h0 := hf.bound
    obtain ⟨-, f', f1, f2⟩ := hf
    refine ⟨hb h0, fun x => ∫ y, f' (x + y) ∂ν, fun x => ?_, ih f2⟩
    refine (hasDerivAt_integral_of_dominated_loc_of_deriv_le (F := fun x y => f (x + y)) (F' := fun x y => f' (x + y)) (bound := fun _ => M) Filter.univ_mem
      (Filter.Eventually.of_forall fun x => (hfi.integrable ν x).aestronglyMeasurable) (hfi.integrable ν x) (f2.integrable ν x).aestronglyMeasurable
      (Filter.Eventually.of_forall fun y x _ => f2.bound _) (integrable_const _) (Filter.Eventually.of_forall fun y x _ => ?_)).2
    exact (f1 (x + y)).comp_add_const x y

theorem CB.of_contDiff {M : ℝ} {n : ℕ} {f : ℝ → ℝ} (hf : ContDiff ℝ n f) (hM : ∀ k ≤ n, ∀ x, |iteratedDeriv k f x| ≤ M) : CB M n f := by
  induction n generalizing f with
  | zero => exact ⟨hf.continuous, fun x => by simpa using hM 0 le_rfl x⟩
  | succ n ih =>
    refine ⟨fun x => by simpa using hM 0 (Nat.zero_le _) x, deriv f, fun x => ?_, ih ?_ fun k hk x => ?_⟩
    · exact (hf.differentiable (by simp)).differentiableAt.hasDerivAt
    · exact (contDiff_succ_iff_deriv.1 (by exact_mod_cast hf)).2.2
    · rw [← iteratedDeriv_succ']; exact hM (k + 1) (by omega) x

theorem CB.cos (u : ℝ) (n : ℕ) : ∃ M, ∀ c, CB M n fun x => Real.cos (u * x + c) := by
  refine ⟨(1 + |u|) ^ n, ?_⟩
  have h1 : (1 : ℝ) ≤ 1 + |u| := by linarith [abs_nonneg u]
  induction n with
  | zero => exact fun c => ⟨by fun_prop, fun x => by simpa using Real.abs_cos_le_one _⟩
  | succ n ih =>
    intro c
    refine ⟨fun x => (Real.abs_cos_le_one _).trans (one_le_pow₀ h1), fun x => u * Real.cos (u * x + (c + Real.pi / 2)), fun x => ?_, ?_⟩
    · have := (((hasDerivAt_id x).const_mul u).add_const c).cos
      refine this.congr_deriv ?_
      show -Real.sin (u * x + c) * (u * 1) = u * Real.cos (u * x + (c + Real.pi / 2))
      rw [← add_assoc, Real.cos_add_pi_div_two]
      ring
    · refine ((ih _).const_mul u).mono ?_
      rw [pow_succ']
      exact mul_le_mul_of_nonneg_right (by linarith) (by positivity)

/-- means of a function with four bounded derivatives under a normal law. -/
theorem gauss_expand {M : ℝ} {f : ℝ → ℝ} (hf : CB M 4 f) (x : ℝ) : ∃ f1 f2 f3 : ℝ, |f1| ≤ M ∧ |f2| ≤ M ∧ |f3| ≤ M ∧ ∀ (a : ℝ) (v : ℝ≥0),
    |∫ y, f (x + y) ∂gaussianReal a v - (f x + f1 * a + f2 * (a ^ 2 + v) / 2 + f3 * (a ^ 3 + 3 * a * v) / 6)|
      ≤ M * (a ^ 4 + 6 * a ^ 2 * v + 3 * v ^ 2) := by
  have hM := hf.nonneg
  have hfi := hf
  obtain ⟨b0, f1, d0, b1, f2, d1, b2, f3, d2, b3, f4, d3, -, b4⟩ := hf
  refine ⟨f1 x, f2 x, f3 x, b1 x, b2 x, b3 x, fun a v => ?_⟩
  have hi : ∀ k : ℕ, Integrable (fun y : ℝ => y ^ k) (gaussianReal a v) := fun k => integrable_pow_gaussianReal a v k
  have m0 := std_moment_zero
  have m1 := std_moment_one
  have m2 := std_moment_succ_succ 0
  have m3 := std_moment_succ_succ 1
  have m4 := std_moment_succ_succ 2
  rw [m0] at m2
  rw [m1] at m3
  norm_num at m2 m3 m4
  rw [m2] at m4
  have hs : √(v : ℝ) ^ 2 = v := Real.sq_sqrt v.2
  have hs4 : √(v : ℝ) ^ 4 = (v : ℝ) ^ 2 := by rw [show √(v : ℝ) ^ 4 = (√(v : ℝ) ^ 2) ^ 2 by ring, hs]
  have g1 : ∫ y, y ∂gaussianReal a v = a := by simp
  have g2 : ∫ y, y ^ 2 ∂gaussianReal a v = a ^ 2 + v := by
    rw [gauss_moment]
    simp [Finset.sum_range_succ, Nat.choose, m2, hs]
    ring
  have g3 : ∫ y, y ^ 3 ∂gaussianReal a v = a ^ 3 + 3 * a * v := by
    rw [gauss_moment]
    simp [Finset.sum_range_succ, Nat.choose, m2, m3, hs]
    ring
  have g4 : ∫ y, y ^ 4 ∂gaussianReal a v = a ^ 4 + 6 * a ^ 2 * v + 3 * v ^ 2 := by
    rw [gauss_moment]
    simp [Finset.sum_range_succ, Nat.choose, m2, m3, m4, hs, hs4]
    ring
  have hi1 : Integrable (fun y : ℝ => y) (gaussianReal a v) := by simpa using hi 1
  have e : f x + f1 x * a + f2 x * (a ^ 2 + v) / 2 + f3 x * (a ^ 3 + 3 * a * v) / 6
      = ∫ y, (f x + f1 x * y + f2 x / 2 * y ^ 2 + f3 x / 6 * y ^ 3) ∂gaussianReal a v := by
    rw [integral_add, integral_add, integral_add, integral_const_mul, integral_const_mul, integral_const_mul, g1, g2, g3]
    · simp; ring
    · exact integrable_const _
    · exact hi1.const_mul _
    · exact (integrable_const _).add (hi1.const_mul _)
    · exact (hi 2).const_mul _
    · exact ((integrable_const _).add (hi1.const_mul _)).add ((hi 2).const_mul _)
    · exact (hi 3).const_mul _
  have hq : Integrable (fun y => f x + f1 x * y + f2 x / 2 * y ^ 2 + f3 x / 6 * y ^ 3) (gaussianReal a v) :=
    (((integrable_const _).add (hi1.const_mul _)).add ((hi 2).const_mul _)).add ((hi 3).const_mul _)
  rw [e, ← integral_sub (hfi.integrable _ x) hq, ← g4,
    ← integral_const_mul, ← Real.norm_eq_abs]
  refine norm_integral_le_of_norm_le ((hi 4).const_mul M) (Filter.Eventually.of_forall fun y => ?_)
  have ht := Spec.abs_taylor_le (M := M) 4 (fun k => match k with | 0 => f | 1 => f1 | 2 => f2 | 3 => f3 | _ => f4) (by
    intro k hk z
    interval_cases k
    · exact d0 z
    · exact d1 z
    · exact d2 z
    · exact d3 z) x |y| (fun z _ => b4 z) y le_rfl
  rw [Real.norm_eq_abs]
  simp only [Finset.sum_range_succ, Finset.sum_range_zero, Nat.factorial] at ht
  norm_num at ht
  have he : f (x + y) - (f x + f1 x * y + f2 x / 2 * y ^ 2 + f3 x / 6 * y ^ 3) = f (x + y) - (f x + f1 x * y + f2 x * y ^ 2 / 2 + f3 x * y ^ 3 / 6) := by ring
  rw [he]
  refine ht.trans ?_
  have : |y| ^ 4 = y ^ 4 := by rw [← abs_pow]; exact abs_of_nonneg (by positivity)
  rw [this]
  have : 0 ≤ M * y ^ 4 := by positivity
  linarith

end Mfs.SmoothB

import Verif.Lemmas.BenesLaw
import Verif.Lemmas.SmoothBounded
import Mathlib.Probability.Kernel.Composition.Comp
import Mathlib.MeasureTheory.Group.Convolution

/-!
# The transition operators of the Beneš equation
-/

namespace Mfs.Benes

open Mfs.Spec Mfs.SmoothB MeasureTheory ProbabilityTheory
open scoped NNReal

theorem benesDens_tilt {t : ℝ} (ht : 0 < t) (x y : ℝ) :
    benesDens t x y = Real.exp (-t / 2) / Real.cosh x * (gaussianPDFReal x t.toNNReal y * Real.cosh y) := by
  rw [benesDens, gaussianPDFReal, Real.coe_toNNReal _ ht.le]
  have := (Real.cosh_pos x).ne'
  ring

theorem lintegral_benesKernel {t : ℝ} (ht : 0 < t) (x : ℝ) {g : ℝ → ENNReal} (hg : Measurable g) :
    ∫⁻ y, g y ∂benesKernel t x = ENNReal.ofReal (Real.exp (-t / 2) / Real.cosh x) * ∫⁻ y, ENNReal.ofReal (Real.cosh y) * g y ∂gaussianReal x t.toNNReal := by
  have hv : t.toNNReal ≠ 0 := by rw [Ne, Real.toNNReal_eq_zero, not_le]; exact ht
  have hc := Real.continuous_cosh.measurable
  have hG : Measurable fun y => ENNReal.ofReal (Real.cosh y) * g y := (hc.ennreal_ofReal).mul hg
  have hm : Measurable fun y => ENNReal.ofReal (benesDens t x y) := ((measurable_benesDens t).of_uncurry_left (x := x)).ennreal_ofReal
  have e0 : benesKernel t x = volume.withDensity fun y => ENNReal.ofReal (benesDens t x y) := by
    rw [benesKernel, Kernel.withDensity_apply _ (by exact ENNReal.measurable_ofReal.comp (measurable_benesDens t)), Kernel.const_apply]
  have e1 : ∫⁻ y, g y ∂benesKernel t x = ∫⁻ y, ENNReal.ofReal (benesDens t x y) * g y := by
    rw [e0, lintegral_withDensity_eq_lintegral_mul _ hm hg]; rfl
  have e2 : ∫⁻ y, ENNReal.ofReal (Real.cosh y) * g y ∂gaussianReal x t.toNNReal = ∫⁻ y, gaussianPDF x t.toNNReal y * (ENNReal.ofReal (Real.cosh y) * g y) := by
    rw [gaussianReal_of_var_ne_zero _ hv, lintegral_withDensity_eq_lintegral_mul _ (measurable_gaussianPDF _ _) hG]; rfl
  have hH : Measurable fun y => gaussianPDF x t.toNNReal y * (ENNReal.ofReal (Real.cosh y) * g y) := (measurable_gaussianPDF _ _).mul hG
  rw [e1, e2, ← lintegral_const_mul _ hH]
  refine lintegral_congr fun y => ?_
  rw [benesDens_tilt ht, gaussianPDF, ENNReal.ofReal_mul (div_pos (Real.exp_pos _) (Real.cosh_pos x)).le, ENNReal.ofReal_mul (gaussianPDFReal_nonneg _ _ _),
    mul_assoc, mul_assoc]

/-- the laws over consecutive times compose. -/
theorem benesKernel_comp {s t : ℝ} (hs : 0 < s) (ht : 0 < t) : benesKernel t ∘ₖ benesKernel s = benesKernel (s + t) := by
  refine Kernel.ext fun x => Measure.ext_of_lintegral _ fun g hg => ?_
  have hc := Real.continuous_cosh.measurable
  have hmk : Measurable fun y => ∫⁻ z, g z ∂benesKernel t y := hg.lintegral_kernel
  have hG : Measurable fun z => ENNReal.ofReal (Real.cosh z) * g z := (hc.ennreal_ofReal).mul hg
  rw [Kernel.lintegral_comp _ _ _ hg, lintegral_benesKernel hs x hmk, lintegral_benesKernel (by linarith) x hg]
  have e1 : ∀ y, ENNReal.ofReal (Real.cosh y) * ∫⁻ z, g z ∂benesKernel t y
      = ENNReal.ofReal (Real.exp (-t / 2)) * ∫⁻ z, ENNReal.ofReal (Real.cosh (y + z)) * g (y + z) ∂gaussianReal 0 t.toNNReal := by
    intro y
    have hcy := Real.cosh_pos y
    rw [lintegral_benesKernel ht y hg, ← mul_assoc, ← ENNReal.ofReal_mul hcy.le, mul_div_cancel₀ _ hcy.ne']
    congr 1
    rw [← lintegral_map (f := fun z => ENNReal.ofReal (Real.cosh z) * g z) hG (measurable_const_add y), gaussianReal_map_const_add, zero_add]
  simp only [e1]
  have hG2 : Measurable fun p : ℝ × ℝ => ENNReal.ofReal (Real.cosh (p.1 + p.2)) * g (p.1 + p.2) := hG.comp (measurable_fst.add measurable_snd)
  rw [lintegral_const_mul _ hG2.lintegral_prod_right', ← mul_assoc, ← ENNReal.ofReal_mul (div_pos (Real.exp_pos _) (Real.cosh_pos x)).le,
    ← Measure.lintegral_conv (μ := gaussianReal x s.toNNReal) (ν := gaussianReal 0 t.toNNReal) (f := fun z => ENNReal.ofReal (Real.cosh z) * g z) hG,
    gaussianReal_conv_gaussianReal, add_zero, Real.toNNReal_add hs.le ht.le]
  congr 2
  rw [div_mul_eq_mul_div, ← Real.exp_add]
  congr 2
  ring

/-- the mean of `f` after time `t`, also for `t = 0`. -/
noncomputable def bop (t : ℝ) (f : ℝ → ℝ) (x : ℝ) : ℝ :=
  pr x * ∫ y, f (x + y) ∂gaussianReal t t.toNNReal + pl x * ∫ y, f (x + y) ∂gaussianReal (-t) t.toNNReal

theorem bop_zero (f : ℝ → ℝ) : bop 0 f = f := by
  funext x
  simp only [bop, Real.toNNReal_zero, neg_zero, gaussianReal_zero_var, integral_dirac, add_zero]
  rw [← add_mul, pr_add_pl, one_mul]

theorem integral_shift {f : ℝ → ℝ} (hf : Continuous f) (x a : ℝ) (v : ℝ≥0) : ∫ y, f (x + y) ∂gaussianReal a v = ∫ y, f y ∂gaussianReal (x + a) v := by
  rw [add_comm x a, ← gaussianReal_map_const_add x, integral_map (measurable_const_add x).aemeasurable hf.aestronglyMeasurable]

theorem bop_eq {t : ℝ} (ht : 0 < t) {M : ℝ} {n : ℕ} {f : ℝ → ℝ} (hf : CB M n f) (x : ℝ) : bop t f x = ∫ y, f y ∂benesKernel t x := by
  have hi : ∀ a v, Integrable f (gaussianReal a v) := fun a v => by simpa using hf.integrable (gaussianReal a v) 0
  rw [bop, integral_shift hf.cont, integral_shift hf.cont, ← sub_eq_add_neg, (integral_benesKernel ht x (hi _ _) (hi _ _)).2]

theorem exists_CB_pr (n : ℕ) : ∃ M, CB M n pr ∧ CB M n pl := by
  have b1 : ∀ x, |pr x| ≤ 1 := fun x => by rw [abs_of_pos (pr_pos x)]; linarith [pl_pos x, pr_add_pl x]
  have b2 : ∀ x, |pl x| ≤ 1 := fun x => by rw [abs_of_pos (pl_pos x)]; linarith [pr_pos x, pr_add_pl x]
  induction n with
  | zero => exact ⟨1, ⟨continuous_pr, b1⟩, continuous_pl, b2⟩
  | succ n ih =>
    obtain ⟨M, h1, h2⟩ := ih
    have h3 := (h1.mul h2).const_mul 2
    have h4 := (h1.mul h2).const_mul (-2)
    rw [abs_neg] at h4
    set M' := |(2 : ℝ)| * (2 ^ n * (M * M))
    refine ⟨max 1 M', ⟨fun x => (b1 x).trans (le_max_left _ _), _, fun x => ?_, h3.mono (le_max_right _ _)⟩,
      ⟨fun x => (b2 x).trans (le_max_left _ _), _, fun x => ?_, h4.mono (le_max_right _ _)⟩⟩
    · refine (hasDerivAt_pr x).congr_deriv ?_
      rw [← pr_sub_pl]
      linear_combination (-pr x) * pr_add_pl x
    · refine (hasDerivAt_pl x).congr_deriv ?_
      rw [← pr_sub_pl]
      linear_combination (pl x) * pr_add_pl x

/-- the operators keep derivatives bounded. -/
theorem exists_CB_bop (n : ℕ) : ∃ K, 0 ≤ K ∧ ∀ (t M : ℝ) (f : ℝ → ℝ), CB M n f → CB (K * M) n (bop t f) := by
  obtain ⟨M', h1, h2⟩ := exists_CB_pr n
  have h0 := h1.nonneg
  refine ⟨2 ^ n * M' + 2 ^ n * M', by positivity, fun t M f hf => ?_⟩
  have := (h1.mul (hf.average (gaussianReal t t.toNNReal))).add (h2.mul (hf.average (gaussianReal (-t) t.toNNReal)))
  refine this.mono (le_of_eq ?_)
  ring

theorem bop_bop {s t : ℝ} (hs : 0 ≤ s) (ht : 0 ≤ t) {M : ℝ} {n : ℕ} {f : ℝ → ℝ} (hf : CB M n f) : bop s (bop t f) = bop (s + t) f := by
  rcases hs.eq_or_lt with rfl | hs
  · rw [bop_zero, zero_add]
  rcases ht.eq_or_lt with rfl | ht
  · rw [bop_zero, add_zero]
  obtain ⟨K, -, hK⟩ := exists_CB_bop n
  have hM := isMarkov_benesKernel hs
  have hM' := isMarkov_benesKernel ht
  have hM'' := isMarkov_benesKernel (add_pos hs ht)
  funext x
  rw [bop_eq hs (hK t M f hf), bop_eq (add_pos hs ht) hf, ← benesKernel_comp hs ht]
  simp only [bop_eq ht hf]
  rw [Kernel.integral_comp]
  refine Integrable.of_bound (C := M) hf.cont.aestronglyMeasurable (Filter.Eventually.of_forall fun _ => hf.bound _)

theorem local_moments {C h a v τ D : ℝ} (hC : 0 ≤ C) (hD : D = 1 + C) (h0 : 0 ≤ h) (h1 : h ≤ 1) (hτ : |τ| ≤ 1) (hv0 : 0 ≤ v) (ha : |a - h * τ| ≤ C * h ^ 2)
    (hv : |v - h| ≤ C * h ^ 2) : a ^ 4 + 6 * a ^ 2 * v + 3 * v ^ 2 ≤ 10 * D ^ 4 * h ^ 2 ∧ h ^ 4 + 6 * h ^ 2 * h + 3 * h ^ 2 ≤ 10 * D ^ 4 * h ^ 2 ∧
    |a - h * τ| ≤ D ^ 4 * h ^ 2 ∧ |a ^ 2 + v - (h ^ 2 + h)| ≤ 3 * D ^ 4 * h ^ 2 ∧ |a ^ 3 + 3 * a * v - τ * (h ^ 3 + 3 * h * h)| ≤ 8 * D ^ 4 * h ^ 2 := by
  have hD1 : 1 ≤ D := by linarith
  have hh2 : h ^ 2 ≤ h := by nlinarith
  have hah : |a| ≤ D * h := by
    have e1 : |h * τ| ≤ h := by
      rw [abs_mul, abs_of_nonneg h0]; exact mul_le_of_le_one_right h0 hτ
    have : |a| ≤ |a - h * τ| + |h * τ| := by
      have := abs_add_le (a - h * τ) (h * τ)
      simpa using this
    have : C * h ^ 2 ≤ C * h := mul_le_mul_of_nonneg_left hh2 hC
    rw [hD]; linarith
  have hvh : v ≤ D * h := by
    have := (abs_le.1 hv).2
    have : C * h ^ 2 ≤ C * h := mul_le_mul_of_nonneg_left hh2 hC
    rw [hD]; linarith
  have hDh : 0 ≤ D * h := by positivity
  have a2 : a ^ 2 ≤ (D * h) ^ 2 := sq_le_sq' (by linarith [(abs_le.1 hah).1]) (abs_le.1 hah).2
  -- powers
  have p1 : D ≤ D ^ 4 := le_self_pow₀ hD1 (by norm_num)
  have p2 : D ^ 2 ≤ D ^ 4 := pow_le_pow_right₀ hD1 (by norm_num)
  have p3 : D ^ 3 ≤ D ^ 4 := pow_le_pow_right₀ hD1 (by norm_num)
  have p0 : 1 ≤ D ^ 4 := one_le_pow₀ hD1
  have q3 : h ^ 3 ≤ h ^ 2 := pow_le_pow_of_le_one h0 h1 (by norm_num)
  have q4 : h ^ 4 ≤ h ^ 2 := pow_le_pow_of_le_one h0 h1 (by norm_num)
  have hh : 0 ≤ h ^ 2 := sq_nonneg h
  have k4 : a ^ 4 + 6 * a ^ 2 * v + 3 * v ^ 2 ≤ 10 * D ^ 4 * h ^ 2 := by
    have x1 : a ^ 4 ≤ D ^ 4 * h ^ 2 := by
      calc a ^ 4 = (a ^ 2) ^ 2 := by ring
        _ ≤ ((D * h) ^ 2) ^ 2 := pow_le_pow_left₀ (sq_nonneg a) a2 2
        _ = D ^ 4 * h ^ 4 := by ring
        _ ≤ D ^ 4 * h ^ 2 := mul_le_mul_of_nonneg_left q4 (by positivity)
    have x2 : a ^ 2 * v ≤ D ^ 4 * h ^ 2 := by
      calc a ^ 2 * v ≤ (D * h) ^ 2 * (D * h) := mul_le_mul a2 hvh hv0 (sq_nonneg _)
        _ = D ^ 3 * h ^ 3 := by ring
        _ ≤ D ^ 4 * h ^ 2 := mul_le_mul p3 q3 (by positivity) (by positivity)
    have x3 : v ^ 2 ≤ D ^ 4 * h ^ 2 := by
      calc v ^ 2 ≤ (D * h) ^ 2 := pow_le_pow_left₀ hv0 hvh 2
        _ = D ^ 2 * h ^ 2 := by ring
        _ ≤ D ^ 4 * h ^ 2 := mul_le_mul_of_nonneg_right p2 hh
    linarith
  have k4' : h ^ 4 + 6 * h ^ 2 * h + 3 * h ^ 2 ≤ 10 * D ^ 4 * h ^ 2 := by
    have e : h ^ 2 * h = h ^ 3 := by ring
    linarith [le_mul_of_one_le_left hh p0]
  have k1 : |a - h * τ| ≤ D ^ 4 * h ^ 2 := ha.trans (mul_le_mul_of_nonneg_right (by linarith) hh)
  have k2 : |a ^ 2 + v - (h ^ 2 + h)| ≤ 3 * D ^ 4 * h ^ 2 := by
    have x1 : a ^ 2 ≤ D ^ 4 * h ^ 2 := a2.trans (by rw [mul_pow]; exact mul_le_mul_of_nonneg_right p2 hh)
    have x2 : |v - h| ≤ D ^ 4 * h ^ 2 := hv.trans (mul_le_mul_of_nonneg_right (by linarith) hh)
    have x3 : h ^ 2 ≤ D ^ 4 * h ^ 2 := le_mul_of_one_le_left hh p0
    rw [abs_le] at x2 ⊢
    constructor <;> linarith [sq_nonneg a]
  have k3 : |a ^ 3 + 3 * a * v - τ * (h ^ 3 + 3 * h * h)| ≤ 8 * D ^ 4 * h ^ 2 := by
    have x1 : |a ^ 3| ≤ D ^ 4 * h ^ 2 := by
      rw [abs_pow]
      calc |a| ^ 3 ≤ (D * h) ^ 3 := pow_le_pow_left₀ (abs_nonneg _) hah 3
        _ = D ^ 3 * h ^ 3 := by ring
        _ ≤ D ^ 4 * h ^ 2 := mul_le_mul p3 q3 (by positivity) (by positivity)
    have x2 : |a * v| ≤ D ^ 4 * h ^ 2 := by
      rw [abs_mul, abs_of_nonneg hv0]
      calc |a| * v ≤ D * h * (D * h) := mul_le_mul hah hvh hv0 hDh
        _ = D ^ 2 * h ^ 2 := by ring
        _ ≤ D ^ 4 * h ^ 2 := mul_le_mul_of_nonneg_right p2 hh
    have x3 : |τ * (h ^ 3 + 3 * h * h)| ≤ 4 * D ^ 4 * h ^ 2 := by
      rw [abs_mul, abs_of_nonneg (by positivity : 0 ≤ h ^ 3 + 3 * h * h)]
      calc |τ| * (h ^ 3 + 3 * h * h) ≤ 1 * (h ^ 3 + 3 * h * h) := mul_le_mul_of_nonneg_right hτ (by positivity)
        _ ≤ 4 * h ^ 2 := by linarith [show h * h = h ^ 2 by ring]
        _ ≤ 4 * D ^ 4 * h ^ 2 := by linarith [le_mul_of_one_le_left hh p0]
    rw [abs_le] at x1 x2 x3 ⊢
    constructor <;> linarith
  exact ⟨k4, k4', k1, k2, k3⟩

/-- one step with a normal increment of nearly the right mean and variance. -/
theorem exists_local (C : ℝ) (hC : 0 ≤ C) : ∃ L, 0 ≤ L ∧ ∀ (h M : ℝ) (f : ℝ → ℝ), 0 ≤ h → h ≤ 1 → CB M 4 f → ∀ (x a : ℝ) (v : ℝ≥0),
    |a - h * Real.tanh x| ≤ C * h ^ 2 → |v - h| ≤ C * h ^ 2 → |∫ y, f (x + y) ∂gaussianReal a v - bop h f x| ≤ L * M * h ^ 2 := by
  refine ⟨60 * (1 + C) ^ 4, by positivity, fun h M f h0 h1 hf x a v ha hv => ?_⟩
  have hM := hf.nonneg
  obtain ⟨f1, f2, f3, b1, b2, b3, he⟩ := gauss_expand hf x
  have E1 := he a v
  have E2 := he h h.toNNReal
  have E3 := he (-h) h.toNNReal
  rw [Real.coe_toNNReal _ h0] at E2 E3
  have hp := pr_pos x
  have hq := pl_pos x
  have hs := pr_add_pl x
  have hd := pr_sub_pl x
  obtain ⟨D, hD⟩ : ∃ D, D = 1 + C := ⟨_, rfl⟩
  have hτ : |Real.tanh x| ≤ 1 := by
    rw [← hd, abs_le]; constructor <;> linarith
  obtain ⟨k4, k4', k1, k2, k3⟩ := local_moments hC hD h0 h1 hτ v.2 ha hv
  rw [← hD]
  have hD0 : 0 ≤ D := by linarith
  have hh : 0 ≤ h ^ 2 := sq_nonneg h
  -- the difference
  set I := ∫ y, f (x + y) ∂gaussianReal a v
  set J := ∫ y, f (x + y) ∂gaussianReal h h.toNNReal
  set J' := ∫ y, f (x + y) ∂gaussianReal (-h) h.toNNReal
  have hB : bop h f x = pr x * J + pl x * J' := rfl
  set W := M * D ^ 4 * h ^ 2 with hW
  have hW0 : 0 ≤ W := by positivity
  have E1' : |I - (f x + f1 * a + f2 * (a ^ 2 + v) / 2 + f3 * (a ^ 3 + 3 * a * v) / 6)| ≤ 10 * W :=
    E1.trans ((mul_le_mul_of_nonneg_left k4 hM).trans (le_of_eq (by rw [hW]; ring)))
  have E2' : |J - (f x + f1 * h + f2 * (h ^ 2 + h) / 2 + f3 * (h ^ 3 + 3 * h * h) / 6)| ≤ 10 * W :=
    E2.trans ((mul_le_mul_of_nonneg_left k4' hM).trans (le_of_eq (by rw [hW]; ring)))
  have E3' : |J' - (f x + f1 * (-h) + f2 * ((-h) ^ 2 + h) / 2 + f3 * ((-h) ^ 3 + 3 * (-h) * h) / 6)| ≤ 10 * W := by
    have k5 : (-h) ^ 4 + 6 * (-h) ^ 2 * h + 3 * h ^ 2 ≤ 10 * D ^ 4 * h ^ 2 := le_trans (le_of_eq (by ring)) k4'
    exact E3.trans ((mul_le_mul_of_nonneg_left k5 hM).trans (le_of_eq (by rw [hW]; ring)))
  have t1 : |f1 * (a - h * Real.tanh x)| ≤ W := by
    rw [abs_mul, hW, mul_assoc]; exact mul_le_mul b1 k1 (abs_nonneg _) hM
  have t2 : |f2 * (a ^ 2 + v - (h ^ 2 + h))| ≤ 3 * W := by
    rw [abs_mul]
    exact (mul_le_mul b2 k2 (abs_nonneg _) hM).trans (le_of_eq (by rw [hW]; ring))
  have t3 : |f3 * (a ^ 3 + 3 * a * v - Real.tanh x * (h ^ 3 + 3 * h * h))| ≤ 8 * W := by
    rw [abs_mul]
    exact (mul_le_mul b3 k3 (abs_nonneg _) hM).trans (le_of_eq (by rw [hW]; ring))
  have t4 : |pr x * (J - (f x + f1 * h + f2 * (h ^ 2 + h) / 2 + f3 * (h ^ 3 + 3 * h * h) / 6))| ≤ 10 * W := by
    rw [abs_mul, abs_of_pos hp]
    exact (mul_le_of_le_one_left (abs_nonneg _) (by linarith)).trans E2'
  have t5 : |pl x * (J' - (f x + f1 * (-h) + f2 * ((-h) ^ 2 + h) / 2 + f3 * ((-h) ^ 3 + 3 * (-h) * h) / 6))| ≤ 10 * W := by
    rw [abs_mul, abs_of_pos hq]
    exact (mul_le_of_le_one_left (abs_nonneg _) (by linarith)).trans E3'
  have key : I - bop h f x = (I - (f x + f1 * a + f2 * (a ^ 2 + v) / 2 + f3 * (a ^ 3 + 3 * a * v) / 6))
      - pr x * (J - (f x + f1 * h + f2 * (h ^ 2 + h) / 2 + f3 * (h ^ 3 + 3 * h * h) / 6))
      - pl x * (J' - (f x + f1 * (-h) + f2 * ((-h) ^ 2 + h) / 2 + f3 * ((-h) ^ 3 + 3 * (-h) * h) / 6))
      + f1 * (a - h * Real.tanh x) + f2 * (a ^ 2 + v - (h ^ 2 + h)) / 2
      + f3 * (a ^ 3 + 3 * a * v - Real.tanh x * (h ^ 3 + 3 * h * h)) / 6 := by
    rw [hB, ← hd]
    have hl : pl x = 1 - pr x := by linarith
    rw [hl]
    ring
  rw [key, show 60 * D ^ 4 * M * h ^ 2 = 60 * W by rw [hW]; ring]
  rw [abs_le] at E1' t1 t2 t3 t4 t5 ⊢
  constructor <;> linarith [E1'.1, E1'.2, t1.1, t1.2, t2.1, t2.2, t3.1, t3.2, t4.1, t4.2, t5.1, t5.2]

end Mfs.Benes

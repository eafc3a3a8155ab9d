import Verif.Spec.Benes
import Verif.Lemmas.NormalKernel
import Mathlib.Analysis.SpecialFunctions.Trigonometric.DerivHyp
import Mathlib.Analysis.SpecialFunctions.Sqrt

/-!
# The Beneš transition law is a mixture of two normal laws
-/

namespace Mfs.Benes

open Mfs.Spec Mfs.Converge MeasureTheory ProbabilityTheory Filter Topology
open scoped NNReal

/-- probability of drifting to the right. -/
noncomputable def pr (x : ℝ) : ℝ := Real.exp x / (2 * Real.cosh x)

/-- probability of drifting to the left. -/
noncomputable def pl (x : ℝ) : ℝ := Real.exp (-x) / (2 * Real.cosh x)

theorem pr_pos (x : ℝ) : 0 < pr x := div_pos (Real.exp_pos _) (mul_pos two_pos (Real.cosh_pos x))

theorem pl_pos (x : ℝ) : 0 < pl x := div_pos (Real.exp_pos _) (mul_pos two_pos (Real.cosh_pos x))

theorem pr_add_pl (x : ℝ) : pr x + pl x = 1 := by
  rw [pr, pl, ← add_div, div_eq_one_iff_eq (mul_pos two_pos (Real.cosh_pos x)).ne', Real.cosh_eq]
  ring

theorem pr_sub_pl (x : ℝ) : pr x - pl x = Real.tanh x := by
  rw [pr, pl, ← sub_div, Real.tanh_eq_sinh_div_cosh, Real.sinh_eq]
  field_simp

theorem continuous_pr : Continuous pr :=
  Real.continuous_exp.div (continuous_const.mul Real.continuous_cosh) fun x => (mul_pos two_pos (Real.cosh_pos x)).ne'

theorem continuous_pl : Continuous pl :=
  (Real.continuous_exp.comp continuous_neg).div (continuous_const.mul Real.continuous_cosh) fun x => (mul_pos two_pos (Real.cosh_pos x)).ne'

theorem hasDerivAt_tanh (x : ℝ) : HasDerivAt Real.tanh (1 - Real.tanh x ^ 2) x := by
  have h : HasDerivAt (fun x => Real.sinh x / Real.cosh x) _ x :=
    (Real.hasDerivAt_sinh x).div (Real.hasDerivAt_cosh x) (Real.cosh_pos x).ne'
  have e : Real.tanh = fun x => Real.sinh x / Real.cosh x := funext Real.tanh_eq_sinh_div_cosh
  rw [e]
  convert h using 1
  have := (Real.cosh_pos x).ne'
  field_simp

theorem hasDerivAt_pr (x : ℝ) : HasDerivAt pr (pr x * (1 - Real.tanh x)) x := by
  have h : HasDerivAt (fun x => Real.exp x / (2 * Real.cosh x)) _ x :=
    (Real.hasDerivAt_exp x).div ((Real.hasDerivAt_cosh x).const_mul 2) (mul_pos two_pos (Real.cosh_pos x)).ne'
  refine h.congr_deriv ?_
  rw [pr, Real.tanh_eq_sinh_div_cosh]
  have := (Real.cosh_pos x).ne'
  field_simp

theorem hasDerivAt_pl (x : ℝ) : HasDerivAt pl (pl x * (-1 - Real.tanh x)) x := by
  have h : HasDerivAt (fun x => Real.exp (-x) / (2 * Real.cosh x)) _ x :=
    ((hasDerivAt_neg x).exp).div ((Real.hasDerivAt_cosh x).const_mul 2) (mul_pos two_pos (Real.cosh_pos x)).ne'
  refine h.congr_deriv ?_
  rw [pl, Real.tanh_eq_sinh_div_cosh]
  have := (Real.cosh_pos x).ne'
  field_simp

theorem benesDens_pos {t : ℝ} (ht : 0 < t) (x y : ℝ) : 0 < benesDens t x y := by
  have := Real.cosh_pos x
  have := Real.cosh_pos y
  have := Real.pi_pos
  unfold benesDens
  positivity

theorem benesDens_eq {t : ℝ} (ht : 0 < t) (x y : ℝ) :
    benesDens t x y = pr x * gaussianPDFReal (x + t) t.toNNReal y + pl x * gaussianPDFReal (x - t) t.toNNReal y := by
  simp only [gaussianPDFReal, Real.coe_toNNReal _ ht.le, benesDens, pr, pl]
  have e1 : -(y - (x + t)) ^ 2 / (2 * t) = -(y - x) ^ 2 / (2 * t) + y + -x + -t / 2 := by
    field_simp
    ring
  have e2 : -(y - (x - t)) ^ 2 / (2 * t) = -(y - x) ^ 2 / (2 * t) + -y + x + -t / 2 := by
    field_simp
    ring
  rw [e1, e2]
  simp only [Real.exp_add]
  have hc := (Real.cosh_pos x).ne'
  have hm : Real.exp x * Real.exp (-x) = 1 := by rw [← Real.exp_add]; simp
  rw [Real.cosh_eq y]
  have : √(2 * Real.pi * t) ≠ 0 := by
    have := Real.pi_pos
    positivity
  field_simp
  linear_combination -hm

theorem measurable_benesDens (t : ℝ) : Measurable (Function.uncurry (benesDens t)) := by
  have := Real.continuous_cosh.measurable
  unfold benesDens Function.uncurry
  fun_prop

theorem benesKernel_apply {t : ℝ} (ht : 0 < t) (x : ℝ) : benesKernel t x
    = ENNReal.ofReal (pr x) • gaussianReal (x + t) t.toNNReal + ENNReal.ofReal (pl x) • gaussianReal (x - t) t.toNNReal := by
  have hv : t.toNNReal ≠ 0 := by rw [Ne, Real.toNNReal_eq_zero, not_le]; exact ht
  rw [benesKernel, Kernel.withDensity_apply _ (by exact ENNReal.measurable_ofReal.comp (measurable_benesDens t)), Kernel.const_apply,
    gaussianReal_of_var_ne_zero _ hv, gaussianReal_of_var_ne_zero _ hv, ← withDensity_smul _ (measurable_gaussianPDF _ _),
    ← withDensity_smul _ (measurable_gaussianPDF _ _), ← withDensity_add_left ((measurable_gaussianPDF _ _).const_smul _)]
  congr 1
  funext y
  rw [benesDens_eq ht, ENNReal.ofReal_add (mul_nonneg (pr_pos x).le (gaussianPDFReal_nonneg _ _ _))
    (mul_nonneg (pl_pos x).le (gaussianPDFReal_nonneg _ _ _)), ENNReal.ofReal_mul (pr_pos x).le, ENNReal.ofReal_mul (pl_pos x).le]
  rfl

theorem isMarkov_benesKernel {t : ℝ} (ht : 0 < t) : IsMarkovKernel (benesKernel t) := ⟨fun x => ⟨by
  rw [benesKernel_apply ht, Measure.add_apply, Measure.smul_apply, Measure.smul_apply, measure_univ, measure_univ, smul_eq_mul, smul_eq_mul,
    mul_one, mul_one, ← ENNReal.ofReal_add (pr_pos x).le (pl_pos x).le, pr_add_pl, ENNReal.ofReal_one]⟩⟩

theorem integral_benesKernel {t : ℝ} (ht : 0 < t) (x : ℝ) {f : ℝ → ℝ} (h1 : Integrable f (gaussianReal (x + t) t.toNNReal))
    (h2 : Integrable f (gaussianReal (x - t) t.toNNReal)) : Integrable f (benesKernel t x) ∧
    ∫ y, f y ∂benesKernel t x = pr x * (∫ y, f y ∂gaussianReal (x + t) t.toNNReal) + pl x * ∫ y, f y ∂gaussianReal (x - t) t.toNNReal := by
  have k1 := h1.smul_measure (c := ENNReal.ofReal (pr x)) ENNReal.ofReal_ne_top
  have k2 := h2.smul_measure (c := ENNReal.ofReal (pl x)) ENNReal.ofReal_ne_top
  rw [benesKernel_apply ht]
  refine ⟨k1.add_measure k2, ?_⟩
  rw [integral_add_measure k1 k2, integral_smul_measure, integral_smul_measure, ENNReal.toReal_ofReal (pr_pos x).le,
    ENNReal.toReal_ofReal (pl_pos x).le, smul_eq_mul, smul_eq_mul]

/-- the forward equation. -/
theorem benesDens_forward {t : ℝ} (ht : 0 < t) (x y : ℝ) :
    HasDerivAt (fun s => benesDens s x y)
      (-deriv (fun z => Real.tanh z * benesDens t x z) y + 1 / 2 * deriv (deriv fun z => benesDens t x z) y) t := by
  set q := benesDens t x y with hq
  have hcx := (Real.cosh_pos x).ne'
  have hcy := (Real.cosh_pos y).ne'
  -- derivative in the state
  have d1 : ∀ z, HasDerivAt (fun z => benesDens t x z) (benesDens t x z * (Real.tanh z - (z - x) / t)) z := by
    intro z
    have h1 : HasDerivAt (fun z => Real.exp (-(z - x) ^ 2 / (2 * t))) (Real.exp (-(z - x) ^ 2 / (2 * t)) * (-(2 * (z - x)) / (2 * t))) z := by
      have : HasDerivAt (fun z => -(z - x) ^ 2 / (2 * t)) (-(2 * (z - x)) / (2 * t)) z := by
        have := ((((hasDerivAt_id z).sub_const x).pow 2).neg).div_const (2 * t)
        refine this.congr_deriv ?_
        simp
      exact this.exp
    have h2 := ((((Real.hasDerivAt_cosh z).div_const (Real.cosh x)).mul_const (Real.exp (-t / 2))).mul
      (h1.div_const (√(2 * Real.pi * t))))
    refine h2.congr_deriv ?_
    rw [Real.tanh_eq_sinh_div_cosh, benesDens]
    have := (Real.cosh_pos z).ne'
    field_simp
    ring
  have e1 : deriv (fun z => benesDens t x z) = fun z => benesDens t x z * (Real.tanh z - (z - x) / t) := funext fun z => (d1 z).deriv
  have d2 : HasDerivAt (fun z => benesDens t x z * (Real.tanh z - (z - x) / t))
      (q * (Real.tanh y - (y - x) / t) * (Real.tanh y - (y - x) / t) + q * (1 - Real.tanh y ^ 2 - 1 / t)) y := by
    have := (d1 y).mul ((hasDerivAt_tanh y).sub (((hasDerivAt_id y).sub_const x).div_const t))
    exact this
  have d3 : HasDerivAt (fun z => Real.tanh z * benesDens t x z) ((1 - Real.tanh y ^ 2) * q + Real.tanh y * (q * (Real.tanh y - (y - x) / t))) y :=
    (hasDerivAt_tanh y).mul (d1 y)
  rw [e1, d2.deriv, d3.deriv]
  -- derivative in time
  have hpi := Real.pi_pos
  have s0 : (2 * Real.pi * t) ≠ 0 := by positivity
  have s1 : √(2 * Real.pi * t) ≠ 0 := by positivity
  have t1 : HasDerivAt (fun s : ℝ => √(2 * Real.pi * s)) (2 * Real.pi / (2 * √(2 * Real.pi * t))) t := by
    have := ((hasDerivAt_id t).const_mul (2 * Real.pi)).sqrt s0
    simpa using this
  have t2 : HasDerivAt (fun s : ℝ => Real.exp (-(y - x) ^ 2 / (2 * s))) (Real.exp (-(y - x) ^ 2 / (2 * t)) * ((y - x) ^ 2 / (2 * t ^ 2))) t := by
    have : HasDerivAt (fun s : ℝ => -(y - x) ^ 2 / (2 * s)) ((y - x) ^ 2 / (2 * t ^ 2)) t := by
      have := (hasDerivAt_const t (-(y - x) ^ 2)).div ((hasDerivAt_id t).const_mul 2) (by simp; positivity)
      refine this.congr_deriv ?_
      simp
      field_simp
    exact this.exp
  have t3 : HasDerivAt (fun s : ℝ => Real.exp (-s / 2)) (Real.exp (-t / 2) * (-1 / 2)) t :=
    (((hasDerivAt_id t).neg).div_const 2).exp
  have t4 := (t3.const_mul (Real.cosh y / Real.cosh x)).mul (t2.div t1 s1)
  refine t4.congr_deriv ?_
  simp only [Pi.div_apply]
  have hsq : √(2 * Real.pi * t) ^ 2 = 2 * Real.pi * t := Real.sq_sqrt (by positivity)
  rw [hq, benesDens]
  generalize √(2 * Real.pi * t) = r at s1 hsq
  generalize Real.exp (-(y - x) ^ 2 / (2 * t)) = u
  generalize Real.exp (-t / 2) = w
  generalize Real.tanh y = T
  have hpi2 : Real.pi = r ^ 2 / (2 * t) := by field_simp; linarith
  rw [hpi2]
  field_simp
  ring

/-- the law starts at the conditioning state. -/
theorem benesKernel_initial (x : ℝ) {f : ℝ → ℝ} (hf : Continuous f) {G : ℝ} (hG : ∀ y, |f y| ≤ G) :
    Tendsto (fun t => ∫ y, f y ∂benesKernel t x) (𝓝[>] 0) (𝓝 (f x)) := by
  have key : ∀ c : ℝ, Tendsto (fun t : ℝ => ∫ y, f y ∂gaussianReal (x + c * t) t.toNNReal) (𝓝[>] 0) (𝓝 (f x)) := by
    intro c
    have e : ∀ t : ℝ, ∫ y, f y ∂gaussianReal (x + c * t) t.toNNReal = ∫ z, f (√t * z + (x + c * t)) ∂gaussianReal 0 1 := by
      intro t
      have h := gaussianReal_map_const_mul (μ := 0) (v := 1) (√t)
      have h2 := gaussianReal_map_add_const (μ := 0) (v := t.toNNReal) (x + c * t)
      have hs : NNReal.mk (√t ^ 2) (sq_nonneg _) * 1 = t.toNNReal := by
        rw [mul_one]
        ext
        simp only [NNReal.coe_mk, Real.coe_toNNReal']
        rcases le_total 0 t with h | h
        · rw [Real.sq_sqrt h, max_eq_left h]
        · rw [Real.sqrt_eq_zero_of_nonpos h, max_eq_right h]; simp
      rw [hs, mul_zero] at h
      rw [zero_add, ← h, Measure.map_map (by fun_prop) (by fun_prop)] at h2
      rw [← h2, integral_map (by fun_prop) hf.aestronglyMeasurable]
      rfl
    simp only [e]
    have hx : f x = ∫ _z : ℝ, f x ∂gaussianReal 0 1 := by simp
    rw [hx]
    refine tendsto_integral_filter_of_dominated_convergence (fun _ => G) ?_ ?_ (integrable_const _) ?_
    · exact Eventually.of_forall fun t => (hf.comp (by fun_prop)).aestronglyMeasurable
    · exact Eventually.of_forall fun t => Eventually.of_forall fun z => by rw [Real.norm_eq_abs]; exact hG _
    · refine Eventually.of_forall fun z => ?_
      have : Tendsto (fun t : ℝ => √t * z + (x + c * t)) (𝓝[>] 0) (𝓝 x) := by
        have h : Continuous fun t : ℝ => √t * z + (x + c * t) := by fun_prop
        have := h.tendsto 0
        simp only [Real.sqrt_zero, zero_mul, mul_zero, add_zero, zero_add] at this
        exact this.mono_left nhdsWithin_le_nhds
      exact (hf.tendsto x).comp this
  have hint : ∀ m (v : ℝ≥0), Integrable f (gaussianReal m v) := fun m v =>
    Integrable.of_bound hf.aestronglyMeasurable G (Eventually.of_forall fun y => by rw [Real.norm_eq_abs]; exact hG y)
  have h := ((key 1).const_mul (pr x)).add ((key (-1)).const_mul (pl x))
  rw [← add_mul, pr_add_pl, one_mul] at h
  refine h.congr' ?_
  filter_upwards [self_mem_nhdsWithin] with t ht
  rw [(integral_benesKernel ht x (hint _ _) (hint _ _)).2]
  simp [sub_eq_add_neg]

theorem goodKernel_benes {t : ℝ} (ht : 0 < t) : GoodKernel (benesKernel t) := by
  have hv : t.toNNReal ≠ 0 := by rw [Ne, Real.toNNReal_eq_zero, not_le]; exact ht
  have g : ∀ c : ℝ, |c| ≤ t → GoodKernel (normalKernel (fun x => x + c) (fun _ => t.toNNReal) (by fun_prop) (by fun_prop)) := fun c hc =>
    goodKernel_normal (by fun_prop) (by fun_prop) (fun _ => hv) (A := 1 + t)
      (fun x => (abs_add_le _ _).trans (by nlinarith [abs_nonneg x]))
      (fun x => by rw [Real.coe_toNNReal _ ht.le]; nlinarith [abs_nonneg x])
  have g1 := g t (by rw [abs_of_pos ht])
  have g2 := g (-t) (by rw [abs_neg, abs_of_pos ht])
  have i1 : ∀ x (k : ℕ), Integrable (fun z : ℝ => z ^ k) (gaussianReal (x + t) t.toNNReal) := fun x k => integrable_pow_gaussianReal _ _ k
  have i2 : ∀ x (k : ℕ), Integrable (fun z : ℝ => z ^ k) (gaussianReal (x - t) t.toNNReal) := fun x k => integrable_pow_gaussianReal _ _ k
  have em : ∀ k : ℕ, (fun x => ∫ z, z ^ k ∂benesKernel t x) = fun x =>
      pr x * (∫ z, z ^ k ∂gaussianReal (x + t) t.toNNReal) + pl x * ∫ z, z ^ k ∂gaussianReal (x - t) t.toNNReal :=
    fun k => funext fun x => (integral_benesKernel ht x (i1 x k) (i2 x k)).2
  have p1 : PolyGrowth pr := ⟨1, 0, fun x => by
    rw [abs_of_pos (pr_pos x)]; have := pr_add_pl x; have := pl_pos x; simp; linarith⟩
  have p2 : PolyGrowth pl := ⟨1, 0, fun x => by
    rw [abs_of_pos (pl_pos x)]; have := pr_add_pl x; have := pr_pos x; simp; linarith⟩
  refine ⟨fun c => ?_, fun k => ?_, fun k => ?_, fun x s h => ?_⟩
  · obtain ⟨C1, c1, h1⟩ := g1.exp c
    obtain ⟨C2, c2, h2⟩ := g2.exp c
    refine ⟨|C1| + |C2|, max c1 c2, fun x => ?_⟩
    obtain ⟨a1, b1⟩ := h1 x
    obtain ⟨a2, b2⟩ := h2 x
    obtain ⟨k1, k2⟩ := integral_benesKernel ht x a1 (by rw [sub_eq_add_neg]; exact a2)
    refine ⟨k1, ?_⟩
    rw [k2]
    have m1 : C1 * Real.exp (c1 * |x|) ≤ |C1| * Real.exp (max c1 c2 * |x|) :=
      mul_le_mul (le_abs_self _) (Real.exp_le_exp.2 (mul_le_mul_of_nonneg_right (le_max_left _ _) (abs_nonneg _))) (Real.exp_pos _).le (abs_nonneg _)
    have m2 : C2 * Real.exp (c2 * |x|) ≤ |C2| * Real.exp (max c1 c2 * |x|) :=
      mul_le_mul (le_abs_self _) (Real.exp_le_exp.2 (mul_le_mul_of_nonneg_right (le_max_right _ _) (abs_nonneg _))) (Real.exp_pos _).le (abs_nonneg _)
    have n1 : pr x ≤ 1 := by have := pr_add_pl x; have := pl_pos x; linarith
    have n2 : pl x ≤ 1 := by have := pr_add_pl x; have := pr_pos x; linarith
    have z1 : 0 ≤ |C1| * Real.exp (max c1 c2 * |x|) := by positivity
    have z2 : 0 ≤ |C2| * Real.exp (max c1 c2 * |x|) := by positivity
    have w1 : pr x * (∫ y, Real.exp (c * y) ∂gaussianReal (x + t) t.toNNReal) ≤ |C1| * Real.exp (max c1 c2 * |x|) :=
      (mul_le_mul_of_nonneg_left (b1.trans m1) (pr_pos x).le).trans (mul_le_of_le_one_left z1 n1)
    have w2 : pl x * (∫ y, Real.exp (c * y) ∂gaussianReal (x - t) t.toNNReal) ≤ |C2| * Real.exp (max c1 c2 * |x|) :=
      (mul_le_mul_of_nonneg_left (by rw [sub_eq_add_neg]; exact b2.trans m2) (pl_pos x).le).trans (mul_le_of_le_one_left z2 n2)
    rw [add_mul]
    exact add_le_add w1 w2
  · rw [em]
    exact (continuous_pr.mul (g1.cont k)).add (continuous_pl.mul (by simp only [sub_eq_add_neg]; exact g2.cont k))
  · rw [em]
    exact (p1.mul (g1.growth k)).add (p2.mul (by simp only [sub_eq_add_neg]; exact g2.growth k))
  · rw [benesKernel_apply ht, Measure.add_apply, Measure.smul_apply, smul_eq_mul, add_eq_zero, mul_eq_zero] at h
    rcases h.1 with h | h
    · rw [ENNReal.ofReal_eq_zero] at h
      linarith [pr_pos x]
    · exact gaussianReal_inf _ hv s h

end Mfs.Benes

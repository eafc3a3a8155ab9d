import Verif.Lemmas.GridConv

/-!
# Integral operators with a transition density, on the line and on intervals
-/

namespace Mfs.GridConv

open MeasureTheory Filter Topology Set

/-- A continuous bounded transition density: `k x u` is the density at `x` given `u`. -/
structure TransDens (k : ℝ → ℝ → ℝ) (C : ℝ) : Prop where
  cont : Continuous (Function.uncurry k)
  nonneg : ∀ x u, 0 ≤ k x u
  le : ∀ x u, k x u ≤ C
  int : ∀ u, Integrable fun x => k x u
  one : ∀ u, ∫ x, k x u = 1

/-- `∫ k(x, u) f(u) μ(du)`. -/
noncomputable def op (k : ℝ → ℝ → ℝ) (μ : Measure ℝ) (f : ℝ → ℝ) (x : ℝ) : ℝ := ∫ u, k x u * f u ∂μ

section op

variable {k : ℝ → ℝ → ℝ} {C : ℝ} (hk : TransDens k C) {μ : Measure ℝ} {f g : ℝ → ℝ}
include hk

theorem TransDens.C_nonneg : 0 ≤ C := (hk.nonneg 0 0).trans (hk.le 0 0)

theorem TransDens.cont_right (x : ℝ) : Continuous (k x) := hk.cont.comp (continuous_const.prodMk continuous_id)

theorem TransDens.cont_left (u : ℝ) : Continuous fun x => k x u := hk.cont.comp (continuous_id.prodMk continuous_const)

theorem op_integrable (hf : Integrable f μ) (x : ℝ) : Integrable (fun u => k x u * f u) μ := by
  refine hf.bdd_mul (c := C) (hk.cont_right x).aestronglyMeasurable (Eventually.of_forall fun u => ?_)
  rw [Real.norm_eq_abs, abs_of_nonneg (hk.nonneg x u)]
  exact hk.le x u

theorem op_continuous (hf : Integrable f μ) : Continuous (op k μ f) := by
  refine continuous_of_dominated (bound := fun u => C * ‖f u‖) (fun x => (op_integrable hk hf x).aestronglyMeasurable)
    (fun x => Eventually.of_forall fun u => ?_) (hf.norm.const_mul C) (Eventually.of_forall fun u => (hk.cont_left u).mul continuous_const)
  rw [norm_mul, Real.norm_eq_abs, abs_of_nonneg (hk.nonneg x u)]
  exact mul_le_mul_of_nonneg_right (hk.le x u) (norm_nonneg _)

theorem op_nonneg (hf : ∀ u, 0 ≤ f u) (x : ℝ) : 0 ≤ op k μ f x := integral_nonneg fun u => mul_nonneg (hk.nonneg x u) (hf u)

theorem op_le (hf : Integrable f μ) (hf0 : ∀ u, 0 ≤ f u) (x : ℝ) : op k μ f x ≤ C * ∫ u, f u ∂μ := by
  rw [op, ← integral_const_mul]
  exact integral_mono (op_integrable hk hf x) (hf.const_mul C) fun u => mul_le_mul_of_nonneg_right (hk.le x u) (hf0 u)

theorem op_sub (hf : Integrable f μ) (hg : Integrable g μ) (x : ℝ) : op k μ f x - op k μ g x = op k μ (fun u => f u - g u) x := by
  simp only [op, mul_sub]
  exact (integral_sub (op_integrable hk hf x) (op_integrable hk hg x)).symm

theorem op_prod_integrable [SFinite μ] (hfm : Integrable f μ) :
    Integrable (fun z : ℝ × ℝ => k z.1 z.2 * f z.2) (volume.prod μ) := by
  have hmeas : AEStronglyMeasurable (fun z : ℝ × ℝ => k z.1 z.2 * f z.2) (volume.prod μ) :=
    (hk.cont.aestronglyMeasurable).mul hfm.aestronglyMeasurable.comp_snd
  rw [integrable_prod_iff' hmeas]
  refine ⟨Eventually.of_forall fun u => (hk.int u).mul_const (f u), ?_⟩
  have e : (fun u => ∫ x, ‖k x u * f u‖) = fun u => ‖f u‖ := by
    funext u
    have : ∀ x, ‖k x u * f u‖ = k x u * ‖f u‖ := fun x => by
      rw [norm_mul, Real.norm_eq_abs, abs_of_nonneg (hk.nonneg x u)]
    simp only [this]
    rw [integral_mul_const, hk.one, one_mul]
  simp only [e]
  exact hfm.norm

theorem op_integrable_out [SFinite μ] (hf : Integrable f μ) : Integrable (op k μ f) := (op_prod_integrable hk hf).integral_prod_left

theorem op_integral [SFinite μ] (hf : Integrable f μ) : ∫ x, op k μ f x = ∫ u, f u ∂μ := by
  simp only [op]
  rw [integral_integral_swap (op_prod_integrable hk hf)]
  refine integral_congr_ae (Eventually.of_forall fun u => ?_)
  beta_reduce
  rw [integral_mul_const, hk.one, one_mul]

end op

/-- duality: `∫ h(x) (op f)(x) dx = ∫ f(u) (∫ h(x) k(x, u) dx) du`. -/
theorem op_dual {k : ℝ → ℝ → ℝ} {μ : Measure ℝ} {f : ℝ → ℝ} [SFinite μ] {h : ℝ → ℝ}
    (hm : Integrable (fun z : ℝ × ℝ => h z.1 * (k z.1 z.2 * f z.2)) (volume.prod μ)) :
    ∫ x, h x * op k μ f x = ∫ u, (∫ x, k x u * h x) * f u ∂μ := by
  simp only [op, ← integral_const_mul]
  rw [integral_integral_swap hm]
  refine integral_congr_ae (Eventually.of_forall fun u => ?_)
  beta_reduce
  rw [← integral_mul_const]
  exact integral_congr_ae (Eventually.of_forall fun x => by beta_reduce; ring)

/-- long intervals. -/
abbrev long : Filter (ℝ × ℝ) := atBot ×ˢ atTop

theorem eventually_long_le : ∀ᶠ ab in long, ab.1 ≤ ab.2 := by
  have h1 : ∀ᶠ ab in long, ab.1 ≤ 0 := (eventually_le_atBot 0).prod_inl _
  have h2 : ∀ᶠ ab in long, 0 ≤ ab.2 := (eventually_ge_atTop 0).prod_inr _
  filter_upwards [h1, h2] with ab h1 h2 using h1.trans h2

theorem eventually_long_mem (x : ℝ) : ∀ᶠ ab in long, x ∈ Ioc ab.1 ab.2 := by
  have h1 : ∀ᶠ ab in long, ab.1 < x := (eventually_lt_atBot x).prod_inl _
  have h2 : ∀ᶠ ab in long, x ≤ ab.2 := (eventually_ge_atTop x).prod_inr _
  filter_upwards [h1, h2] with ab h1 h2 using ⟨h1, h2⟩

/-- the restriction of a function to an interval. -/
noncomputable def cut (ab : ℝ × ℝ) (f : ℝ → ℝ) : ℝ → ℝ := (Ioc ab.1 ab.2).indicator f

theorem cut_mem {ab : ℝ × ℝ} {f : ℝ → ℝ} {x : ℝ} (hx : x ∈ Ioc ab.1 ab.2) : cut ab f x = f x := indicator_of_mem hx f

theorem cut_notMem {ab : ℝ × ℝ} {f : ℝ → ℝ} {x : ℝ} (hx : x ∉ Ioc ab.1 ab.2) : cut ab f x = 0 := indicator_of_notMem hx f

/-- `A ab` is a lower approximation of `α` on the interval `ab`, better and better on long intervals. -/
structure Close (A : ℝ × ℝ → ℝ → ℝ) (α : ℝ → ℝ) : Prop where
  contA : ∀ ab, Continuous (A ab)
  cont : Continuous α
  nonneg : ∀ ab x, 0 ≤ A ab x
  le : ∀ ab x, A ab x ≤ α x
  int : Integrable α
  bdd : ∃ D, ∀ x, α x ≤ D
  mass : Tendsto (fun ab => ∫ x, (α x - cut ab (A ab) x)) long (𝓝 0)
  unif : ∀ ε > 0, ∀ᶠ ab in long, ∀ x, α x - A ab x ≤ ε

variable {A : ℝ × ℝ → ℝ → ℝ} {α : ℝ → ℝ}

theorem Close.pos (h : Close A α) (x : ℝ) : 0 ≤ α x := (h.nonneg (0, 0) x).trans (h.le _ x)

theorem Close.intA (h : Close A α) (ab : ℝ × ℝ) : Integrable (A ab) :=
  h.int.mono (h.contA ab).aestronglyMeasurable (Eventually.of_forall fun x => by
    rw [Real.norm_eq_abs, Real.norm_eq_abs, abs_of_nonneg (h.nonneg ab x), abs_of_nonneg (h.pos x)]
    exact h.le ab x)

theorem Close.int_cut (h : Close A α) (ab : ℝ × ℝ) : Integrable (cut ab (A ab)) := (h.intA ab).indicator measurableSet_Ioc

theorem Close.cut_le (h : Close A α) (ab : ℝ × ℝ) (x : ℝ) : 0 ≤ cut ab (A ab) x ∧ cut ab (A ab) x ≤ α x := by
  rw [cut, indicator_apply]
  split_ifs
  · exact ⟨h.nonneg ab x, h.le ab x⟩
  · exact ⟨le_rfl, h.pos x⟩

/-- the integral of a tail. -/
theorem tendsto_tail {f : ℝ → ℝ} (hf : Integrable f) : Tendsto (fun ab => ∫ x, (f x - cut ab f x)) long (𝓝 0) := by
  have h := tendsto_integral_filter_of_dominated_convergence (μ := volume) (l := long) (F := fun ab x => f x - cut ab f x) (f := fun _ => 0)
    (fun x => ‖f x‖) (Eventually.of_forall fun ab => (hf.sub (hf.indicator measurableSet_Ioc)).aestronglyMeasurable)
    (Eventually.of_forall fun ab => Eventually.of_forall fun x => ?_) hf.norm (Eventually.of_forall fun x => ?_)
  · simpa using h
  · rw [cut, indicator_apply]
    split_ifs
    · simp
    · simp
  · refine tendsto_const_nhds.congr' ?_
    filter_upwards [eventually_long_mem x] with ab hab
    rw [cut, indicator_of_mem hab, sub_self]

theorem close_self {f : ℝ → ℝ} (hc : Continuous f) (h0 : ∀ x, 0 ≤ f x) (hf : Integrable f) (hb : ∃ D, ∀ x, f x ≤ D) : Close (fun _ => f) f :=
  ⟨fun _ => hc, hc, fun _ => h0, fun _ _ => le_rfl, hf, hb, tendsto_tail hf, fun ε hε => Eventually.of_forall fun ab x => by simp [hε.le]⟩

theorem Close.mul (h : Close A α) {g : ℝ → ℝ} (hg : Continuous g) (hg0 : ∀ x, 0 ≤ g x) {M : ℝ} (hM : ∀ x, g x ≤ M) :
    Close (fun ab x => g x * A ab x) fun x => g x * α x := by
  have hM0 : 0 ≤ M := (hg0 0).trans (hM 0)
  have hcut : ∀ ab x, cut ab (fun x => g x * A ab x) x = g x * cut ab (A ab) x := fun ab x => by
    simp only [cut, indicator_apply]
    split_ifs <;> simp
  refine ⟨fun ab => hg.mul (h.contA ab), hg.mul h.cont, fun ab x => mul_nonneg (hg0 x) (h.nonneg ab x),
    fun ab x => mul_le_mul_of_nonneg_left (h.le ab x) (hg0 x), ?_, ?_, ?_, ?_⟩
  · refine h.int.bdd_mul (c := M) hg.aestronglyMeasurable (Eventually.of_forall fun x => ?_)
    rw [Real.norm_eq_abs, abs_of_nonneg (hg0 x)]
    exact hM x
  · obtain ⟨D, hD⟩ := h.bdd
    exact ⟨M * D, fun x => mul_le_mul (hM x) (hD x) (h.pos x) hM0⟩
  · have h1 : Tendsto (fun ab => M * ∫ x, (α x - cut ab (A ab) x)) long (𝓝 0) := by simpa using h.mass.const_mul M
    refine squeeze_zero (fun ab => integral_nonneg fun x => ?_) (fun ab => ?_) h1
    · rw [Pi.zero_apply, hcut, ← mul_sub]
      exact mul_nonneg (hg0 x) (sub_nonneg.2 (h.cut_le ab x).2)
    · rw [← integral_const_mul]
      refine integral_mono_of_nonneg (Eventually.of_forall fun x => ?_) ((h.int.sub (h.int_cut ab)).const_mul M)
        (Eventually.of_forall fun x => ?_)
      · simp only [Pi.zero_apply]
        rw [hcut, ← mul_sub]
        exact mul_nonneg (hg0 x) (sub_nonneg.2 (h.cut_le ab x).2)
      · simp only
        rw [hcut, ← mul_sub]
        exact mul_le_mul_of_nonneg_right (hM x) (sub_nonneg.2 (h.cut_le ab x).2)
  · intro ε hε
    filter_upwards [h.unif (ε / (M + 1)) (by positivity)] with ab hab x
    rw [← mul_sub]
    have h1 : 0 ≤ α x - A ab x := sub_nonneg.2 (h.le ab x)
    calc g x * (α x - A ab x) ≤ (M + 1) * (ε / (M + 1)) := mul_le_mul ((hM x).trans (by linarith)) (hab x) h1 (by linarith)
      _ = ε := by field_simp

theorem Close.apply_op {k : ℝ → ℝ → ℝ} {C : ℝ} (hk : TransDens k C) (h : Close A α) :
    Close (fun ab => op k (volume.restrict (Ioc ab.1 ab.2)) (A ab)) (op k volume α) := by
  have hcut : ∀ ab, op k (volume.restrict (Ioc ab.1 ab.2)) (A ab) = op k volume (cut ab (A ab)) := by
    intro ab
    funext x
    simp only [op]
    rw [← integral_indicator measurableSet_Ioc]
    refine integral_congr_ae (Eventually.of_forall fun u => ?_)
    simp only [cut, indicator_apply]
    split_ifs <;> simp
  simp only [hcut]
  have hδ : ∀ ab x, op k volume α x - op k volume (cut ab (A ab)) x
      = op k volume (fun u => α u - cut ab (A ab) u) x := fun ab x => op_sub hk h.int (h.int_cut ab) x
  have hδ0 : ∀ ab u, 0 ≤ α u - cut ab (A ab) u := fun ab u => sub_nonneg.2 (h.cut_le ab u).2
  have hδi : ∀ ab, Integrable fun u => α u - cut ab (A ab) u := fun ab => h.int.sub (h.int_cut ab)
  have hle : ∀ ab x, op k volume (cut ab (A ab)) x ≤ op k volume α x := fun ab x => by
    rw [← sub_nonneg, hδ]
    exact op_nonneg hk (hδ0 ab) x
  refine ⟨fun ab => op_continuous hk (h.int_cut ab), op_continuous hk h.int, fun ab => op_nonneg hk fun u => (h.cut_le ab u).1,
    hle, op_integrable_out hk h.int, ⟨_, op_le hk h.int h.pos⟩, ?_, ?_⟩
  · have h1 := h.mass.add (tendsto_tail (op_integrable_out hk h.int))
    rw [add_zero] at h1
    have hi : ∀ ab, Integrable (op k volume (cut ab (A ab))) := fun ab => op_integrable_out hk (h.int_cut ab)
    refine squeeze_zero (fun ab => integral_nonneg fun x => ?_) (fun ab => ?_) h1
    · simp only [Pi.zero_apply, cut, indicator_apply]
      split_ifs
      · exact sub_nonneg.2 (hle ab x)
      · rw [sub_zero]; exact op_nonneg hk h.pos x
    · have i1 : Integrable fun x => op k volume (fun u => α u - cut ab (A ab) u) x := op_integrable_out hk (hδi ab)
      have i2 : Integrable fun x => op k volume α x - cut ab (op k volume α) x :=
        (op_integrable_out hk h.int).sub ((op_integrable_out hk h.int).indicator measurableSet_Ioc)
      have i3 : Integrable fun x => op k volume α x - cut ab (op k volume (cut ab (A ab))) x :=
        (op_integrable_out hk h.int).sub ((hi ab).indicator measurableSet_Ioc)
      rw [← op_integral hk (hδi ab), ← integral_add i1 i2]
      refine integral_mono i3 (i1.add i2) fun x => ?_
      beta_reduce
      rw [← hδ ab x]
      have hl := hle ab x
      by_cases hx : x ∈ Ioc ab.1 ab.2
      · rw [cut_mem hx, cut_mem hx]
        linarith
      · rw [cut_notMem hx, cut_notMem hx]
        linarith
  · intro ε hε
    have hC := hk.C_nonneg
    have h1 : Tendsto (fun ab => C * ∫ x, (α x - cut ab (A ab) x)) long (𝓝 0) := by simpa using h.mass.const_mul C
    filter_upwards [h1.eventually (eventually_le_nhds hε)] with ab hab x
    rw [hδ]
    exact (op_le hk (hδi ab) (hδ0 ab) x).trans hab

end Mfs.GridConv

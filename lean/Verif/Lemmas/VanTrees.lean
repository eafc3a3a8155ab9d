import Mathlib.Analysis.Calculus.LineDeriv.IntegrationByParts
import Mathlib.Analysis.SpecialFunctions.ExpDeriv
import Mathlib.Algebra.QuadraticDiscriminant
import Mathlib.MeasureTheory.Integral.Prod
import Mathlib.MeasureTheory.Measure.Lebesgue.EqHaar

/-!
# The van Trees inequality along one direction
-/

namespace Mfs.VanTrees

open MeasureTheory Filter Topology

variable {E Y : Type} [NormedAddCommGroup E] [NormedSpace ℝ E] [FiniteDimensional ℝ E] [MeasurableSpace E] [BorelSpace E]
  [MeasurableSpace Y]

omit [FiniteDimensional ℝ E] in
/-- line derivatives are measurable. -/
theorem measurable_line {ℓ ℓ1 : E → Y → ℝ} {v : E} (hm : Measurable fun z : E × Y => ℓ z.1 z.2)
    (h : ∀ x y, HasLineDerivAt ℝ (fun x => ℓ x y) (ℓ1 x y) x v) : Measurable fun z : E × Y => ℓ1 z.1 z.2 := by
  have hadd : ∀ t : ℝ, Measurable fun z : E × Y => ℓ (z.1 + t • v) z.2 := fun t =>
    hm.comp ((Continuous.measurable (by fun_prop : Continuous fun x : E => x + t • v)).comp measurable_fst |>.prodMk measurable_snd)
  refine measurable_of_tendsto_metrizable
    (f := fun (n : ℕ) (z : E × Y) => ((1 : ℝ) / ((n : ℝ) + 1))⁻¹ • (ℓ (z.1 + ((1 : ℝ) / ((n : ℝ) + 1)) • v) z.2 - ℓ z.1 z.2)) ?_ ?_
  · intro n
    simp only [smul_eq_mul]
    exact measurable_const.mul ((hadd _).sub hm)
  · rw [tendsto_pi_nhds]
    intro z
    have h1 := (h z.1 z.2).tendsto_slope_zero
    have h2 : Tendsto (fun n : ℕ => (1 : ℝ) / ((n : ℝ) + 1)) atTop (𝓝[≠] 0) :=
      tendsto_nhdsWithin_iff.2 ⟨tendsto_one_div_add_atTop_nhds_zero_nat, Eventually.of_forall fun n => by
        have : (0 : ℝ) < 1 / ((n : ℝ) + 1) := Nat.one_div_pos_of_nat
        exact this.ne'⟩
    exact h1.comp h2

/-- integration by parts in the presence of a parameter. -/
theorem integral_parts (μ : Measure E) [μ.IsAddHaarMeasure] [SFinite μ] (η : Measure Y) [SFinite η] {f f' g g' : E → Y → ℝ} {v : E}
    (hf : ∀ x y, HasLineDerivAt ℝ (fun x => f x y) (f' x y) x v) (hg : ∀ x y, HasLineDerivAt ℝ (fun x => g x y) (g' x y) x v)
    (h1 : Integrable (fun z : E × Y => f' z.1 z.2 * g z.1 z.2) (μ.prod η)) (h2 : Integrable (fun z : E × Y => f z.1 z.2 * g' z.1 z.2) (μ.prod η))
    (h3 : Integrable (fun z : E × Y => f z.1 z.2 * g z.1 z.2) (μ.prod η)) :
    ∫ z, f z.1 z.2 * g' z.1 z.2 ∂(μ.prod η) = -∫ z, f' z.1 z.2 * g z.1 z.2 ∂(μ.prod η) := by
  rw [integral_prod_symm _ h2, integral_prod_symm _ h1, ← integral_neg]
  refine integral_congr_ae ?_
  filter_upwards [h1.prod_left_ae, h2.prod_left_ae, h3.prod_left_ae] with y a1 a2 a3
  exact integral_bilinear_hasLineDerivAt_right_eq_neg_left_of_integrable (B := ContinuousLinearMap.mul ℝ ℝ) a1 a2 a3
    (fun x _ => hf x y) (fun x _ => hg x y)

theorem integrable_mul_of_sq {Ω : Type} [MeasurableSpace Ω] {μ : Measure Ω} {p a b : Ω → ℝ} (hp : ∀ x, 0 ≤ p x)
    (hm : AEStronglyMeasurable (fun x => p x * (a x * b x)) μ) (ha : Integrable (fun x => p x * a x ^ 2) μ)
    (hb : Integrable (fun x => p x * b x ^ 2) μ) : Integrable (fun x => p x * (a x * b x)) μ := by
  refine (ha.add hb).mono' hm (Eventually.of_forall fun x => ?_)
  rw [Real.norm_eq_abs, abs_mul, abs_of_nonneg (hp x), Pi.add_apply, ← mul_add]
  refine mul_le_mul_of_nonneg_left ?_ (hp x)
  rw [abs_mul]
  nlinarith [sq_nonneg (|a x| - |b x|), sq_abs (a x), sq_abs (b x), sq_nonneg (a x), sq_nonneg (b x)]

/-- Cauchy-Schwarz with a weight. -/
theorem cauchy_schwarz {Ω : Type} [MeasurableSpace Ω] {μ : Measure Ω} {p a b : Ω → ℝ} (hp : ∀ x, 0 ≤ p x)
    (ha : Integrable (fun x => p x * a x ^ 2) μ) (hb : Integrable (fun x => p x * b x ^ 2) μ)
    (hab : Integrable (fun x => p x * (a x * b x)) μ) :
    (∫ x, p x * (a x * b x) ∂μ) ^ 2 ≤ (∫ x, p x * a x ^ 2 ∂μ) * ∫ x, p x * b x ^ 2 ∂μ := by
  set A := ∫ x, p x * a x ^ 2 ∂μ with hA
  set B := ∫ x, p x * (a x * b x) ∂μ with hB
  set C := ∫ x, p x * b x ^ 2 ∂μ with hC
  have h : ∀ t : ℝ, 0 ≤ C * (t * t) + (2 * B) * t + A := by
    intro t
    have h0 : 0 ≤ ∫ x, p x * (a x + t * b x) ^ 2 ∂μ := integral_nonneg fun x => mul_nonneg (hp x) (sq_nonneg _)
    have e : ∀ x, p x * (a x + t * b x) ^ 2 = p x * a x ^ 2 + (2 * t * (p x * (a x * b x)) + t ^ 2 * (p x * b x ^ 2)) := fun x => by ring
    simp only [e] at h0
    have hi : Integrable (fun x => 2 * t * (p x * (a x * b x)) + t ^ 2 * (p x * b x ^ 2)) μ := (hab.const_mul _).add (hb.const_mul _)
    rw [integral_add ha hi, integral_add (hab.const_mul _) (hb.const_mul _), integral_const_mul, integral_const_mul, ← hA, ← hB, ← hC] at h0
    linarith
  have := discrim_le_zero h
  rw [discrim] at this
  nlinarith

/-- **van Trees, along one direction.** -/
theorem van_trees (μ : Measure E) [μ.IsAddHaarMeasure] [SFinite μ] (η : Measure Y) [SFinite η] {ℓ ℓ1 ℓ2 e : E → Y → ℝ} {v : E} {c : ℝ}
    (hℓm : Measurable fun z : E × Y => ℓ z.1 z.2) (hem : Measurable fun z : E × Y => e z.1 z.2)
    (h1 : ∀ x y, HasLineDerivAt ℝ (fun x => ℓ x y) (ℓ1 x y) x v) (h2 : ∀ x y, HasLineDerivAt ℝ (fun x => ℓ1 x y) (ℓ2 x y) x v)
    (he : ∀ x y, HasLineDerivAt ℝ (fun x => e x y) c x v)
    (hp : Integrable (fun z : E × Y => Real.exp (ℓ z.1 z.2)) (μ.prod η))
    (hp1 : Integrable (fun z : E × Y => Real.exp (ℓ z.1 z.2) * ℓ1 z.1 z.2 ^ 2) (μ.prod η))
    (hp2 : Integrable (fun z : E × Y => Real.exp (ℓ z.1 z.2) * ℓ2 z.1 z.2) (μ.prod η))
    (hpe : Integrable (fun z : E × Y => Real.exp (ℓ z.1 z.2) * e z.1 z.2 ^ 2) (μ.prod η)) :
    (c * ∫ z, Real.exp (ℓ z.1 z.2) ∂(μ.prod η)) ^ 2
      ≤ (-∫ z, Real.exp (ℓ z.1 z.2) * ℓ2 z.1 z.2 ∂(μ.prod η)) * ∫ z, Real.exp (ℓ z.1 z.2) * e z.1 z.2 ^ 2 ∂(μ.prod η) := by
  have hm1 := measurable_line hℓm h1
  have hpm : Measurable fun z : E × Y => Real.exp (ℓ z.1 z.2) := Real.measurable_exp.comp hℓm
  have hpos : ∀ z : E × Y, 0 ≤ Real.exp (ℓ z.1 z.2) := fun z => (Real.exp_pos _).le
  have hdp : ∀ x y, HasLineDerivAt ℝ (fun x => Real.exp (ℓ x y)) (Real.exp (ℓ x y) * ℓ1 x y) x v := by
    intro x y
    have := (h1 x y).exp
    simpa [HasLineDerivAt] using this
  have hp' : Integrable (fun z : E × Y => Real.exp (ℓ z.1 z.2) * (1 : ℝ) ^ 2) (μ.prod η) := by simpa using hp
  have hi1 : Integrable (fun z : E × Y => Real.exp (ℓ z.1 z.2) * ℓ1 z.1 z.2) (μ.prod η) := by
    have := integrable_mul_of_sq (μ := μ.prod η) (a := fun z : E × Y => ℓ1 z.1 z.2) (b := fun _ => 1) hpos
      (hpm.mul (hm1.mul measurable_const)).aestronglyMeasurable hp1 hp'
    simpa using this
  have hie : Integrable (fun z : E × Y => Real.exp (ℓ z.1 z.2) * (ℓ1 z.1 z.2 * e z.1 z.2)) (μ.prod η) :=
    integrable_mul_of_sq (μ := μ.prod η) hpos (hpm.mul (hm1.mul hem)).aestronglyMeasurable hp1 hpe
  have hi0 : Integrable (fun z : E × Y => Real.exp (ℓ z.1 z.2) * e z.1 z.2) (μ.prod η) := by
    have := integrable_mul_of_sq (μ := μ.prod η) (a := fun z : E × Y => e z.1 z.2) (b := fun _ => 1) hpos
      (hpm.mul (hem.mul measurable_const)).aestronglyMeasurable hpe hp'
    simpa using this
  -- the score and the error
  have hB : ∫ z, Real.exp (ℓ z.1 z.2) * (ℓ1 z.1 z.2 * e z.1 z.2) ∂(μ.prod η) = -(c * ∫ z, Real.exp (ℓ z.1 z.2) ∂(μ.prod η)) := by
    have := integral_parts μ η (f := e) (f' := fun _ _ => c) he hdp (hp.const_mul c)
      (hie.congr (Eventually.of_forall fun z => by simp only; ring)) (hi0.congr (Eventually.of_forall fun z => by simp only; ring))
    rw [integral_const_mul] at this
    rw [← this]
    exact integral_congr_ae (Eventually.of_forall fun z => by simp only; ring)
  -- the two forms of the information
  have hA : ∫ z, Real.exp (ℓ z.1 z.2) * ℓ1 z.1 z.2 ^ 2 ∂(μ.prod η) = -∫ z, Real.exp (ℓ z.1 z.2) * ℓ2 z.1 z.2 ∂(μ.prod η) := by
    have hd : ∀ x y, HasLineDerivAt ℝ (fun x => Real.exp (ℓ x y) * ℓ1 x y) (Real.exp (ℓ x y) * ℓ1 x y ^ 2 + Real.exp (ℓ x y) * ℓ2 x y) x v := by
      intro x y
      have := (hdp x y).mul (h2 x y)
      simp only [HasLineDerivAt] at this ⊢
      refine this.congr_deriv ?_
      simp only [zero_smul, add_zero]
      ring
    have := integral_parts μ η (f := fun _ _ => 1) (f' := fun _ _ => 0) (v := v)
      (fun x y => by simpa [HasLineDerivAt] using hasDerivAt_const (0 : ℝ) (1 : ℝ)) hd (by simp) (by simp only [one_mul]; exact hp1.add hp2) (by simpa using hi1)
    simp only [one_mul, zero_mul, integral_zero, neg_zero] at this
    rw [integral_add hp1 hp2] at this
    linarith
  have h := cauchy_schwarz (μ := μ.prod η) hpos hp1 hpe hie
  rw [hB, hA, neg_sq] at h
  exact h

/-- the same, in terms of the law with density `exp ℓ`. -/
theorem van_trees_law (μ : Measure E) [μ.IsAddHaarMeasure] [SFinite μ] (η : Measure Y) [SFinite η] {ℓ ℓ1 ℓ2 e : E → Y → ℝ} {v : E} {c : ℝ}
    (ℙ : Measure (E × Y)) [IsProbabilityMeasure ℙ] (hℙ : ℙ = (μ.prod η).withDensity fun z => ENNReal.ofReal (Real.exp (ℓ z.1 z.2)))
    (hℓm : Measurable fun z : E × Y => ℓ z.1 z.2) (hem : Measurable fun z : E × Y => e z.1 z.2)
    (h1 : ∀ x y, HasLineDerivAt ℝ (fun x => ℓ x y) (ℓ1 x y) x v) (h2 : ∀ x y, HasLineDerivAt ℝ (fun x => ℓ1 x y) (ℓ2 x y) x v)
    (he : ∀ x y, HasLineDerivAt ℝ (fun x => e x y) c x v)
    (hp1 : Integrable (fun z : E × Y => ℓ1 z.1 z.2 ^ 2) ℙ) (hp2 : Integrable (fun z : E × Y => ℓ2 z.1 z.2) ℙ)
    (hpe : Integrable (fun z : E × Y => e z.1 z.2 ^ 2) ℙ) :
    c ^ 2 ≤ (-∫ z, ℓ2 z.1 z.2 ∂ℙ) * ∫ z, e z.1 z.2 ^ 2 ∂ℙ := by
  have hpm : Measurable fun z : E × Y => ENNReal.ofReal (Real.exp (ℓ z.1 z.2)) := (Real.measurable_exp.comp hℓm).ennreal_ofReal
  have hto : ∀ z : E × Y, (ENNReal.ofReal (Real.exp (ℓ z.1 z.2))).toReal = Real.exp (ℓ z.1 z.2) :=
    fun z => ENNReal.toReal_ofReal (Real.exp_pos _).le
  have hI : ∀ f : E × Y → ℝ, Integrable f ℙ → Integrable (fun z => Real.exp (ℓ z.1 z.2) * f z) (μ.prod η) ∧
      ∫ z, Real.exp (ℓ z.1 z.2) * f z ∂(μ.prod η) = ∫ z, f z ∂ℙ := by
    intro f hf
    rw [hℙ] at hf ⊢
    constructor
    · have := (integrable_withDensity_iff_integrable_smul' hpm (Eventually.of_forall fun z => ENNReal.ofReal_lt_top)).1 hf
      simpa only [hto, smul_eq_mul] using this
    · rw [integral_withDensity_eq_integral_toReal_smul hpm (Eventually.of_forall fun z => ENNReal.ofReal_lt_top)]
      simp only [hto, smul_eq_mul]
  have hone := hI (fun _ => 1) (integrable_const 1)
  have hmass : ∫ z, Real.exp (ℓ z.1 z.2) ∂(μ.prod η) = 1 := by simpa using hone.2
  have hvt := van_trees μ η hℓm hem h1 h2 he (by simpa using hone.1) (hI _ hp1).1 (hI _ hp2).1 (hI _ hpe).1
  rw [hmass, (hI _ hp2).2, (hI _ hpe).2, mul_one] at hvt
  exact hvt

end Mfs.VanTrees

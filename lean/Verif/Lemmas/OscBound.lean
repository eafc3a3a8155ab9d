import Mathlib.MeasureTheory.Integral.IntegralEqImproper
import Mathlib.Probability.Distributions.Gaussian.Real

/-!
# Decay of oscillatory integrals against smooth functions times normal densities
-/

namespace Mfs.Lemmas

open MeasureTheory ProbabilityTheory Filter Topology
open scoped NNReal

/-- a bounded solution of `w'' = -z² w`, as `cos (z ·)` and `sin (z ·)`. -/
structure Wave (z : ℝ) (w w' : ℝ → ℝ) : Prop where
  d1 : ∀ x, HasDerivAt w (w' x) x
  d2 : ∀ x, HasDerivAt w' (-z ^ 2 * w x) x
  le : ∀ x, |w x| ≤ 1
  le' : ∀ x, |w' x| ≤ |z|

theorem wave_cos (z : ℝ) : Wave z (fun x => Real.cos (z * x)) fun x => -Real.sin (z * x) * z := by
  refine ⟨fun x => ?_, fun x => ?_, fun x => Real.abs_cos_le_one _, fun x => ?_⟩
  · simpa using ((hasDerivAt_id x).const_mul z).cos
  · have := (((hasDerivAt_id x).const_mul z).sin.neg).mul_const z
    refine this.congr_deriv ?_
    simp only [id, mul_one]
    ring
  · rw [abs_mul, abs_neg]
    have := Real.abs_sin_le_one (z * x)
    nlinarith [abs_nonneg z]

theorem wave_sin (z : ℝ) : Wave z (fun x => Real.sin (z * x)) fun x => Real.cos (z * x) * z := by
  refine ⟨fun x => ?_, fun x => ?_, fun x => Real.abs_sin_le_one _, fun x => ?_⟩
  · simpa using ((hasDerivAt_id x).const_mul z).sin
  · have := (((hasDerivAt_id x).const_mul z).cos).mul_const z
    refine this.congr_deriv ?_
    simp only [id, mul_one]
    ring
  · rw [abs_mul]
    have := Real.abs_cos_le_one (z * x)
    nlinarith [abs_nonneg z]

theorem Wave.cont {z : ℝ} {w w' : ℝ → ℝ} (h : Wave z w w') : Continuous w := continuous_iff_continuousAt.2 fun x => (h.d1 x).continuousAt

theorem Wave.cont' {z : ℝ} {w w' : ℝ → ℝ} (h : Wave z w w') : Continuous w' := continuous_iff_continuousAt.2 fun x => (h.d2 x).continuousAt

/-- two integrations by parts. -/
theorem osc_bound {z : ℝ} {w w' : ℝ → ℝ} (hw : Wave z w w') {g g1 g2 : ℝ → ℝ} (h1 : ∀ x, HasDerivAt g (g1 x) x) (h2 : ∀ x, HasDerivAt g1 (g2 x) x)
    (i0 : Integrable g) (i1 : Integrable g1) (i2 : Integrable g2) : (1 + z ^ 2) * |∫ x, w x * g x| ≤ (∫ x, |g x|) + ∫ x, |g2 x| := by
  have hwb : ∀ {f : ℝ → ℝ}, Integrable f → Integrable (fun x => w x * f x) := fun hf =>
    hf.bdd_mul (c := 1) hw.cont.aestronglyMeasurable (Eventually.of_forall fun x => hw.le x)
  have hwb' : ∀ {f : ℝ → ℝ}, Integrable f → Integrable (fun x => w' x * f x) := fun hf =>
    hf.bdd_mul (c := |z|) hw.cont'.aestronglyMeasurable (Eventually.of_forall fun x => hw.le' x)
  have e1 : ∫ x, w x * g2 x = -∫ x, w' x * g1 x :=
    integral_mul_deriv_eq_deriv_mul_of_integrable (fun x _ => hw.d1 x) (fun x _ => h2 x) (hwb i2) (hwb' i1) (hwb i1)
  have e2 : ∫ x, w' x * g1 x = -∫ x, (-z ^ 2 * w x) * g x :=
    integral_mul_deriv_eq_deriv_mul_of_integrable (fun x _ => hw.d2 x) (fun x _ => h1 x) (hwb' i1)
      (((hwb i0).const_mul (-z ^ 2)).congr (Eventually.of_forall fun x => by simp only [Pi.mul_apply]; ring)) (hwb' i0)
  have e3 : ∫ x, (-z ^ 2 * w x) * g x = -z ^ 2 * ∫ x, w x * g x := by
    rw [← integral_const_mul]
    exact integral_congr_ae (Eventually.of_forall fun x => by ring)
  rw [e2, e3] at e1
  have hb : ∀ {f : ℝ → ℝ}, Integrable f → |∫ x, w x * f x| ≤ ∫ x, |f x| := fun {f} hf => by
    refine (abs_integral_le_integral_abs).trans (integral_mono (hwb hf).abs hf.abs fun x => ?_)
    simp only
    rw [abs_mul]
    exact mul_le_of_le_one_left (abs_nonneg _) (hw.le x)
  have b0 := hb i0
  have b2 := hb i2
  rw [e1, show - -(-z ^ 2 * ∫ x, w x * g x) = -(z ^ 2 * ∫ x, w x * g x) by ring, abs_neg, abs_mul, abs_of_nonneg (sq_nonneg z)] at b2
  linarith

theorem hasDerivAt_gaussianPDFReal (m : ℝ) {v : ℝ≥0} (hv : v ≠ 0) (x : ℝ) :
    HasDerivAt (gaussianPDFReal m v) (-((x - m) / v) * gaussianPDFReal m v x) x := by
  have hv' : (v : ℝ) ≠ 0 := by exact_mod_cast hv
  have h := ((((hasDerivAt_id x).sub_const m).pow 2).neg.div_const (2 * (v : ℝ))).exp.const_mul ((√(2 * Real.pi * v))⁻¹)
  refine h.congr_deriv ?_
  simp only [gaussianPDFReal, id]
  field_simp
  norm_num
  rw [neg_div]
  ring

/-- polynomials in `x` of degree at most two are integrable against the density. -/
theorem integrable_sq_gaussianPDF (m : ℝ) {v : ℝ≥0} (hv : v ≠ 0) :
    Integrable (fun x => (x - m) ^ 2 * gaussianPDFReal m v x) ∧ ∫ x, (x - m) ^ 2 * gaussianPDFReal m v x = v := by
  have h1 : Integrable (fun x => (x - m) ^ 2) (gaussianReal m v) := by
    have := (memLp_id_gaussianReal (μ := m) (v := v) 2).sub (memLp_const m)
    exact this.integrable_sq
  have h2 : ∫ x, (x - m) ^ 2 ∂gaussianReal m v = v := by
    have := variance_fun_id_gaussianReal (μ := m) (v := v)
    rw [variance_eq_integral (by fun_prop), integral_id_gaussianReal] at this
    exact this
  constructor
  · rw [gaussianReal_of_var_ne_zero m hv, integrable_withDensity_iff_integrable_smul' (measurable_gaussianPDF m v) (by simp [gaussianPDF_lt_top])] at h1
    refine h1.congr (Eventually.of_forall fun x => ?_)
    simp only [toReal_gaussianPDF, smul_eq_mul, mul_comm]
  · rw [integral_gaussianReal_eq_integral_smul hv] at h2
    rw [← h2]
    exact integral_congr_ae (Eventually.of_forall fun x => by simp [mul_comm])

/-- **decay** of the characteristic integrals of a bounded function with two bounded derivatives times a normal density whose variance is
bounded from below, uniform in the mean and the variance. -/
theorem gauss_osc {l l1 l2 : ℝ → ℝ} {M : ℝ} (h1 : ∀ x, HasDerivAt l (l1 x) x) (h2 : ∀ x, HasDerivAt l1 (l2 x) x) (hl2c : Continuous l2)
    (b0 : ∀ x, |l x| ≤ M) (b1 : ∀ x, |l1 x| ≤ M) (b2 : ∀ x, |l2 x| ≤ M) {c : ℝ} (hc : 0 < c) (m : ℝ) {v : ℝ≥0} (hcv : c ≤ v) {z : ℝ} {w w' : ℝ → ℝ}
    (hw : Wave z w w') : |∫ x, w x * (l x * gaussianPDFReal m v x)| ≤ M * (3 + 3 / c) / (1 + z ^ 2) := by
  have hv0 : 0 < (v : ℝ) := hc.trans_le hcv
  have hv : v ≠ 0 := by intro h; simp [h] at hv0
  have hM : 0 ≤ M := (abs_nonneg _).trans (b0 0)
  obtain ⟨j2, j3⟩ := integrable_sq_gaussianPDF m hv
  have j0 := integrable_gaussianPDFReal m v
  have hN := hasDerivAt_gaussianPDFReal m hv
  have hNn := gaussianPDFReal_nonneg m v
  have hNc : Continuous (gaussianPDFReal m v) := continuous_iff_continuousAt.2 fun x => (hN x).continuousAt
  have hlc : Continuous l := continuous_iff_continuousAt.2 fun x => (h1 x).continuousAt
  have hl1c : Continuous l1 := continuous_iff_continuousAt.2 fun x => (h2 x).continuousAt
  set N := gaussianPDFReal m v with hNdef
  set q : ℝ → ℝ := fun x => (x - m) / v with hq
  have hqd : ∀ x, HasDerivAt q (1 / v) x := fun x => ((hasDerivAt_id x).sub_const m).div_const _
  have hqc : Continuous q := by fun_prop
  have jq : Integrable fun x => q x ^ 2 * N x := (j2.const_mul (1 / (v : ℝ) ^ 2)).congr (Eventually.of_forall fun x => by simp only [hq]; ring)
  have jqi : ∫ x, q x ^ 2 * N x = 1 / v := by
    have : ∀ x, q x ^ 2 * N x = 1 / (v : ℝ) ^ 2 * ((x - m) ^ 2 * N x) := fun x => by simp only [hq]; ring
    simp only [this]
    rw [integral_const_mul, j3]
    field_simp
  have d1 : ∀ x, HasDerivAt (fun x => l x * N x) ((l1 x - l x * q x) * N x) x := fun x => by
    refine ((h1 x).mul (hN x)).congr_deriv ?_
    simp only [hq]
    ring
  have d2 : ∀ x, HasDerivAt (fun x => (l1 x - l x * q x) * N x) ((l2 x - 2 * l1 x * q x + l x * (q x ^ 2 - 1 / v)) * N x) x := fun x => by
    refine (((h2 x).sub ((h1 x).mul (hqd x))).mul (hN x)).congr_deriv ?_
    simp only [hq, Pi.sub_apply, Pi.mul_apply]
    ring
  have bd2 : ∀ x, |(l2 x - 2 * l1 x * q x + l x * (q x ^ 2 - 1 / v)) * N x| ≤ M * (2 + 1 / v) * N x + M * 2 * (q x ^ 2 * N x) := fun x => by
    rw [abs_mul, abs_of_nonneg (hNn x)]
    have : |l2 x - 2 * l1 x * q x + l x * (q x ^ 2 - 1 / v)| ≤ M * (2 + 1 / v) + M * 2 * q x ^ 2 := by
      have a1 := abs_add_le (l2 x - 2 * l1 x * q x) (l x * (q x ^ 2 - 1 / v))
      have a2 := abs_sub (l2 x) (2 * l1 x * q x)
      have a3 : |2 * l1 x * q x| ≤ M * (1 + q x ^ 2) := by
        rw [show 2 * l1 x * q x = l1 x * (2 * q x) by ring, abs_mul]
        refine mul_le_mul (b1 x) ?_ (abs_nonneg _) hM
        rw [abs_le]
        constructor <;> nlinarith [sq_nonneg (q x - 1), sq_nonneg (q x + 1)]
      have a4 : |l x * (q x ^ 2 - 1 / v)| ≤ M * (q x ^ 2 + 1 / v) := by
        rw [abs_mul]
        refine mul_le_mul (b0 x) ?_ (abs_nonneg _) hM
        have : 0 < 1 / (v : ℝ) := by positivity
        rw [abs_le]
        constructor <;> nlinarith [sq_nonneg (q x)]
      have := b2 x
      linarith
    calc _ ≤ (M * (2 + 1 / v) + M * 2 * q x ^ 2) * N x := mul_le_mul_of_nonneg_right this (hNn x)
      _ = _ := by ring
  have bd1 : ∀ x, |(l1 x - l x * q x) * N x| ≤ M * 2 * N x + M * (q x ^ 2 * N x) := fun x => by
    rw [abs_mul, abs_of_nonneg (hNn x)]
    have : |l1 x - l x * q x| ≤ M * 2 + M * q x ^ 2 := by
      have a1 := abs_sub (l1 x) (l x * q x)
      have a2 : |l x * q x| ≤ M * (1 + q x ^ 2) := by
        rw [abs_mul]
        refine mul_le_mul (b0 x) ?_ (abs_nonneg _) hM
        rw [abs_le]
        constructor <;> nlinarith [sq_nonneg (q x - 1), sq_nonneg (q x + 1)]
      have := b1 x
      linarith
    calc _ ≤ (M * 2 + M * q x ^ 2) * N x := mul_le_mul_of_nonneg_right this (hNn x)
      _ = _ := by ring
  have k2 : Integrable fun x => M * (2 + 1 / v) * N x + M * 2 * (q x ^ 2 * N x) := (j0.const_mul _).add (jq.const_mul _)
  have k1 : Integrable fun x => M * 2 * N x + M * (q x ^ 2 * N x) := (j0.const_mul _).add (jq.const_mul _)
  have i0 : Integrable fun x => l x * N x := j0.bdd_mul (c := M) hlc.aestronglyMeasurable (Eventually.of_forall b0)
  have i1 : Integrable fun x => (l1 x - l x * q x) * N x := k1.mono' (Continuous.aestronglyMeasurable (by fun_prop)) (Eventually.of_forall bd1)
  have i2 : Integrable fun x => (l2 x - 2 * l1 x * q x + l x * (q x ^ 2 - 1 / v)) * N x :=
    k2.mono' (Continuous.aestronglyMeasurable (by fun_prop)) (Eventually.of_forall bd2)
  have hmain := osc_bound hw d1 d2 i0 i1 i2
  have one : ∫ x, N x = 1 := integral_gaussianPDFReal_eq_one m hv
  have s0 : ∫ x, |l x * N x| ≤ M := by
    calc _ ≤ ∫ x, M * N x := integral_mono i0.abs (j0.const_mul M) fun x => by
            simp only
            rw [abs_mul, abs_of_nonneg (hNn x)]
            exact mul_le_mul_of_nonneg_right (b0 x) (hNn x)
      _ = M := by rw [integral_const_mul, one, mul_one]
  have s2 : ∫ x, |(l2 x - 2 * l1 x * q x + l x * (q x ^ 2 - 1 / v)) * N x| ≤ M * (2 + 3 / v) := by
    refine (integral_mono i2.abs k2 bd2).trans_eq ?_
    rw [integral_add (j0.const_mul _) (jq.const_mul _), integral_const_mul, integral_const_mul, one, jqi]
    ring
  have s3 : 3 / (v : ℝ) ≤ 3 / c := div_le_div_of_nonneg_left (by norm_num) hc hcv
  rw [le_div_iff₀ (by positivity), mul_comm]
  have := mul_le_mul_of_nonneg_left s3 hM
  linarith

end Mfs.Lemmas

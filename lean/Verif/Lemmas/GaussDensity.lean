import Verif.Spec.Gauss
import Mathlib.Probability.Distributions.Gaussian.Multivariate
import Mathlib.MeasureTheory.Integral.Pi
import Mathlib.MeasureTheory.Measure.Lebesgue.Basic
import Mathlib.MeasureTheory.Measure.Haar.InnerProductSpace
import Mathlib.MeasureTheory.Measure.WithDensity

/-!
# Density of the multivariate normal law
-/

namespace Mfs.Lemmas

open MeasureTheory ProbabilityTheory Matrix WithLp

variable {d : ℕ}

/-- independent standard normal variables have the product density. -/
theorem pi_gauss_density (d : ℕ) : Measure.pi (fun _ : Fin d => gaussianReal 0 1)
    = (volume : Measure (Fin d → ℝ)).withDensity fun x => ENNReal.ofReal (∏ i, gaussianPDFReal 0 1 (x i)) := by
  refine Measure.pi_eq fun s hs => ?_
  rw [withDensity_apply _ (MeasurableSet.univ_pi hs), volume_pi, Measure.restrict_pi_pi, ← ofReal_integral_eq_lintegral_ofReal,
    integral_fintype_prod_eq_prod (f := fun _ x => gaussianPDFReal 0 1 x),
    ENNReal.ofReal_prod_of_nonneg fun i _ => integral_nonneg fun x => gaussianPDFReal_nonneg 0 1 x]
  · refine Finset.prod_congr rfl fun i _ => ?_
    rw [gaussianReal_apply_eq_integral 0 one_ne_zero]
  · exact Integrable.fintype_prod (f := fun _ x => gaussianPDFReal 0 1 x) fun i => (integrable_gaussianPDFReal 0 1).restrict
  · exact Filter.Eventually.of_forall fun x => Finset.prod_nonneg fun i _ => gaussianPDFReal_nonneg 0 1 _

/-- an invertible affine map transforms a density by the inverse determinant. -/
theorem map_affine_density {L : Matrix (Fin d) (Fin d) ℝ} (hL : L.det ≠ 0) (m : Fin d → ℝ) {f : (Fin d → ℝ) → ENNReal}
    (hf : Measurable f) :
    ((volume : Measure (Fin d → ℝ)).withDensity f).map (fun x => m + L *ᵥ x)
      = (volume : Measure (Fin d → ℝ)).withDensity fun y => ENNReal.ofReal |L.det⁻¹| * f (L⁻¹ *ᵥ (y - m)) := by
  have hLm : Measurable fun x : Fin d → ℝ => L *ᵥ x := by
    have : Continuous (toLin' L) := LinearMap.continuous_on_pi _
    exact this.measurable
  have hLi : Measurable fun x : Fin d → ℝ => L⁻¹ *ᵥ (x - m) := by
    have : Continuous (toLin' L⁻¹) := LinearMap.continuous_on_pi _
    exact this.measurable.comp (measurable_id.sub_const m)
  have hLi0 : Measurable fun x : Fin d → ℝ => L⁻¹ *ᵥ x := by
    have : Continuous (toLin' L⁻¹) := LinearMap.continuous_on_pi _
    exact this.measurable
  have hT : Measurable fun x : Fin d → ℝ => m + L *ᵥ x := hLm.const_add m
  refine Measure.ext_of_lintegral _ fun g hg => ?_
  rw [lintegral_map hg hT, lintegral_withDensity_eq_lintegral_mul _ hf (g := fun x => g (m + L *ᵥ x)) (hg.comp hT),
    lintegral_withDensity_eq_lintegral_mul _ (by exact (hf.comp hLi).const_mul _) hg]
  have h1 : ∀ x, (f * fun x => g (m + L *ᵥ x)) x = (fun y => f (L⁻¹ *ᵥ y) * g (m + y)) (toLin' L x) := by
    intro x
    simp [Matrix.mulVec_mulVec, Matrix.nonsing_inv_mul _ hL.isUnit]
  have hmh : Measurable fun y : Fin d → ℝ => f (L⁻¹ *ᵥ y) * g (m + y) :=
    (hf.comp hLi0).mul (hg.comp (measurable_const_add m))
  simp only [h1]
  rw [← lintegral_map hmh (by exact hLm), Real.map_matrix_volume_pi_eq_smul_volume_pi hL, lintegral_smul_measure]
  have h2 : ∫⁻ y : Fin d → ℝ, f (L⁻¹ *ᵥ y) * g (m + y) = ∫⁻ y : Fin d → ℝ, f (L⁻¹ *ᵥ (y - m)) * g y := by
    rw [← lintegral_sub_right_eq_self (fun y => f (L⁻¹ *ᵥ y) * g (m + y)) m]
    simp
  rw [h2, smul_eq_mul, ← lintegral_const_mul _ (f := fun y => f (L⁻¹ *ᵥ (y - m)) * g y) ((hf.comp hLi).mul hg)]
  simp only [Pi.mul_apply, mul_assoc]

/-- the transformed standard density is the normal density. -/
theorem density_eq {L : Matrix (Fin d) (Fin d) ℝ} (hL : L.det ≠ 0) (m y : Fin d → ℝ) :
    |L.det⁻¹| * ∏ i, gaussianPDFReal 0 1 ((L⁻¹ *ᵥ (y - m)) i) = Spec.mvnPdf m (L * Lᵀ) y := by
  have hq : (y - m) ⬝ᵥ (L * Lᵀ)⁻¹ *ᵥ (y - m) = ∑ i, (L⁻¹ *ᵥ (y - m)) i ^ 2 := by
    rw [Matrix.mul_inv_rev, ← Matrix.mulVec_mulVec, Matrix.dotProduct_mulVec, ← Matrix.transpose_nonsing_inv,
      Matrix.vecMul_transpose, dotProduct]
    exact Finset.sum_congr rfl fun i _ => (sq _).symm
  rw [Spec.mvnPdf, hq, Matrix.det_mul, Matrix.det_transpose]
  simp only [gaussianPDFReal, NNReal.coe_one, mul_one, sub_zero]
  rw [Finset.prod_mul_distrib, Finset.prod_const, Finset.card_univ, Fintype.card_fin, ← Real.exp_sum, abs_inv,
    Real.sqrt_mul (x := (2 * Real.pi) ^ d) (by positivity), Real.sqrt_mul_self_eq_abs]
  have hs : √((2 * Real.pi) ^ d) = √(2 * Real.pi) ^ d := by
    rw [← Real.sqrt_sq (x := √(2 * Real.pi) ^ d) (by positivity), ← pow_mul, mul_comm d 2, pow_mul,
      Real.sq_sqrt (by positivity)]
  rw [hs, ← Finset.sum_div, Finset.sum_neg_distrib]
  have : |L.det| ≠ 0 := abs_ne_zero.2 hL
  have h2 : √(2 * Real.pi) ≠ 0 := by positivity
  rw [inv_pow]
  field_simp

/-- an affine image of standard normal variables is multivariate normal. -/
theorem map_stdGaussian (m : Fin d → ℝ) (L : Matrix (Fin d) (Fin d) ℝ) :
    (Measure.pi (fun _ : Fin d => gaussianReal 0 1)).map (fun z => toLp 2 (m + L *ᵥ z))
      = multivariateGaussian (toLp 2 m) (L * Lᵀ) := by
  have hps : (L * Lᵀ).PosSemidef := by
    rw [← Matrix.conjTranspose_eq_transpose_of_trivial]; exact Matrix.posSemidef_self_mul_conjTranspose L
  have hLm : Measurable fun x : Fin d → ℝ => L *ᵥ x := by
    have : Continuous (toLin' L) := LinearMap.continuous_on_pi _
    exact this.measurable
  apply Measure.ext_of_charFun (E := EuclideanSpace ℝ (Fin d))
  ext t
  rw [charFun_multivariateGaussian hps, charFun_apply, integral_map (by
    exact ((PiLp.continuous_toLp 2 _).measurable.comp (hLm.const_add m)).aemeasurable) (by fun_prop)]
  have h1 : ∀ z : Fin d → ℝ, Complex.exp (inner ℝ (toLp 2 (m + L *ᵥ z)) t * Complex.I)
      = Complex.exp (inner ℝ (toLp 2 m) t * Complex.I) * ∏ i, Complex.exp (((Lᵀ *ᵥ ofLp t) i * z i : ℝ) * Complex.I) := by
    intro z
    rw [← Complex.exp_sum, ← Complex.exp_add]
    congr 1
    rw [← Finset.sum_mul, ← add_mul, ← Complex.ofReal_sum, ← Complex.ofReal_add]
    congr 2
    have : ∑ i, (Lᵀ *ᵥ ofLp t) i * z i = ofLp t ⬝ᵥ L *ᵥ z := by
      rw [Matrix.dotProduct_mulVec, ← Matrix.mulVec_transpose]; rfl
    rw [this, PiLp.inner_apply, PiLp.inner_apply, dotProduct, ← Finset.sum_add_distrib]
    refine Finset.sum_congr rfl fun i _ => ?_
    simp
    ring
  simp only [h1]
  rw [integral_const_mul, integral_fintype_prod_eq_prod (f := fun i (x : ℝ) => Complex.exp (((Lᵀ *ᵥ ofLp t) i * x : ℝ) * Complex.I))]
  have h2 : ∀ i, ∫ x, Complex.exp (((Lᵀ *ᵥ ofLp t) i * x : ℝ) * Complex.I) ∂gaussianReal 0 1
      = Complex.exp (-((Lᵀ *ᵥ ofLp t) i ^ 2 / 2 : ℝ)) := by
    intro i
    have := charFun_gaussianReal (μ := 0) (v := 1) ((Lᵀ *ᵥ ofLp t) i)
    rw [charFun_apply_real] at this
    simp only [Complex.ofReal_mul]
    rw [this]
    congr 1
    push_cast
    ring
  simp only [h2]
  rw [← Complex.exp_sum, ← Complex.exp_add]
  congr 1
  have h3 : ofLp t ⬝ᵥ (L * Lᵀ) *ᵥ ofLp t = ∑ i, (Lᵀ *ᵥ ofLp t) i ^ 2 := by
    rw [← Matrix.mulVec_mulVec, Matrix.dotProduct_mulVec, ← Matrix.mulVec_transpose, dotProduct]
    exact Finset.sum_congr rfl fun i _ => (sq _).symm
  rw [h3, real_inner_comm]
  push_cast
  rw [Finset.sum_neg_distrib, ← Finset.sum_div]
  ring

/-- the density of the multivariate normal law. -/
theorem multivariateGaussian_density (m : Fin d → ℝ) {L : Matrix (Fin d) (Fin d) ℝ} (hL : L.det ≠ 0) :
    multivariateGaussian (toLp 2 m) (L * Lᵀ)
      = (volume : Measure (EuclideanSpace ℝ (Fin d))).withDensity fun x => ENNReal.ofReal (Spec.mvnPdf m (L * Lᵀ) (ofLp x)) := by
  have hLm : Measurable fun x : Fin d → ℝ => L *ᵥ x := by
    have : Continuous (toLin' L) := LinearMap.continuous_on_pi _
    exact this.measurable
  have hmeas : Measurable fun x : Fin d → ℝ => ENNReal.ofReal (∏ i, gaussianPDFReal 0 1 (x i)) := by
    have := measurable_gaussianPDFReal 0 1
    fun_prop
  rw [← map_stdGaussian, pi_gauss_density]
  have h1 : (fun z : Fin d → ℝ => toLp 2 (m + L *ᵥ z)) = (toLp 2) ∘ fun z => m + L *ᵥ z := rfl
  rw [h1, ← Measure.map_map (PiLp.continuous_toLp 2 _).measurable (hLm.const_add m), map_affine_density hL m hmeas]
  have h2 : (fun y : Fin d → ℝ => ENNReal.ofReal |L.det⁻¹| * ENNReal.ofReal (∏ i, gaussianPDFReal 0 1 ((L⁻¹ *ᵥ (y - m)) i)))
      = fun y => ENNReal.ofReal (Spec.mvnPdf m (L * Lᵀ) y) := by
    funext y
    rw [← ENNReal.ofReal_mul (abs_nonneg _), density_eq hL]
  rw [h2]
  have hm2 : Measurable fun y : Fin d → ℝ => ENNReal.ofReal (Spec.mvnPdf m (L * Lᵀ) y) := by
    rw [← h2]
    have : Continuous (toLin' L⁻¹) := LinearMap.continuous_on_pi _
    exact (hmeas.comp (this.measurable.comp (measurable_id.sub_const m))).const_mul _
  refine Measure.ext_of_lintegral _ fun g hg => ?_
  have hmo : Measurable (ofLp : EuclideanSpace ℝ (Fin d) → Fin d → ℝ) := (PiLp.continuous_ofLp 2 _).measurable
  have hmt : Measurable (toLp 2 : (Fin d → ℝ) → EuclideanSpace ℝ (Fin d)) := (PiLp.continuous_toLp 2 _).measurable
  rw [lintegral_map hg hmt, lintegral_withDensity_eq_lintegral_mul _ hm2 (g := fun x => g (toLp 2 x)) (hg.comp hmt),
    lintegral_withDensity_eq_lintegral_mul _ (f := fun x : EuclideanSpace ℝ (Fin d) => ENNReal.ofReal (Spec.mvnPdf m (L * Lᵀ) x.ofLp))
      (hm2.comp hmo) hg]
  exact (PiLp.volume_preserving_toLp (Fin d)).lintegral_comp ((hm2.comp hmo).mul hg)

end Mfs.Lemmas

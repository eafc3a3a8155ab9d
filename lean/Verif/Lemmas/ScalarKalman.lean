import Verif.Model.Experiments
import Verif.Lemmas.NormalKernel
import Verif.Props.ExperimentErrors
import Verif.Spec.Markov

/-!
# The scalar Kalman filter as an exact Bayes filter
-/

namespace Mfs.Converge

open Mfs.Spec Mfs.Experiments MeasureTheory ProbabilityTheory Filter Topology
open scoped NNReal

variable {F : ℝ} {Sigma : ℝ≥0}

/-- the transition kernel `x ↦ N(F x, Sigma)`. -/
noncomputable def linKernel (F : ℝ) (Sigma : ℝ≥0) : Kernel ℝ ℝ := normalKernel (fun x => F * x) (fun _ => Sigma) (by fun_prop) (by fun_prop)

instance : IsMarkovKernel (linKernel F Sigma) := by rw [linKernel]; infer_instance

theorem linKernel_good (F : ℝ) {Sigma : ℝ≥0} (hS : Sigma ≠ 0) : GoodKernel (linKernel F Sigma) :=
  goodKernel_normal (by fun_prop) (by fun_prop) (fun _ => hS) (A := |F| + Sigma)
    (fun x => by
      have := Sigma.coe_nonneg
      rw [abs_mul]
      nlinarith [abs_nonneg x, abs_nonneg F, mul_nonneg (abs_nonneg x) this])
    (fun x => by
      have := Sigma.coe_nonneg
      nlinarith [abs_nonneg x, abs_nonneg F, mul_nonneg (abs_nonneg x) (abs_nonneg F), mul_nonneg (abs_nonneg x) this])

theorem bind_linKernel (F m : ℝ) (v Sigma : ℝ≥0) :
    (gaussianReal m v).bind (linKernel F Sigma) = gaussianReal (F * m) ((F ^ 2).toNNReal * v + Sigma) := by
  have : IsProbabilityMeasure ((gaussianReal m v).bind (linKernel F Sigma)) := by
    refine ⟨?_⟩
    rw [Measure.bind_apply .univ (linKernel F Sigma).measurable.aemeasurable]
    simp
  refine Measure.ext_of_charFun ?_
  funext t
  have hi : Integrable (fun z : ℝ => Complex.exp (t * z * Complex.I)) ((gaussianReal m v).bind (linKernel F Sigma)) := by
    refine Integrable.mono' (integrable_const (1 : ℝ)) (by fun_prop) (Eventually.of_forall fun z => ?_)
    have : (t : ℂ) * z * Complex.I = ((t * z : ℝ) : ℂ) * Complex.I := by push_cast; ring
    rw [this, Complex.norm_exp_ofReal_mul_I]
  rw [charFun_apply_real]
  have e : ∫ z, Complex.exp (t * z * Complex.I) ∂(gaussianReal m v).bind (linKernel F Sigma)
      = ∫ x, ∫ z, Complex.exp (t * z * Complex.I) ∂linKernel F Sigma x ∂gaussianReal m v := by
    rw [Measure.comp_eq_comp_const_apply] at hi ⊢
    rw [Kernel.integral_comp hi]
    simp
  rw [e]
  have e2 : ∀ x : ℝ, ∫ z, Complex.exp (t * z * Complex.I) ∂linKernel F Sigma x
      = Complex.exp (((t * F : ℝ) : ℂ) * x * Complex.I) * Complex.exp (-(Sigma * t ^ 2 / 2)) := by
    intro x
    have : ∫ z, Complex.exp (t * z * Complex.I) ∂linKernel F Sigma x = charFun (gaussianReal (F * x) Sigma) t := (charFun_apply_real t).symm
    rw [this, charFun_gaussianReal, ← Complex.exp_add]
    congr 1
    push_cast
    ring
  simp only [e2]
  rw [integral_mul_const, ← charFun_apply_real, charFun_gaussianReal, charFun_gaussianReal, ← Complex.exp_add, NNReal.coe_add,
    NNReal.coe_mul, Real.coe_toNNReal _ (sq_nonneg F)]
  congr 1
  push_cast
  ring

theorem gaussianPDFReal_eq (m : ℝ) {v : ℝ} (hv : 0 < v) (x : ℝ) : gaussianPDFReal m v.toNNReal x = normPdf x m (√v) := by
  have hv0 : v.toNNReal ≠ 0 := by rw [Ne, Real.toNNReal_eq_zero, not_le]; exact hv
  rw [normPdf, ← Real.exp_log (gaussianPDFReal_pos m _ x hv0), Props.log_gaussianPDFReal m hv0, Real.coe_toNNReal _ hv.le, normLogpdf,
    Real.sq_sqrt hv.le, Real.log_mul (by positivity) hv.ne']
  congr 1
  field_simp
  ring

/-- Bayes' rule for a normal prior and a normal likelihood. -/
theorem normPdf_mul (y m z : ℝ) {v R : ℝ} (hv : 0 < v) (hR : 0 < R) :
    normPdf z m (√v) * normPdf y z (√R)
      = normPdf y m (√(v + R)) * normPdf z (m + v / (v + R) * (y - m)) (√(v - v * (v / (v + R)))) := by
  have hs : 0 < v + R := by positivity
  have hv' : v - v * (v / (v + R)) = v * R / (v + R) := by field_simp; ring
  have hp : 0 < v * R / (v + R) := by positivity
  rw [hv']
  simp only [normPdf, ← Real.exp_add, normLogpdf, Real.sq_sqrt hv.le, Real.sq_sqrt hR.le, Real.sq_sqrt hs.le, Real.sq_sqrt hp.le]
  have h1 : Real.log (2 * Real.pi * (v * R / (v + R))) = Real.log (2 * Real.pi * v) + Real.log (2 * Real.pi * R) - Real.log (2 * Real.pi * (v + R)) := by
    rw [← Real.log_mul (by positivity) (by positivity), ← Real.log_div (by positivity) (by positivity)]
    congr 1
    field_simp
  rw [h1]
  congr 1
  field_simp
  ring

theorem integral_gaussian_update (y m : ℝ) {v R : ℝ} (hv : 0 < v) (hR : 0 < R) (h : ℝ → ℝ) :
    ∫ z, normPdf y z (√R) * h z ∂gaussianReal m v.toNNReal
      = normPdf y m (√(v + R)) * ∫ z, h z ∂gaussianReal (m + v / (v + R) * (y - m)) (v - v * (v / (v + R))).toNNReal := by
  have hs : 0 < v + R := by positivity
  have hv' : v - v * (v / (v + R)) = v * R / (v + R) := by field_simp; ring
  have hp : 0 < v - v * (v / (v + R)) := by rw [hv']; positivity
  have h0 : ∀ w : ℝ, 0 < w → w.toNNReal ≠ 0 := fun w hw => by rw [Ne, Real.toNNReal_eq_zero, not_le]; exact hw
  rw [integral_gaussianReal_eq_integral_smul (h0 _ hv), integral_gaussianReal_eq_integral_smul (h0 _ hp), ← integral_const_mul]
  refine integral_congr_ae (Eventually.of_forall fun z => ?_)
  simp only [smul_eq_mul]
  rw [gaussianPDFReal_eq m hv, gaussianPDFReal_eq _ hp, ← mul_assoc, normPdf_mul y m z hv hR, mul_assoc]

theorem normPdf_pos (x m s : ℝ) : 0 < normPdf x m s := Real.exp_pos _

theorem normPdf_le (y z : ℝ) {R : ℝ} (hR : 0 < R) : normPdf y z (√R) ≤ normPdf y y (√R) := by
  rw [normPdf, normPdf, Real.exp_le_exp, normLogpdf, normLogpdf, Real.sq_sqrt hR.le, sub_self]
  have : 0 ≤ (y - z) ^ 2 / R := by positivity
  have h0 : (0 : ℝ) ^ 2 / R = 0 := by simp
  rw [h0]
  linarith

theorem normPdf_continuous (y s : ℝ) : Continuous fun z => normPdf y z s := by
  simp only [normPdf, normLogpdf]
  fun_prop

theorem polyGrowth_normPdf_mul (y : ℝ) {R : ℝ} (hR : 0 < R) {h : ℝ → ℝ} (hg : PolyGrowth h) : PolyGrowth fun z => normPdf y z (√R) * h z := by
  refine PolyGrowth.mul ⟨normPdf y y (√R), 0, fun z => ?_⟩ hg
  rw [abs_of_pos (normPdf_pos _ _ _)]
  have := normPdf_le y z hR
  have := normPdf_pos y y (√R)
  simp only [pow_zero]
  linarith

theorem markovE_good {F : ℝ} {Sigma : ℝ≥0} (hS : Sigma ≠ 0) {R : ℝ} (hR : 0 < R) {f : ℝ → ℝ} (hf : Measurable f) (hg : PolyGrowth f) (ys : List ℝ) :
    Measurable (markovE (linKernel F Sigma) (fun y z => normPdf y z (√R)) f ys) ∧
    PolyGrowth (markovE (linKernel F Sigma) (fun y z => normPdf y z (√R)) f ys) := by
  induction ys with
  | nil => exact ⟨hf, hg⟩
  | cons y ys ih =>
    exact ⟨GoodKernel.measurable _ ((normPdf_continuous y _).measurable.mul ih.1),
      (linKernel_good F hS).polyGrowth (polyGrowth_normPdf_mul y hR ih.2)⟩

/-- the carry of the scalar Kalman filter describes the exact unnormalised filtering law. -/
theorem kf_markovE {Sigma R : ℝ} (F : ℝ) (hS : 0 < Sigma) (hR : 0 < R) {f : ℝ → ℝ} (hf : Measurable f) (hg : PolyGrowth f) (ys : List ℝ)
    (m v n : ℝ) (hv : 0 < v) :
    let c := (scan (kfBody F Sigma R) (m, v, n) ys).1
    0 < c.2.1 ∧ ∫ x, markovE (linKernel F Sigma.toNNReal) (fun y z => normPdf y z (√R)) f ys x ∂gaussianReal m v.toNNReal
      = Real.exp (n - c.2.2) * ∫ x, f x ∂gaussianReal c.1 c.2.1.toNNReal := by
  induction ys generalizing m v n with
  | nil => simpa [scan, markovE] using hv
  | cons y ys ih =>
    intro c
    have hS0 : Sigma.toNNReal ≠ 0 := by rw [Ne, Real.toNNReal_eq_zero, not_le]; exact hS
    obtain ⟨h1, h2⟩ := markovE_good (F := F) hS0 hR hf hg ys
    set vp := F * v * F + Sigma with hvp
    have hvp0 : 0 < vp := by nlinarith [mul_nonneg hv.le (sq_nonneg F)]
    set m' := F * m + vp / (vp + R) * (y - F * m) with hm'
    set v' := vp - vp * (vp / (vp + R)) with hv'
    have hv0 : 0 < v' := by
      have : v' = vp * R / (vp + R) := by rw [hv']; field_simp; ring
      rw [this]
      positivity
    obtain ⟨i1, i2⟩ := ih m' v' (n - normLogpdf y (F * m) (√(vp + R))) hv0
    have hc : c = (scan (kfBody F Sigma R) (m', v', n - normLogpdf y (F * m) (√(vp + R))) ys).1 := rfl
    rw [hc]
    refine ⟨i1, ?_⟩
    have e1 : ∫ x, markovE (linKernel F Sigma.toNNReal) (fun y z => normPdf y z (√R)) f (y :: ys) x ∂gaussianReal m v.toNNReal
        = ∫ z, normPdf y z (√R) * markovE (linKernel F Sigma.toNNReal) (fun y z => normPdf y z (√R)) f ys z
          ∂(gaussianReal m v.toNNReal).bind (linKernel F Sigma.toNNReal) :=
      ((linKernel_good F hS0).integral_bind (gaussianReal_expMoments m _) ((normPdf_continuous y _).measurable.mul h1)
        (polyGrowth_normPdf_mul y hR h2)).symm
    have e2 : (F ^ 2).toNNReal * v.toNNReal + Sigma.toNNReal = vp.toNNReal := by
      apply NNReal.eq
      rw [NNReal.coe_add, NNReal.coe_mul, Real.coe_toNNReal _ hvp0.le, Real.coe_toNNReal _ (sq_nonneg F), Real.coe_toNNReal _ hv.le,
        Real.coe_toNNReal _ hS.le, hvp]
      ring
    rw [e1, bind_linKernel, e2, integral_gaussian_update y (F * m) hvp0 hR, i2, ← mul_assoc]
    congr 1
    rw [normPdf, ← Real.exp_add]
    congr 1
    ring

theorem kf_getD (F Sigma R : ℝ) (ys : List ℝ) (c : ℝ × ℝ × ℝ) (t : ℕ) (ht : t < ys.length) (d : ℝ × ℝ) :
    (scan (kfBody F Sigma R) c ys).2.getD t d
      = ((scan (kfBody F Sigma R) c (ys.take (t + 1))).1.1, (scan (kfBody F Sigma R) c (ys.take (t + 1))).1.2.1) := by
  induction ys generalizing c t with
  | nil => simp at ht
  | cons y ys ih =>
    cases t with
    | zero => simp [scan, kfBody]
    | succ t =>
      have := ih (kfBody F Sigma R c y).1 t (by simpa using ht)
      simpa [scan] using this

end Mfs.Converge

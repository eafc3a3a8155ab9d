import Verif.Model.Experiments
import Verif.Lemmas.GaussReal
import Mathlib.InformationTheory.KullbackLeibler.Basic
import Mathlib.MeasureTheory.Measure.CharacteristicFunction.Basic

/-!
# Properties C118, C119, C120: the error measure, the optimal proposal and the parameter map of the experiment scripts
-/

namespace Mfs.Props

open Mfs.Experiments MeasureTheory ProbabilityTheory InformationTheory Polynomial
open scoped NNReal ENNReal

/-! ## The Kullback–Leibler error -/

/-- log-density of the normal law. -/
theorem log_gaussianPDFReal (m : ℝ) {v : ℝ≥0} (hv : v ≠ 0) (x : ℝ) :
    Real.log (gaussianPDFReal m v x) = -(Real.log (2 * Real.pi) + Real.log v) / 2 - (x - m) ^ 2 / (2 * v) := by
  have hv' : (0 : ℝ) < v := by exact_mod_cast pos_iff_ne_zero.2 hv
  rw [gaussianPDFReal_def]
  have h1 : (√(2 * Real.pi * v))⁻¹ ≠ 0 := by positivity
  simp only
  rw [Real.log_mul h1 (Real.exp_pos _).ne', Real.log_exp, Real.log_inv, Real.log_sqrt (by positivity),
    Real.log_mul (by positivity) hv'.ne']
  ring

theorem gaussian_ac (m m' : ℝ) {v v' : ℝ≥0} (hv : v ≠ 0) (hv' : v' ≠ 0) : gaussianReal m v ≪ gaussianReal m' v' :=
  (gaussianReal_absolutelyContinuous m hv).trans (gaussianReal_absolutelyContinuous' m' hv')

theorem llr_gaussian (m m' : ℝ) {v v' : ℝ≥0} (hv : v ≠ 0) (hv' : v' ≠ 0) :
    llr (gaussianReal m v) (gaussianReal m' v') =ᵐ[gaussianReal m v] fun x =>
      (Real.log v' - Real.log v) / 2 - (x - m) ^ 2 / (2 * v) + (x - m') ^ 2 / (2 * v') := by
  have hac := gaussian_ac m m' hv hv'
  have h1 := hac (Measure.rnDeriv_eq_div (gaussianReal_absolutelyContinuous m hv) (gaussianReal_absolutelyContinuous m' hv'))
  have h2 := gaussianReal_absolutelyContinuous m hv (rnDeriv_gaussianReal m v)
  have h3 := gaussianReal_absolutelyContinuous m hv (rnDeriv_gaussianReal m' v')
  filter_upwards [h1, h2, h3] with x e1 e2 e3
  have p1 := gaussianPDFReal_pos m v x hv
  have p2 := gaussianPDFReal_pos m' v' x hv'
  rw [llr, e1, e2, e3, ENNReal.toReal_div, toReal_gaussianPDF, toReal_gaussianPDF, Real.log_div p1.ne' p2.ne',
    log_gaussianPDFReal m hv, log_gaussianPDFReal m' hv']
  ring

theorem integral_sq_gaussian (m c : ℝ) (v : ℝ≥0) : ∫ x, (x - c) ^ 2 ∂gaussianReal m v = v + (m - c) ^ 2 := by
  have hi1 : Integrable (fun x : ℝ => x ^ 2) (gaussianReal m v) := integrable_pow_gaussianReal m v 2
  have hi2 : Integrable (fun x : ℝ => x) (gaussianReal m v) := by simpa using integrable_pow_gaussianReal m v 1
  have hc : ∀ c : ℝ, ∫ x, (x - c) ^ 2 ∂gaussianReal m v = (∫ x, x ^ 2 ∂gaussianReal m v) - 2 * c * m + c ^ 2 := by
    intro c
    have : ∀ x : ℝ, (x - c) ^ 2 = x ^ 2 - 2 * c * x + c ^ 2 := fun x => by ring
    simp only [this]
    have hi3 : Integrable (fun x : ℝ => x ^ 2 - 2 * c * x) (gaussianReal m v) := hi1.sub (hi2.const_mul _)
    rw [integral_add hi3 (integrable_const _), integral_sub hi1 (hi2.const_mul _), integral_const_mul,
      integral_id_gaussianReal]
    simp
  have hvar : ∫ x, (x - m) ^ 2 ∂gaussianReal m v = v := by
    have h := variance_fun_id_gaussianReal (μ := m) (v := v)
    rw [variance_eq_integral (by fun_prop), integral_id_gaussianReal] at h
    exact h
  have h1 := hc m
  rw [hvar] at h1
  rw [hc c]
  linear_combination -h1

/-- **C118.** The error of the convergence scripts is the Kullback–Leibler divergence. -/
theorem C118_kl_error (m trueM : ℝ) (v trueV : ℝ≥0) (hv : v ≠ 0) (hv' : trueV ≠ 0) :
    klDiv (gaussianReal m v) (gaussianReal trueM trueV) ≠ ⊤ ∧
    errKl m v trueM trueV = (klDiv (gaussianReal m v) (gaussianReal trueM trueV)).toReal ∧
    0 ≤ errKl m v trueM trueV ∧ (errKl m v trueM trueV = 0 ↔ m = trueM ∧ v = trueV) := by
  have hp : (0 : ℝ) < v := by exact_mod_cast pos_iff_ne_zero.2 hv
  have hp' : (0 : ℝ) < trueV := by exact_mod_cast pos_iff_ne_zero.2 hv'
  have hac := gaussian_ac m trueM hv hv'
  have hl := llr_gaussian m trueM hv hv'
  have hsq : ∀ c : ℝ, Integrable (fun x : ℝ => (x - c) ^ 2) (gaussianReal m v) := by
    intro c
    refine (integrable_poly_gaussianReal m v ((X - C c) ^ 2)).congr (Filter.Eventually.of_forall fun x => ?_)
    simp
  have hi1 : Integrable (fun x : ℝ => (Real.log trueV - Real.log v) / 2 - (x - m) ^ 2 / (2 * v)) (gaussianReal m v) :=
    (integrable_const _).sub ((hsq m).div_const _)
  have hint : Integrable (llr (gaussianReal m v) (gaussianReal trueM trueV)) (gaussianReal m v) := by
    rw [integrable_congr hl]
    exact hi1.add ((hsq trueM).div_const _)
  have htop : klDiv (gaussianReal m v) (gaussianReal trueM trueV) ≠ ⊤ := klDiv_ne_top hac hint
  have hval : errKl m v trueM trueV = (klDiv (gaussianReal m v) (gaussianReal trueM trueV)).toReal := by
    rw [toReal_klDiv_of_measure_eq hac (by simp), integral_congr_ae hl, integral_add hi1 ((hsq trueM).div_const _),
      integral_sub (integrable_const _) ((hsq m).div_const _), integral_div, integral_div, integral_div,
      integral_sq_gaussian, integral_sq_gaussian]
    simp only [integral_const, probReal_univ, smul_eq_mul, errKl]
    rw [Real.exp_sub, Real.exp_log hp, Real.exp_log hp']
    field_simp
    ring
  refine ⟨htop, hval, ?_, ?_⟩
  · rw [hval]
    exact ENNReal.toReal_nonneg
  · rw [hval, ENNReal.toReal_eq_zero_iff, or_iff_left htop, klDiv_eq_zero_iff, gaussianReal_ext_iff]

/-- the two laws `N(1, 2)` and `N(0, 1)` differ, and the error between them is positive. -/
example : 0 < errKl 1 2 0 1 := by
  obtain ⟨_, _, h1, h2⟩ := C118_kl_error 1 0 2 1 (by norm_num) (by norm_num)
  exact lt_of_le_of_ne h1 fun h => by simpa using (h2.1 h.symm).1

/-! ## The optimal proposal -/

/-- the script's density is the density of the normal law. -/
theorem expNormPdf_eq (x m : ℝ) {v : ℝ} (hv : 0 < v) : normPdf x m (√v) = gaussianPDFReal m v.toNNReal x := by
  have hn : v.toNNReal ≠ 0 := by simpa using hv
  have h := log_gaussianPDFReal m hn x
  rw [← Real.exp_log (gaussianPDFReal_pos m v.toNNReal x hn), h, normPdf, normLogpdf, Real.sq_sqrt hv.le,
    Real.log_mul (by positivity) hv.ne', Real.coe_toNNReal _ hv.le]
  congr 1
  field_simp
  ring

theorem proposal_var_pos {F Sigma R : ℝ} (hS : 0 < Sigma) (hR : 0 < R) (a y : ℝ) : 0 < (proposalMeanVar F Sigma R a y).2 := by
  have : (proposalMeanVar F Sigma R a y).2 = Sigma * R / (Sigma + R) := by
    simp only [proposalMeanVar]
    field_simp
    ring
  rw [this]
  positivity

/-- prior times likelihood is evidence times posterior. -/
theorem bayes_normal {F Sigma R : ℝ} (hS : 0 < Sigma) (hR : 0 < R) (a x y : ℝ) :
    normPdf y x (√R) * normPdf x (F * a) (√Sigma)
      = normPdf y (F * a) (√(Sigma + R)) *
        normPdf x (proposalMeanVar F Sigma R a y).1 (√(proposalMeanVar F Sigma R a y).2) := by
  have hp := proposal_var_pos (F := F) hS hR a y
  have hv : (proposalMeanVar F Sigma R a y).2 = Sigma * R / (Sigma + R) := by
    simp only [proposalMeanVar]
    field_simp
    ring
  have hSR : 0 < Sigma + R := by positivity
  have hlog : ∀ t : ℝ, 0 < t → Real.log (2 * Real.pi * t) = Real.log (2 * Real.pi) + Real.log t := fun t ht =>
    Real.log_mul (by positivity) ht.ne'
  simp only [normPdf]
  rw [← Real.exp_add, ← Real.exp_add]
  congr 1
  simp only [normLogpdf]
  rw [Real.sq_sqrt hR.le, Real.sq_sqrt hS.le, Real.sq_sqrt hSR.le, Real.sq_sqrt hp.le, hv,
    hlog R hR, hlog Sigma hS, hlog _ hSR, hlog (Sigma * R / (Sigma + R)) (by positivity), Real.log_div (by positivity) hSR.ne',
    Real.log_mul hS.ne' hR.ne']
  simp only [proposalMeanVar]
  field_simp
  ring

/-- **C119.** The proposal of the particle-filter experiment is the posterior given ancestor and measurement: its sampler has
the stated density, Bayes' rule holds, and one step of the library's particle filter weights each particle with the predictive
density of the measurement given its ancestor, whatever has been sampled. -/
theorem C119_optimal_proposal (F Sigma R : ℝ) (hS : 0 < Sigma) (hR : 0 < R) :
    (∀ a y, (gaussianReal 0 1).map (fun z => proposalSampler (n := 1) F Sigma R (fun (_ : Unit) _ => z) (fun _ => a) y () 0)
      = volume.withDensity fun x => ENNReal.ofReal (proposalDensity (n := 1) F Sigma R (fun _ => x) (fun _ => a) y 0)) ∧
    (∀ a x y, measurementPdf (n := 1) R y (fun _ => x) 0 * transitionDensity (n := 1) F Sigma (fun _ => x) (fun _ => a) 0
      = gaussianPDFReal (F * a) (Sigma + R).toNNReal y
        * proposalDensity (n := 1) F Sigma R (fun _ => x) (fun _ => a) y 0) ∧
    (∀ a y, ∫ x, measurementPdf (n := 1) R y (fun _ => x) 0 * transitionDensity (n := 1) F Sigma (fun _ => x) (fun _ => a) 0
      = gaussianPDFReal (F * a) (Sigma + R).toNNReal y) ∧
    ∀ (n : ℕ) [NeZero n] (K : Type) (draw : K → Fin n → ℝ) (resampling : (Fin n → ℝ) → K → Fin n → ℕ) (splitFst : K → K)
      (ancestors : Fin n → ℝ) (y : ℝ) (key : K),
      (Smc.particleBody (proposalSampler F Sigma R draw) (proposalDensity F Sigma R) (transitionDensity F Sigma)
        (measurementPdf R) resampling splitFst ancestors (y, key)).1
      = Smc.gather (proposalSampler F Sigma R draw ancestors y key)
          (resampling (fun i => gaussianPDFReal (F * ancestors i) (Sigma + R).toNNReal y
            / ∑ j, gaussianPDFReal (F * ancestors j) (Sigma + R).toNNReal y) (splitFst key)) := by
  have hSR : 0 < Sigma + R := by positivity
  have key : ∀ a x y, normPdf y x (√R) * normPdf x (F * a) (√Sigma)
      = gaussianPDFReal (F * a) (Sigma + R).toNNReal y *
        normPdf x (proposalMeanVar F Sigma R a y).1 (√(proposalMeanVar F Sigma R a y).2) := by
    intro a x y
    rw [bayes_normal hS hR, expNormPdf_eq _ _ hSR]
  refine ⟨fun a y => ?_, fun a x y => key a x y, fun a y => ?_, ?_⟩
  · have hp := proposal_var_pos (F := F) hS hR a y
    have hn : (proposalMeanVar F Sigma R a y).2.toNNReal ≠ 0 := by simpa using hp
    have h1 : (gaussianReal 0 1).map (fun z => (proposalMeanVar F Sigma R a y).1 + √(proposalMeanVar F Sigma R a y).2 * z)
        = gaussianReal (proposalMeanVar F Sigma R a y).1 (proposalMeanVar F Sigma R a y).2.toNNReal := by
      generalize (proposalMeanVar F Sigma R a y).1 = m
      generalize hw : (proposalMeanVar F Sigma R a y).2 = w at hp
      have : (fun z => m + √w * z) = (fun z => m + z) ∘ (fun z => √w * z) := rfl
      rw [this, ← Measure.map_map (by fun_prop) (by fun_prop), gaussianReal_map_const_mul, gaussianReal_map_const_add]
      congr 1
      · simp
      · ext
        simp [hp.le]
    simp only [proposalSampler, proposalDensity]
    rw [h1, gaussianReal_of_var_ne_zero _ hn]
    congr 1
    ext x
    rw [expNormPdf_eq _ _ hp, gaussianPDF]
  · have hp := proposal_var_pos (F := F) hS hR a y
    have hn : (proposalMeanVar F Sigma R a y).2.toNNReal ≠ 0 := by simpa using hp
    simp only [measurementPdf, transitionDensity, key]
    rw [integral_const_mul]
    simp only [expNormPdf_eq _ _ hp]
    rw [integral_gaussianPDFReal_eq_one _ hn, mul_one]
  · intro n _ K draw resampling splitFst ancestors y k
    have hw : ∀ i : Fin n, measurementPdf R y (proposalSampler F Sigma R draw ancestors y k) i
        * transitionDensity F Sigma (proposalSampler F Sigma R draw ancestors y k) ancestors i
        / proposalDensity F Sigma R (proposalSampler F Sigma R draw ancestors y k) ancestors y i
        = gaussianPDFReal (F * ancestors i) (Sigma + R).toNNReal y := by
      intro i
      simp only [measurementPdf, transitionDensity, proposalDensity, key]
      exact mul_div_cancel_right₀ _ (Real.exp_pos _).ne'
    simp only [Smc.particleBody, hw]

example : (0 : ℝ) < ouSigma 1 1 (1 / 10) := by
  have : Real.exp (-2 * (1 / 10) / 1) < 1 := by
    rw [Real.exp_lt_one_iff]
    norm_num
  rw [ouSigma]
  linarith

/-! ## The parameter map -/

/-- **C120.** The map between unconstrained and positive parameters is a strictly increasing bijection onto the positive
numbers with inverse `init_params`, so minimising over all unconstrained parameters is minimising over the positive ones. -/
theorem C120_parameter_map :
    (∀ q, 0 < positive q) ∧ (∀ p, 0 < p → positive (unconstrained p) = p) ∧ (∀ q, unconstrained (positive q) = q) ∧
    StrictMono positive ∧ Set.range positive = Set.Ioi 0 ∧
    ∀ (f : ℝ → ℝ) (q : ℝ), (∀ q', f (positive q) ≤ f (positive q')) ↔ ∀ p, 0 < p → f (positive q) ≤ f p := by
  have h1 : ∀ q, 0 < positive q := fun q => Real.log_pos (by linarith [Real.exp_pos q])
  have h2 : ∀ p, 0 < p → positive (unconstrained p) = p := by
    intro p hp
    have : 0 < Real.exp p - 1 := by linarith [Real.one_lt_exp_iff.2 hp]
    rw [positive, unconstrained, Real.exp_log this, sub_add_cancel, Real.log_exp]
  refine ⟨h1, h2, fun q => ?_, fun a b hab => ?_, ?_, fun f q => ?_⟩
  · rw [positive, unconstrained, Real.exp_log (by positivity), add_sub_cancel_right, Real.log_exp]
  · exact Real.log_lt_log (by positivity) (by linarith [Real.exp_lt_exp.2 hab])
  · ext p
    constructor
    · rintro ⟨q, rfl⟩
      exact h1 q
    · intro hp
      exact ⟨unconstrained p, h2 p hp⟩
  · constructor
    · intro h p hp
      simpa [h2 p hp] using h (unconstrained p)
    · intro h q'
      exact h _ (h1 q')

/-- the script's initial value `0.1`. -/
example : positive (unconstrained 0.1) = 0.1 := C120_parameter_map.2.1 _ (by norm_num)

end Mfs.Props

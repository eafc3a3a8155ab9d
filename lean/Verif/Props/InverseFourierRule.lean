import Verif.Props.InverseFourier
import Verif.Props.CfConverge
import Mathlib.Probability.Distributions.Gaussian.Real

/-!
# Property C187, continued: densities from moments by `characteristic_fn` and `inverse_fourier`
-/

namespace Mfs.Props

open Mfs.Spec Mfs.Quad1 Mfs.Filter1 Mfs.Moments1 Mfs.Pdf Mfs.Experiments Mfs.Converge MeasureTheory ProbabilityTheory Filter Topology
open scoped NNReal

/-- **C187 (d).** From exact moments. Let the law with the continuous density `f` have all exponential moments and an integrable
characteristic function. The densities that `inverse_fourier` computes from `characteristic_fn` of its first `N` moments, with any
centres and scales, converge to `f`, uniformly on bounded sets, in the sense of C187 (b). -/
theorem C187_from_moments (B : Backend) (hB : B.Valid) {f : ℝ → ℝ} (hc : Continuous f) (h0 : ∀ x, 0 ≤ f x) (h1 : ∫ x, f x = 1)
    (hexp : ∀ c : ℝ, Integrable fun x => Real.exp (c * x) * f x) (hφi : Integrable fun z : ℝ => ∫ x : ℝ, Complex.exp (Complex.I * z * x) * f x)
    (m s : ℕ → ℝ) (hs : ∀ N, s N ≠ 0) (R : ℝ) {ε : ℝ} (hε : 0 < ε) :
    ∃ Z₀, ∀ Z ≥ Z₀, ∃ h > 0, ∀ zs : List ℝ, FreqGrid Z h zs → ∀ᶠ N in atTop, ∀ x, |x| ≤ R →
      |inverseFourier x (zs.map fun z => (z, characteristicFn B z ((List.range N).map fun k => ∫ y, ((y - m N) / s N) ^ k * f y) (m N) (s N)))
        - f x| ≤ ε := by
  have hf : Integrable f := by simpa using hexp 0
  have hfm : Measurable fun x => ENNReal.ofReal (f x) := hc.measurable.ennreal_ofReal
  set μ : Measure ℝ := volume.withDensity fun x => ENNReal.ofReal (f x) with hμ
  have hint : ∀ g : ℝ → ℝ, ∫ x, g x ∂μ = ∫ x, g x * f x := by
    intro g
    rw [hμ, integral_withDensity_eq_integral_toReal_smul hfm (Eventually.of_forall fun _ => ENNReal.ofReal_lt_top)]
    refine integral_congr_ae (Eventually.of_forall fun x => ?_)
    simp only [ENNReal.toReal_ofReal (h0 x), smul_eq_mul]
    ring
  have hprob : IsProbabilityMeasure μ := ⟨by
    rw [hμ, withDensity_apply _ MeasurableSet.univ, Measure.restrict_univ, ← ofReal_integral_eq_lintegral_ofReal hf (Eventually.of_forall h0), h1]
    simp⟩
  have hμe : ∀ c : ℝ, Integrable (fun x => Real.exp (c * x)) μ := fun c => by
    rw [hμ, integrable_withDensity_iff_integrable_smul' hfm (Eventually.of_forall fun _ => ENNReal.ofReal_lt_top)]
    refine (hexp c).congr (Eventually.of_forall fun x => ?_)
    simp only [ENNReal.toReal_ofReal (h0 x), smul_eq_mul]
    ring
  have hinf : ∀ s : Finset ℝ, μ (s : Set ℝ)ᶜ ≠ 0 := by
    intro s
    have hz : μ (s : Set ℝ) = 0 := withDensity_absolutelyContinuous _ _ (s.finite_toSet.measure_zero _)
    rw [measure_compl s.measurableSet (measure_ne_top _ _), hz, measure_univ]
    simp
  refine C187_approximations hf hc (fun z => rfl) hφi
    (fun N z => characteristicFn B z ((List.range N).map fun k => ∫ y, ((y - m N) / s N) ^ k * f y) (m N) (s N)) (fun z => ?_) R hε
  have hval : ∫ x : ℝ, Complex.exp (Complex.I * z * x) * f x = ⟨∫ x, Real.cos (z * x) ∂μ, ∫ x, Real.sin (z * x) ∂μ⟩ := by
    have hi : Integrable fun x : ℝ => Complex.exp (Complex.I * z * x) * f x := by
      have := hf.ofReal (𝕜 := ℂ) |>.bdd_mul (c := 1) (f := fun x : ℝ => Complex.exp (Complex.I * z * x)) (Continuous.aestronglyMeasurable (by fun_prop))
        (Eventually.of_forall fun x => by
          rw [show Complex.I * z * x = ((z * x : ℝ) : ℂ) * Complex.I by push_cast; ring, Complex.norm_exp_ofReal_mul_I])
      exact this
    have e : ∀ x : ℝ, Complex.exp (Complex.I * z * x) * f x = ⟨Real.cos (z * x) * f x, Real.sin (z * x) * f x⟩ := by
      intro x
      rw [show Complex.I * z * x = ((z * x : ℝ) : ℂ) * Complex.I by push_cast; ring]
      apply Complex.ext
      · rw [Complex.re_mul_ofReal, Complex.exp_ofReal_mul_I_re]
      · rw [Complex.im_mul_ofReal, Complex.exp_ofReal_mul_I_im]
    rw [hint, hint]
    apply Complex.ext
    · have := integral_re (𝕜 := ℂ) hi
      simp only [RCLike.re_to_complex, e] at this ⊢
      exact this.symm
    · have := integral_im (𝕜 := ℂ) hi
      simp only [RCLike.im_to_complex, e] at this ⊢
      exact this.symm
  rw [hval]
  have hms : ∀ N, (List.range N).map (fun k => ∫ y, ((y - m N) / s N) ^ k * f y) = (List.range N).map fun k => ∫ y, ((y - m N) / s N) ^ k ∂μ :=
    fun N => List.map_congr_left fun k _ => (hint _).symm
  simp only [hms, characteristicFn_eq]
  exact tendsto_complex (C133_quadrature_converges B hB μ hμe hinf _ (by fun_prop) (cos_growth z) m s hs false false)
    (C133_quadrature_converges B hB μ hμe hinf _ (by fun_prop) (sin_growth z) m s hs false false)

/-- the characteristic function of a normal density. -/
theorem normal_cf (m₀ : ℝ) {v : ℝ≥0} (hv : v ≠ 0) (z : ℝ) :
    ∫ x : ℝ, Complex.exp (Complex.I * z * x) * (gaussianPDFReal m₀ v x : ℝ) = Complex.exp (z * m₀ * Complex.I - v * z ^ 2 / 2) := by
  rw [← charFun_gaussianReal, charFun_apply_real, integral_gaussianReal_eq_integral_smul hv]
  refine integral_congr_ae (Eventually.of_forall fun x => ?_)
  simp only [Complex.real_smul]
  rw [mul_comm]
  congr 2
  ring

theorem integrable_normal_cf (m₀ : ℝ) {v : ℝ≥0} (hv : v ≠ 0) :
    Integrable fun z : ℝ => ∫ x : ℝ, Complex.exp (Complex.I * z * x) * (gaussianPDFReal m₀ v x : ℝ) := by
  have hvp : 0 < (v : ℝ) := by positivity
  simp only [normal_cf m₀ hv]
  refine (integrable_exp_neg_mul_sq (b := (v : ℝ) / 2) (by positivity)).mono' (Continuous.aestronglyMeasurable (by fun_prop)) (Eventually.of_forall fun z => ?_)
  rw [Complex.norm_exp]
  refine le_of_eq ?_
  congr 1
  have : (z * m₀ * Complex.I - v * z ^ 2 / 2 : ℂ) = ((-(v / 2) * z ^ 2 : ℝ) : ℂ) + ((z * m₀ : ℝ) : ℂ) * Complex.I := by
    push_cast
    ring
  rw [this, Complex.add_re, Complex.ofReal_re, Complex.re_ofReal_mul, Complex.I_re, mul_zero, add_zero]

/-- **C187 (e).** In particular for every normal law, from its central moments. -/
theorem C187_normal (B : Backend) (hB : B.Valid) (m₀ : ℝ) {v : ℝ≥0} (hv : v ≠ 0) (R : ℝ) {ε : ℝ} (hε : 0 < ε) :
    ∃ Z₀, ∀ Z ≥ Z₀, ∃ M₀ : ℕ, ∀ M ≥ M₀, ∀ᶠ N in atTop, ∀ x, |x| ≤ R →
      |inverseFourier x ((List.ofFn (linspace (-Z) Z (M + 2))).map fun z =>
        (z, characteristicFn B z ((List.range N).map fun k => ∫ y, (y - m₀) ^ k ∂gaussianReal m₀ v) m₀)) - gaussianPDFReal m₀ v x| ≤ ε := by
  have hexp : ∀ c : ℝ, Integrable fun x => Real.exp (c * x) * gaussianPDFReal m₀ v x := by
    intro c
    have h := integrable_exp_mul_gaussianReal (μ := m₀) (v := v) c
    rw [gaussianReal_of_var_ne_zero m₀ hv,
      integrable_withDensity_iff_integrable_smul' (measurable_gaussianPDF m₀ v) (by simp [gaussianPDF_lt_top])] at h
    refine h.congr (Eventually.of_forall fun x => ?_)
    simp only [toReal_gaussianPDF, smul_eq_mul]
    ring
  have hcont : Continuous (gaussianPDFReal m₀ v) := by
    unfold gaussianPDFReal
    fun_prop
  obtain ⟨Z₀, hmain⟩ := C187_from_moments B hB hcont (gaussianPDFReal_nonneg m₀ v) (integral_gaussianPDFReal_eq_one m₀ hv) hexp
    (integrable_normal_cf m₀ hv) (fun _ => m₀) (fun _ => 1) (fun _ => one_ne_zero) R hε
  refine ⟨max Z₀ 1, fun Z hZ => ?_⟩
  have hZ1 : 1 ≤ Z := (le_max_right _ _).trans hZ
  obtain ⟨h, hh, hgrid⟩ := hmain Z ((le_max_left _ _).trans hZ)
  obtain ⟨M₀, hM₀⟩ := exists_nat_gt (2 * Z / h)
  refine ⟨M₀, fun M hM => ?_⟩
  have hstep : 2 * Z / ((M : ℝ) + 1) ≤ h := by
    rw [div_le_iff₀ (by positivity)]
    rw [div_lt_iff₀ hh] at hM₀
    have : (M₀ : ℝ) ≤ M := by exact_mod_cast hM
    nlinarith
  have hg := linspace_freqGrid (Z := Z) (by linarith) M
  have := hgrid _ ⟨hg.head, hg.last, hg.step.imp fun p q hpq => ⟨hpq.1, hpq.2.trans (by linarith)⟩⟩
  have hmom : ∀ k : ℕ, ∫ y, ((y - m₀) / 1) ^ k * gaussianPDFReal m₀ v y = ∫ y, (y - m₀) ^ k ∂gaussianReal m₀ v := fun k => by
    rw [integral_gaussianReal_eq_integral_smul hv]
    refine integral_congr_ae (Eventually.of_forall fun x => ?_)
    simp only [div_one, smul_eq_mul]
    ring
  simpa only [hmom] using this

/-- **C187 (f).** With a fixed number of moments, however, extending the frequency range makes the result worse without bound: there
is a point, a node of the rule, at which the function returned by `inverse_fourier` tends to infinity. -/
theorem C187_fixed_moments (B : Backend) (hB : B.Valid) (ms : List ℝ) (hl : 2 ≤ ms.length) (mean scale : ℝ) :
    ∃ x₀ : ℝ, ∀ K : ℝ, ∃ Z₀, ∀ Z ≥ Z₀, ∃ h > 0, ∀ zs : List ℝ, FreqGrid Z h zs →
      K ≤ inverseFourier x₀ (zs.map fun z => (z, characteristicFn B z ms mean scale)) := by
  obtain ⟨hw, hsum⟩ := C09_weights_probability B hB ms hl mean scale false false
  obtain ⟨j, hj⟩ : ∃ j, 0 < (momentQuadrature B ms mean scale false false).1 j := by
    by_contra hcon
    push Not at hcon
    have : ∑ i, (momentQuadrature B ms mean scale false false).1 i ≤ 0 := Finset.sum_nonpos fun i _ => hcon i
    linarith
  exact ⟨(momentQuadrature B ms mean scale false false).2 j, fun K =>
    C187_fixed_nodes (momentQuadrature B ms mean scale false false).1 (momentQuadrature B ms mean scale false false).2 hw j hj K⟩

/-- the standard normal law and the grid of the tests meet the hypotheses. -/
example : (1 : ℝ≥0) ≠ 0 ∧ FreqGrid 9 (2 * 9 / ((1998 : ℕ) + 1)) (List.ofFn (linspace (-9) 9 (1998 + 2))) :=
  ⟨one_ne_zero, linspace_freqGrid (by norm_num) 1998⟩

end Mfs.Props

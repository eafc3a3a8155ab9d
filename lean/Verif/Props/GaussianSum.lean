import Verif.Model.GaussianSum
import Verif.Lemmas.GaussDensity
import Verif.Lemmas.Backend
import Verif.Lemmas.QuadCore
import Verif.Props.Moments1
import Verif.Props.MomentsND

/-!
# Properties C102, C103: densities and samplers of the Gaussian sums
-/

namespace Mfs.Props

open Mfs.GaussianSum Matrix MeasureTheory ProbabilityTheory Mfs.Lemmas

/-- law of a component index drawn with the given weights. -/
noncomputable def categorical {k : ℕ} (w : Fin k → ℝ) : Measure (Fin k) := ∑ i, ENNReal.ofReal (w i) • Measure.dirac i

theorem categorical_prob {k : ℕ} {w : Fin k → ℝ} (hw : ∀ i, 0 ≤ w i) (h1 : ∑ i, w i = 1) : IsProbabilityMeasure (categorical w) := by
  constructor
  rw [categorical, Measure.finsetSum_apply]
  simp only [Measure.smul_apply, Measure.dirac_apply_of_mem (Set.mem_univ _), smul_eq_mul, mul_one]
  rw [← ENNReal.ofReal_sum_of_nonneg fun i _ => hw i, h1, ENNReal.ofReal_one]

/-- drawing an index and then transforming an independent variable gives the mixture of the transformed laws. -/
theorem map_categorical {α β : Type*} [MeasurableSpace α] [MeasurableSpace β] {k : ℕ} (w : Fin k → ℝ) (ν : Measure α) [SFinite ν]
    (f : Fin k → α → β) (hf : ∀ i, Measurable (f i)) :
    ((categorical w).prod ν).map (fun p => f p.1 p.2) = ∑ i, ENNReal.ofReal (w i) • ν.map (f i) := by
  have hm : Measurable fun p : Fin k × α => f p.1 p.2 := measurable_from_prod_countable_right hf
  ext s hs
  rw [Measure.map_apply hm hs, Measure.prod_apply (hm hs), categorical, lintegral_finsetSum_measure, Measure.finsetSum_apply]
  refine Finset.sum_congr rfl fun i _ => ?_
  rw [lintegral_smul_measure, lintegral_dirac, Measure.smul_apply, Measure.map_apply (hf i) hs]
  rfl

/-- `n` draws. -/
theorem map_categorical_pi {α β : Type*} [MeasurableSpace α] [MeasurableSpace β] {k n : ℕ} {w : Fin k → ℝ} (hw : ∀ i, 0 ≤ w i)
    (h1 : ∑ i, w i = 1) (ν : Measure α) [IsProbabilityMeasure ν]
    (f : Fin k → α → β) (hf : ∀ i, Measurable (f i)) :
    ((Measure.pi fun _ : Fin n => categorical w).prod (Measure.pi fun _ : Fin n => ν)).map (fun p i => f (p.1 i) (p.2 i))
      = Measure.pi fun _ : Fin n => ∑ i, ENNReal.ofReal (w i) • ν.map (f i) := by
  have := categorical_prob hw h1
  have hm : Measurable fun p : Fin k × α => f p.1 p.2 := measurable_from_prod_countable_right hf
  have hmp : Measurable fun p : (Fin n → Fin k) × (Fin n → α) => fun i => f (p.1 i) (p.2 i) :=
    measurable_pi_lambda _ fun i => hm.comp (g := fun p : Fin k × α => f p.1 p.2)
      (f := fun q : (Fin n → Fin k) × (Fin n → α) => (q.1 i, q.2 i)) (((measurable_pi_apply i).comp measurable_fst).prodMk
      ((measurable_pi_apply i).comp measurable_snd))
  have e := (measurePreserving_arrowProdEquivProdArrow (Fin k) α (Fin n) (fun _ => categorical w) (fun _ => ν))
  have : IsProbabilityMeasure (((categorical w).prod ν).map fun p => f p.1 p.2) := Measure.isProbabilityMeasure_map hm.aemeasurable
  rw [← e.map_eq, Measure.map_map hmp e.measurable]
  have h2 := Measure.pi_map_pi (μ := fun _ : Fin n => (categorical w).prod ν) (f := fun _ p => f p.1 p.2) fun _ => hm.aemeasurable
  simp only [← map_categorical w ν f hf]
  exact h2

theorem withDensity_list_sum {α γ : Type*} [MeasurableSpace α] (μ : Measure α) (l : List γ) (f : γ → α → ℝ)
    (hf : ∀ c, Measurable (f c)) (hpos : ∀ c ∈ l, ∀ x, 0 ≤ f c x) :
    μ.withDensity (fun x => ENNReal.ofReal (l.map fun c => f c x).sum)
      = (l.map fun c => μ.withDensity fun x => ENNReal.ofReal (f c x)).sum := by
  induction l with
  | nil => simp
  | cons c cs ih =>
    simp only [List.map_cons, List.sum_cons]
    rw [← ih fun c' hc' => hpos c' (List.mem_cons_of_mem _ hc'), ← withDensity_add_left (by exact (hf c).ennreal_ofReal)]
    congr 1
    funext x
    rw [Pi.add_apply, ENNReal.ofReal_add (hpos c (by simp) x)]
    refine List.sum_nonneg fun y hy => ?_
    obtain ⟨c', hc', rfl⟩ := List.mem_map.1 hy
    exact hpos c' (List.mem_cons_of_mem _ hc') x

/-! ## C102 -/

theorem normPdf_eq (x m : ℝ) {v : ℝ} (hv : 0 < v) : normPdf x m (√v) = gaussianPDFReal m v.toNNReal x := by
  rw [normPdf, gaussianPDFReal, Real.coe_toNNReal _ hv.le, Real.sq_sqrt hv.le]
  have hp : (0:ℝ) < 2 * Real.pi * v := by positivity
  have : -(Real.log (2 * Real.pi * v) + (x - m) ^ 2 / v) / 2
      = Real.log (√(2 * Real.pi * v))⁻¹ + -(x - m) ^ 2 / (2 * v) := by
    rw [Real.log_inv, Real.log_sqrt hp.le]
    field_simp
    ring
  rw [this, Real.exp_add, Real.exp_log (by positivity)]

theorem mixture_density (comps : List Moments1.Component) (hw : ∀ c ∈ comps, 0 ≤ c.weight) (hvar : ∀ c ∈ comps, 0 < c.variance) :
    mixture comps = volume.withDensity fun x => ENNReal.ofReal (comps.map fun c => normPdf x c.mean (√c.variance) * c.weight).sum := by
  have hm : ∀ c : Moments1.Component, Measurable fun x => normPdf x c.mean (√c.variance) * c.weight := by
    intro c; unfold normPdf; fun_prop
  rw [withDensity_list_sum _ _ _ hm fun c hc x => mul_nonneg (Real.exp_pos _).le (hw c hc), mixture]
  congr 1
  refine List.map_congr_left fun c hc => ?_
  have hv := hvar c hc
  rw [gaussianReal_of_var_ne_zero _ (by simpa using hv), ← withDensity_smul _ (measurable_gaussianPDF _ _)]
  congr 1
  funext x
  rw [normPdf_eq x _ hv, mul_comm, ENNReal.ofReal_mul (hw c hc), Pi.smul_apply, smul_eq_mul, gaussianPDF]

/-- **C102.** For non-negative weights summing to one:
* `GaussianSum1D.pdf` is non-negative, acts entry by entry, and is the density of the mixture (positive variances), so it
  integrates to one and its moments are the stored moments `rms`;
* `GaussianSum1D.sampler` returns `n` independent variables distributed as the mixture, when the indices are independent with the
  given weights and the normal draws are independent standard normal. -/
theorem C102_gaussian_sum_density (comps : List Moments1.Component) (hw : ∀ c ∈ comps, 0 ≤ c.weight)
    (h1 : (comps.map (·.weight)).sum = 1) :
    (∀ xs i, i < xs.length → (pdf1 comps xs).getD i 0 = (pdf1 comps [xs.getD i 0]).getD 0 0) ∧
    (∀ xs, (pdf1 comps xs).length = xs.length ∧ ∀ y ∈ pdf1 comps xs, 0 ≤ y) ∧
    ((∀ c ∈ comps, 0 < c.variance) →
      mixture comps = volume.withDensity (fun x => ENNReal.ofReal ((pdf1 comps [x]).getD 0 0)) ∧
      ∫ x, (pdf1 comps [x]).getD 0 0 = 1 ∧
      ∀ N ≥ 2, ∀ p < 2 * N, ∫ x, x ^ p * (pdf1 comps [x]).getD 0 0 = (Moments1.GaussianSum1D.new comps N).rms.getD p 0) ∧
    ((∀ c ∈ comps, 0 ≤ c.variance) → ∀ n : ℕ,
      ((Measure.pi fun _ : Fin n => categorical fun i : Fin comps.length => comps[i].weight).prod
        (Measure.pi fun _ : Fin n => gaussianReal 0 1)).map (fun p => sampler1 comps p.1 p.2)
        = Measure.pi fun _ : Fin n => mixture comps) := by
  have hnn : ∀ x, 0 ≤ (comps.map fun c => normPdf x c.mean (√c.variance) * c.weight).sum := by
    intro x
    refine List.sum_nonneg fun y hy => ?_
    obtain ⟨c, hc, rfl⟩ := List.mem_map.1 hy
    exact mul_nonneg (Real.exp_pos _).le (hw c hc)
  refine ⟨?_, ?_, ?_, ?_⟩
  · intro xs i hi
    simp [pdf1, List.getD_eq_getElem?_getD, hi]
  · intro xs
    refine ⟨by simp [pdf1], ?_⟩
    intro y hy
    obtain ⟨x, _, rfl⟩ := List.mem_map.1 hy
    exact hnn x
  · intro hvar
    have hd := mixture_density comps hw hvar
    have hmeas : Measurable fun x => (comps.map fun c => normPdf x c.mean (√c.variance) * c.weight).sum := by
      have : ∀ l : List Moments1.Component, Measurable fun x => (l.map fun c => normPdf x c.mean (√c.variance) * c.weight).sum := by
        intro l
        induction l with
        | nil => simp
        | cons c cs ih =>
          simp only [List.map_cons, List.sum_cons]
          refine Measurable.add ?_ ih
          unfold normPdf; fun_prop
      exact this comps
    have hint : ∀ f : ℝ → ℝ, ∫ x, f x ∂mixture comps
        = ∫ x, f x * (comps.map fun c => normPdf x c.mean (√c.variance) * c.weight).sum := by
      intro f
      rw [hd, integral_withDensity_eq_integral_toReal_smul hmeas.ennreal_ofReal (by simp)]
      refine integral_congr_ae (Filter.Eventually.of_forall fun x => ?_)
      simp only [ENNReal.toReal_ofReal (hnn x), smul_eq_mul]
      ring
    have hp := mixture_prob comps hw h1
    refine ⟨by simpa [pdf1] using hd, ?_, ?_⟩
    · have := hint fun _ => 1
      simp only [integral_const, probReal_univ, smul_eq_mul, one_mul, mul_one] at this
      simpa [pdf1] using this.symm
    · intro N hN p hpN
      have h47 := (C47_gaussian_sum comps hw h1 (fun c hc => (hvar c hc).le) N hN).2.2.2.1
      rw [h47]
      simp [pdf1, List.getD_eq_getElem?_getD, hpN, hint]
  · intro hvar n
    have hws : ∀ i : Fin comps.length, 0 ≤ comps[i].weight := fun i => hw _ (List.getElem_mem _)
    have hsum : ∑ i : Fin comps.length, comps[i].weight = 1 := by
      rw [← h1]; exact Fin.sum_univ_fun_getElem comps (·.weight)
    have := map_categorical_pi (n := n) hws hsum (gaussianReal 0 1)
      (fun i z => comps[i].mean + √comps[i].variance * z) fun i => by fun_prop
    have hmix : ∑ i : Fin comps.length, ENNReal.ofReal comps[i].weight • (gaussianReal 0 1).map (fun z => comps[i].mean + √comps[i].variance * z)
        = mixture comps := by
      rw [mixture, ← Fin.sum_univ_fun_getElem comps fun c => ENNReal.ofReal c.weight • gaussianReal c.mean c.variance.toNNReal]
      refine Finset.sum_congr rfl fun i _ => ?_
      congr 1
      have e : (fun z : ℝ => comps[i].mean + √comps[i].variance * z) = (fun y => comps[i].mean + y) ∘ fun z => √comps[i].variance * z := rfl
      rw [e, ← Measure.map_map (by fun_prop) (by fun_prop), gaussianReal_map_const_mul, gaussianReal_map_const_add]
      congr 1
      · simp
      · ext
        simp [Real.sq_sqrt (hvar _ (List.getElem_mem _)), Real.coe_toNNReal _ (hvar _ (List.getElem_mem _))]
    rw [hmix] at this
    exact this

/-- a mixture of two normal laws. -/
example : (∀ c ∈ [Moments1.Component.mk 1 1 (1/2), ⟨-1, 2, 1/2⟩], 0 ≤ c.weight ∧ 0 < c.variance) ∧
    ([Moments1.Component.mk 1 1 (1/2), ⟨-1, 2, 1/2⟩].map (·.weight)).sum = 1 := by
  norm_num

/-! ## C103 -/

variable {d : ℕ}

theorem mvnLogpdf_eq (B : Backend) (hB : B.Valid) (x m : Fin d → ℝ) {P : Matrix (Fin d) (Fin d) ℝ} (hP : P.PosDef) :
    Real.exp (mvnLogpdf B x m P) = Spec.mvnPdf m P x := by
  have hsymm : P.IsSymm := by
    have := hP.isHermitian
    rwa [Matrix.IsHermitian, Matrix.conjTranspose_eq_transpose_of_trivial] at this
  have hc : Spec.IsChol P (B.chol P) := hB.chol P hP
  have hdet : (B.chol P).det ≠ 0 := hc.isUnit_det.ne_zero
  have hlow : lowerPart (B.chol P) = B.chol P := lowerPart_eq hc.lower
  rw [mvnLogpdf, symmetrize_eq hsymm]
  simp only [hlow]
  have hdd : (B.chol P).det = ∏ i, (B.chol P) i i := Matrix.det_of_isLowerTriangular _ (fun i j hij => hc.lower i j hij)
  have hpos : 0 < (B.chol P).det := by rw [hdd]; exact Finset.prod_pos fun i _ => hc.diag_pos i
  conv_rhs => rw [← hc.mul_transpose, ← density_eq hdet]
  simp only [gaussianPDFReal, NNReal.coe_one, mul_one, sub_zero]
  rw [Finset.prod_mul_distrib, Finset.prod_const, Finset.card_univ, Fintype.card_fin, ← Real.exp_sum, abs_inv, abs_of_pos hpos]
  rw [Real.exp_sub, Real.exp_sub, ← Real.log_prod fun i _ => (hc.diag_pos i).ne', ← hdd, Real.exp_log hpos]
  have h2 : Real.exp ((d:ℝ) / 2 * Real.log (2 * Real.pi)) = √(2 * Real.pi) ^ d := by
    rw [div_mul_eq_mul_div, mul_div_assoc, ← Real.log_sqrt (by positivity), mul_comm, ← Real.rpow_def_of_pos (by positivity),
      Real.rpow_natCast]
  rw [h2]
  have h3 : -(1 / 2 : ℝ) * (((B.chol P)⁻¹ *ᵥ (x - m)) ⬝ᵥ ((B.chol P)⁻¹ *ᵥ (x - m))) = ∑ i, -((B.chol P)⁻¹ *ᵥ (x - m)) i ^ 2 / 2 := by
    rw [dotProduct, Finset.mul_sum]
    exact Finset.sum_congr rfl fun i _ => by ring
  rw [h3, inv_pow]
  field_simp

/-- **C103.** For positive definite covariances and non-negative weights summing to one:
* `GaussianSumND.pdf` is the density of the mixture, so that it integrates to one;
* `GaussianSumND.logpdf` is its logarithm, whatever maximum is subtracted inside `logsumexp`;
* `GaussianSumND.sampler` returns `n` independent vectors distributed as the mixture. -/
theorem C103_gaussian_sum_nd_density (B : Backend) (hB : B.Valid) (comps : List (MomentsND.Component d))
    (hw : ∀ c ∈ comps, 0 ≤ c.weight) (h1 : (comps.map (·.weight)).sum = 1) (hcov : ∀ c ∈ comps, c.cov.PosDef) :
    (∀ x, pdfND B comps x = (comps.map fun c => Spec.mvnPdf c.mean c.cov x * c.weight).sum ∧ 0 < pdfND B comps x) ∧
    mixtureND comps = volume.withDensity (fun x => ENNReal.ofReal (pdfND B comps (WithLp.ofLp x))) ∧
    ∫ x : EuclideanSpace ℝ (Fin d), pdfND B comps (WithLp.ofLp x) = 1 ∧
    (∀ mx x, logpdfND B mx comps x = Real.log (pdfND B comps x)) ∧
    ∀ n : ℕ,
      ((Measure.pi fun _ : Fin n => categorical fun i : Fin comps.length => comps[i].weight).prod
        (Measure.pi fun _ : Fin n => Measure.pi fun _ : Fin d => gaussianReal 0 1)).map
          (fun p i => WithLp.toLp 2 (samplerND B comps p.1 p.2 i))
        = Measure.pi fun _ : Fin n => mixtureND comps := by
  have hpdf : ∀ x, pdfND B comps x = (comps.map fun c => Spec.mvnPdf c.mean c.cov x * c.weight).sum := by
    intro x
    rw [pdfND]
    congr 1
    exact List.map_congr_left fun c hc => by rw [mvnLogpdf_eq B hB x c.mean (hcov c hc)]
  have hpos : ∀ x, 0 < pdfND B comps x := by
    intro x
    obtain ⟨c, hc, hcw⟩ : ∃ c ∈ comps, 0 < c.weight := by
      by_contra hall
      push Not at hall
      have : ∀ l : List (MomentsND.Component d), (∀ c ∈ l, c.weight ≤ 0) → (l.map (·.weight)).sum ≤ 0 := by
        intro l
        induction l with
        | nil => simp
        | cons c cs ih =>
          intro h
          rw [List.map_cons, List.sum_cons]
          exact add_nonpos (h c (by simp)) (ih fun c' hc' => h c' (List.mem_cons_of_mem _ hc'))
      linarith [this comps hall]
    rw [pdfND]
    have hnn : ∀ y ∈ comps.map fun c => Real.exp (mvnLogpdf B x c.mean c.cov) * c.weight, 0 ≤ y := by
      intro y hy
      obtain ⟨c, hc, rfl⟩ := List.mem_map.1 hy
      exact mul_nonneg (Real.exp_pos _).le (hw c hc)
    refine lt_of_lt_of_le (mul_pos (Real.exp_pos (mvnLogpdf B x c.mean c.cov)) hcw) ?_
    exact List.single_le_sum hnn _ (List.mem_map.2 ⟨c, hc, rfl⟩)
  have hm1 : ∀ c : MomentsND.Component d, Measurable fun x : EuclideanSpace ℝ (Fin d) =>
      Real.exp (mvnLogpdf B (WithLp.ofLp x) c.mean c.cov) * c.weight := by
    intro c
    refine Measurable.mul_const (Real.measurable_exp.comp ?_) _
    unfold mvnLogpdf
    have hy : Measurable fun x : EuclideanSpace ℝ (Fin d) => (lowerPart (B.chol (symmetrize c.cov)))⁻¹ *ᵥ (WithLp.ofLp x - c.mean) := by
      have h0 : Continuous (toLin' (lowerPart (B.chol (symmetrize c.cov)))⁻¹) := LinearMap.continuous_on_pi _
      have h1 : Continuous fun x : EuclideanSpace ℝ (Fin d) => WithLp.ofLp x - c.mean :=
        (PiLp.continuous_ofLp 2 _).sub continuous_const
      exact (h0.comp h1).measurable
    have hy' : ∀ i, Measurable fun x : EuclideanSpace ℝ (Fin d) => ((lowerPart (B.chol (symmetrize c.cov)))⁻¹ *ᵥ (WithLp.ofLp x - c.mean)) i :=
      fun i => (measurable_pi_apply i).comp hy
    simp only [dotProduct]
    refine Measurable.sub_const (Measurable.sub_const (Measurable.const_mul ?_ _) _) _
    exact Finset.measurable_sum _ fun i _ => (hy' i).mul (hy' i)
  have hdens : mixtureND comps = volume.withDensity (fun x => ENNReal.ofReal (pdfND B comps (WithLp.ofLp x))) := by
    unfold pdfND
    rw [withDensity_list_sum _ _ _ hm1 fun c hc x => mul_nonneg (Real.exp_pos _).le (hw c hc), mixtureND]
    congr 1
    refine List.map_congr_left fun c hc => ?_
    have hch := hB.chol c.cov (hcov c hc)
    have hdet : (B.chol c.cov).det ≠ 0 := hch.isUnit_det.ne_zero
    have hd := multivariateGaussian_density c.mean hdet
    rw [hch.mul_transpose] at hd
    have hmm : Measurable fun x : EuclideanSpace ℝ (Fin d) => ENNReal.ofReal (Spec.mvnPdf c.mean c.cov (WithLp.ofLp x)) := by
      have := hm1 ⟨c.mean, c.cov, 1⟩
      simp only [mul_one, mvnLogpdf_eq B hB _ c.mean (hcov c hc)] at this
      exact this.ennreal_ofReal
    rw [hd, ← withDensity_smul _ hmm]
    congr 1
    funext x
    rw [mvnLogpdf_eq B hB _ c.mean (hcov c hc), mul_comm, ENNReal.ofReal_mul (hw c hc), Pi.smul_apply, smul_eq_mul]
  refine ⟨fun x => ⟨hpdf x, hpos x⟩, hdens, ?_, ?_, ?_⟩
  · have hp := mixtureND_prob comps hw h1
    have h2 := hp.measure_univ
    rw [hdens, withDensity_apply _ MeasurableSet.univ, Measure.restrict_univ] at h2
    have hmeas : Measurable fun x : EuclideanSpace ℝ (Fin d) => pdfND B comps (WithLp.ofLp x) := by
      unfold pdfND
      have : ∀ l : List (MomentsND.Component d), Measurable fun x : EuclideanSpace ℝ (Fin d) =>
          (l.map fun c => Real.exp (mvnLogpdf B (WithLp.ofLp x) c.mean c.cov) * c.weight).sum := by
        intro l
        induction l with
        | nil => simp
        | cons c cs ih =>
          simp only [List.map_cons, List.sum_cons]
          exact (hm1 c).add ih
      exact this comps
    rw [integral_eq_lintegral_of_nonneg_ae (Filter.Eventually.of_forall fun x => (hpos _).le) hmeas.aestronglyMeasurable, h2]
    simp
  · intro mx x
    have hs : pdfND B comps x = Real.exp mx * (comps.map fun c => c.weight * Real.exp (mvnLogpdf B x c.mean c.cov - mx)).sum := by
      rw [pdfND, ← List.sum_map_mul_left]
      congr 1
      refine List.map_congr_left fun c _ => ?_
      rw [Real.exp_sub]
      field_simp
    have hpos' := hpos x
    rw [hs] at hpos'
    have hs0 : 0 < (comps.map fun c => c.weight * Real.exp (mvnLogpdf B x c.mean c.cov - mx)).sum :=
      pos_of_mul_pos_right hpos' (Real.exp_pos _).le
    rw [hs, Real.log_mul (Real.exp_pos _).ne' hs0.ne', Real.log_exp, logpdfND, logsumexp, List.map_map]
    rfl
  · intro n
    have hws : ∀ i : Fin comps.length, 0 ≤ comps[i].weight := fun i => hw _ (List.getElem_mem _)
    have hsum : ∑ i : Fin comps.length, comps[i].weight = 1 := by
      rw [← h1]; exact Fin.sum_univ_fun_getElem comps (·.weight)
    have hfm : ∀ i : Fin comps.length, Measurable fun z : Fin d → ℝ =>
        (WithLp.toLp 2 (comps[i].mean + B.chol (symmetrize comps[i].cov) *ᵥ z) : EuclideanSpace ℝ (Fin d)) := by
      intro i
      have h0 : Continuous (toLin' (B.chol (symmetrize comps[i].cov))) := LinearMap.continuous_on_pi _
      exact ((PiLp.continuous_toLp 2 _).comp (continuous_const.add h0)).measurable
    have := map_categorical_pi (n := n) hws hsum (Measure.pi fun _ : Fin d => gaussianReal 0 1) _ hfm
    have hmix : ∑ i : Fin comps.length, ENNReal.ofReal comps[i].weight • (Measure.pi fun _ : Fin d => gaussianReal 0 1).map
        (fun z => (WithLp.toLp 2 (comps[i].mean + B.chol (symmetrize comps[i].cov) *ᵥ z) : EuclideanSpace ℝ (Fin d)))
        = mixtureND comps := by
      rw [mixtureND, ← Fin.sum_univ_fun_getElem comps fun c => ENNReal.ofReal c.weight • multivariateGaussian (WithLp.toLp 2 c.mean) c.cov]
      refine Finset.sum_congr rfl fun i _ => ?_
      have hP := hcov comps[i] (List.getElem_mem _)
      have hsymm : comps[i].cov.IsSymm := by
        have := hP.isHermitian
        rwa [Matrix.IsHermitian, Matrix.conjTranspose_eq_transpose_of_trivial] at this
      rw [map_stdGaussian, symmetrize_eq hsymm, (hB.chol _ hP).mul_transpose]
      rfl
    rw [hmix] at this
    exact this

/-- a mixture of two bivariate normal laws. -/
example : (∀ c ∈ [MomentsND.Component.mk ![1, 0] (1 : Matrix (Fin 2) (Fin 2) ℝ) (1/4), ⟨![0, 1], 1, 3/4⟩], c.cov.PosDef) ∧
    ([MomentsND.Component.mk ![1, 0] (1 : Matrix (Fin 2) (Fin 2) ℝ) (1/4), ⟨![0, 1], 1, 3/4⟩].map (·.weight)).sum = 1 := by
  constructor
  · intro c hc
    simp only [List.mem_cons, List.not_mem_nil, or_false] at hc
    rcases hc with rfl | rfl <;> exact Matrix.PosDef.one
  · norm_num

end Mfs.Props

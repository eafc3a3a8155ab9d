import Verif.Model.CramerRao
import Verif.Props.GaussianSum
import Verif.Props.VanTrees
import Verif.Props.Pcrlb
import Verif.Lemmas.KalmanExact
import Mathlib.Analysis.Calculus.FDeriv.Pi
import Mathlib.Analysis.Calculus.FDeriv.Mul
import Mathlib.Analysis.SpecialFunctions.Log.Deriv
import Mathlib.Analysis.SpecialFunctions.ExpDeriv

/-!
# C200: the Cramér–Rao script of the prey–predator model
-/

namespace Mfs.Props

open Matrix Mfs.Lemmas Mfs.Spec Mfs.Pcrlb Mfs.GaussianSum Mfs.MomentsND MeasureTheory ProbabilityTheory Filter Topology

variable {d : ℕ}

/-! ## Derivatives of the density of a Gaussian sum -/

/-- the score of a component, `Σ⁻¹ (m - x)`. -/
noncomputable def compScore (c : Component d) (x : Fin d → ℝ) : Fin d → ℝ := c.cov⁻¹ *ᵥ (c.mean - x)

/-- the density of a Gaussian sum. -/
noncomputable def mixPdf (comps : List (Component d)) (x : Fin d → ℝ) : ℝ := ∑ k : Fin comps.length, mvnPdf comps[k].mean comps[k].cov x * comps[k].weight

/-- the probability of a component given the point. -/
noncomputable def respons (comps : List (Component d)) (k : Fin comps.length) (x : Fin d → ℝ) : ℝ :=
  mvnPdf comps[k].mean comps[k].cov x * comps[k].weight / mixPdf comps x

/-- the mean of the scores of the components given the point. -/
noncomputable def mixScore (comps : List (Component d)) (x : Fin d → ℝ) : Fin d → ℝ := fun i =>
  ∑ k : Fin comps.length, respons comps k x * compScore comps[k] x i

theorem pd_eq {f : (Fin d → ℝ) → ℝ} {x : Fin d → ℝ} {L : (Fin d → ℝ) →L[ℝ] ℝ} (h : HasFDerivAt f L x) (i : Fin d) :
    pd f x i = L (Pi.single i 1) := by rw [pd, h.fderiv]

/-- the derivative of a Gaussian density. -/
theorem mvnPdf_hasFDerivAt (c : Component d) (hc : c.cov.PosDef) (x : Fin d → ℝ) :
    DifferentiableAt ℝ (mvnPdf c.mean c.cov) x ∧ ∀ i, pd (mvnPdf c.mean c.cov) x i = mvnPdf c.mean c.cov x * compScore c x i := by
  have hsq : 0 < Real.sqrt ((2 * Real.pi) ^ d * c.cov.det) := Real.sqrt_pos.2 (mul_pos (pow_pos (by positivity) _) hc.det_pos)
  have hpos : ∀ u, 0 < mvnPdf c.mean c.cov u := fun u => div_pos (Real.exp_pos _) hsq
  have he : mvnPdf c.mean c.cov = fun u => Real.exp (-Real.log (Real.sqrt ((2 * Real.pi) ^ d * c.cov.det)) -
      (1 / 2) * ((-c.mean + (1 : Matrix (Fin d) (Fin d) ℝ) *ᵥ u) ⬝ᵥ c.cov⁻¹ *ᵥ (-c.mean + (1 : Matrix (Fin d) (Fin d) ℝ) *ᵥ u))) := by
    funext u
    rw [one_mulVec, neg_add_eq_sub, ← log_mvnPdf c.cov hc c.mean u, Real.exp_log (hpos u)]
  have hs : (c.cov⁻¹)ᵀ = c.cov⁻¹ := hc.inv.posSemidef.symm
  set f : (Fin d → ℝ) → ℝ := fun u => -Real.log (Real.sqrt ((2 * Real.pi) ^ d * c.cov.det)) -
      (1 / 2) * ((-c.mean + (1 : Matrix (Fin d) (Fin d) ℝ) *ᵥ u) ⬝ᵥ c.cov⁻¹ *ᵥ (-c.mean + (1 : Matrix (Fin d) (Fin d) ℝ) *ᵥ u)) with hf
  have hd : DifferentiableAt ℝ f x := by
    simp only [hf, mulVec, dotProduct, Pi.add_apply]; fun_prop
  have hd' := hd.hasFDerivAt.exp
  have he' : mvnPdf c.mean c.cov = fun u => Real.exp (f u) := he
  rw [he']
  refine ⟨hd'.differentiableAt, fun i => ?_⟩
  rw [pd_eq hd' i]
  have hq : pd f x i = compScore c x i := by
    rw [hf, pd_quad _ _ _ _ hs, transpose_one, one_mulVec, one_mulVec, compScore, neg_add_eq_sub, ← neg_sub c.mean x, mulVec_neg, Pi.neg_apply, neg_neg]
  change Real.exp (f x) * pd f x i = _
  rw [hq]

theorem compScore_pd (c : Component d) (x : Fin d → ℝ) (i : Fin d) :
    DifferentiableAt ℝ (fun u => compScore c u i) x ∧ ∀ j, pd (fun u => compScore c u i) x j = -c.cov⁻¹ i j := by
  refine ⟨by simp only [compScore, mulVec, dotProduct, Pi.sub_apply]; fun_prop, fun j => ?_⟩
  have := pd_affine (c.cov⁻¹ *ᵥ c.mean) (-c.cov⁻¹) x i j
  rw [Matrix.neg_apply] at this
  rw [← this]
  congr 1
  funext u
  rw [compScore, mulVec_sub, neg_mulVec, sub_eq_add_neg]

section
variable (comps : List (Component d)) (hw : ∀ c ∈ comps, 0 ≤ c.weight) (h1 : (comps.map (·.weight)).sum = 1) (hcov : ∀ c ∈ comps, c.cov.PosDef)
include hw h1 hcov

theorem mixPdf_eq (B : Backend) (hB : B.Valid) (x : Fin d → ℝ) : pdfND B comps x = mixPdf comps x ∧ 0 < mixPdf comps x := by
  obtain ⟨h, h'⟩ := (C103_gaussian_sum_nd_density B hB comps hw h1 hcov).1 x
  have e : pdfND B comps x = mixPdf comps x := by
    rw [h, mixPdf, ← Fin.sum_univ_fun_getElem comps fun c => mvnPdf c.mean c.cov x * c.weight]
    rfl
  exact ⟨e, e ▸ h'⟩

theorem initLogpdf_eq (B : Backend) (hB : B.Valid) (mx : (Fin d → ℝ) → ℝ) : initLogpdf B mx comps = fun x => Real.log (mixPdf comps x) := by
  funext x
  rw [initLogpdf, (C103_gaussian_sum_nd_density B hB comps hw h1 hcov).2.2.2.1, (mixPdf_eq comps hw h1 hcov B hB x).1]

theorem mixPdf_pd (x : Fin d → ℝ) : DifferentiableAt ℝ (mixPdf comps) x ∧ ∀ i, pd (mixPdf comps) x i = mixPdf comps x * mixScore comps x i := by
  have hpos := (mixPdf_eq comps hw h1 hcov theBackend theBackend_valid x).2
  have hk := fun k : Fin comps.length => mvnPdf_hasFDerivAt comps[k] (hcov _ (List.getElem_mem _)) x
  have hF : HasFDerivAt (mixPdf comps) (∑ k : Fin comps.length, comps[k].weight • fderiv ℝ (mvnPdf comps[k].mean comps[k].cov) x) x := by
    have := HasFDerivAt.fun_sum (u := Finset.univ) fun (k : Fin comps.length) _ => ((hk k).1.hasFDerivAt.mul_const comps[k].weight)
    exact this
  refine ⟨hF.differentiableAt, fun i => ?_⟩
  rw [pd_eq hF i, _root_.sum_apply, mixScore, Finset.mul_sum]
  refine Finset.sum_congr rfl fun k _ => ?_
  rw [_root_.smul_apply, smul_eq_mul]
  change comps[k].weight * pd (mvnPdf comps[k].mean comps[k].cov) x i = _
  rw [(hk k).2, respons]
  field_simp

/-- **C200 (score and Hessian).** The derivative of `init_cond.logpdf` is the mean of the scores of the components given the point, and `init_fisher` is the mean of the
second derivatives of the components plus the covariance of their scores given the point, whatever maximum is subtracted inside `logsumexp`. -/
theorem C200_hessian (B : Backend) (hB : B.Valid) (mx : (Fin d → ℝ) → ℝ) (x : Fin d → ℝ) :
    (∀ i, pd (initLogpdf B mx comps) x i = mixScore comps x i) ∧
    ∀ i j, initFisher B mx comps x i j =
      ∑ k : Fin comps.length, respons comps k x * (compScore comps[k] x i * compScore comps[k] x j - comps[k].cov⁻¹ i j) - mixScore comps x i * mixScore comps x j := by
  have hpos := fun u => (mixPdf_eq comps hw h1 hcov theBackend theBackend_valid u).2
  have hp := mixPdf_pd comps hw h1 hcov
  have hlog : ∀ u i, pd (fun x => Real.log (mixPdf comps x)) u i = mixScore comps u i := by
    intro u i
    rw [pd_eq ((hp u).1.hasFDerivAt.log (hpos u).ne') i, _root_.smul_apply, smul_eq_mul]
    change (mixPdf comps u)⁻¹ * pd (mixPdf comps) u i = _
    rw [(hp u).2, inv_mul_cancel_left₀ (hpos u).ne']
  rw [initLogpdf_eq comps hw h1 hcov B hB mx]
  refine ⟨hlog x, fun i j => ?_⟩
  rw [initFisher, initLogpdf_eq comps hw h1 hcov B hB mx, hess, Matrix.of_apply]
  simp only [hlog]
  -- the numerator of the score
  set num : (Fin d → ℝ) → ℝ := fun u => ∑ k : Fin comps.length, mvnPdf comps[k].mean comps[k].cov u * comps[k].weight * compScore comps[k] u i with hnum
  have hsc : (fun u => mixScore comps u i) = fun u => num u * (mixPdf comps u)⁻¹ := by
    funext u
    rw [mixScore, hnum, Finset.sum_mul]
    refine Finset.sum_congr rfl fun k _ => ?_
    rw [respons]; ring
  have hk := fun k : Fin comps.length => mvnPdf_hasFDerivAt comps[k] (hcov _ (List.getElem_mem _)) x
  have hs := fun k : Fin comps.length => compScore_pd comps[k] x i
  have hN : HasFDerivAt num (∑ k : Fin comps.length, ((mvnPdf comps[k].mean comps[k].cov x * comps[k].weight) • fderiv ℝ (fun u => compScore comps[k] u i) x
      + compScore comps[k] x i • (comps[k].weight • fderiv ℝ (mvnPdf comps[k].mean comps[k].cov) x))) x :=
    HasFDerivAt.fun_sum (u := Finset.univ) fun (k : Fin comps.length) _ =>
      ((hk k).1.hasFDerivAt.mul_const comps[k].weight).mul (hs k).1.hasFDerivAt
  have hpdN : pd num x j = ∑ k : Fin comps.length, mvnPdf comps[k].mean comps[k].cov x * comps[k].weight *
      (compScore comps[k] x i * compScore comps[k] x j - comps[k].cov⁻¹ i j) := by
    rw [pd_eq hN j, _root_.sum_apply]
    refine Finset.sum_congr rfl fun k _ => ?_
    have e1 : fderiv ℝ (fun u => compScore comps[k] u i) x (Pi.single j 1) = -comps[k].cov⁻¹ i j := (hs k).2 j
    have e2 : fderiv ℝ (mvnPdf comps[k].mean comps[k].cov) x (Pi.single j 1) = mvnPdf comps[k].mean comps[k].cov x * compScore comps[k] x j := (hk k).2 j
    simp only [_root_.add_apply, _root_.smul_apply, smul_eq_mul, e1, e2]
    ring
  have hinv : HasFDerivAt (fun u => (mixPdf comps u)⁻¹) (-((mixPdf comps x) ^ 2)⁻¹ • fderiv ℝ (mixPdf comps) x) x := by
    have := (hasDerivAt_inv (hpos x).ne').comp_hasFDerivAt x (hp x).1.hasFDerivAt
    exact this
  rw [hsc, pd_eq (hN.fun_mul hinv) j]
  have e3 : fderiv ℝ num x (Pi.single j 1) = _ := hpdN
  rw [hN.fderiv] at e3
  have e4 : fderiv ℝ (mixPdf comps) x (Pi.single j 1) = mixPdf comps x * mixScore comps x j := (hp x).2 j
  rw [_root_.add_apply, _root_.smul_apply, _root_.smul_apply, _root_.smul_apply, e3, e4]
  have e5 : mixScore comps x i = num x * (mixPdf comps x)⁻¹ := congrFun hsc x
  have hne := (hpos x).ne'
  rw [e5]
  simp only [smul_eq_mul]
  have e6 : ∑ k : Fin comps.length, respons comps k x * (compScore comps[k] x i * compScore comps[k] x j - comps[k].cov⁻¹ i j)
      = (mixPdf comps x)⁻¹ * ∑ k : Fin comps.length, mvnPdf comps[k].mean comps[k].cov x * comps[k].weight *
      (compScore comps[k] x i * compScore comps[k] x j - comps[k].cov⁻¹ i j) := by
    rw [Finset.mul_sum]
    refine Finset.sum_congr rfl fun k _ => ?_
    rw [respons]; ring
  rw [e6]
  field_simp
  ring

end

/-! ## The limit of `j0` -/

theorem compScore_continuous (c : Component d) (i : Fin d) : Continuous fun x => compScore c x i := by
  simp only [compScore, mulVec, dotProduct, Pi.sub_apply]; fun_prop

/-- the law of a component has the Gaussian density. -/
theorem mvn_withDensity (c : Component d) (hc : c.cov.PosDef) : multivariateGaussian (WithLp.toLp 2 c.mean) c.cov
    = volume.withDensity fun x : EuclideanSpace ℝ (Fin d) => ENNReal.ofReal (mvnPdf c.mean c.cov (WithLp.ofLp x)) := by
  obtain ⟨h, h', _⟩ := C103_gaussian_sum_nd_density theBackend theBackend_valid [⟨c.mean, c.cov, 1⟩] (by simp) (by simp) (by simpa using hc)
  simp only [fun x => (h x).1] at h'
  simpa [mixtureND] using h'

theorem compScore_cov (c : Component d) (hc : c.cov.PosDef) (i j : Fin d) :
    MemLp (fun x : EuclideanSpace ℝ (Fin d) => compScore c (WithLp.ofLp x) i) 2 (multivariateGaussian (WithLp.toLp 2 c.mean) c.cov) ∧
    ∫ x : EuclideanSpace ℝ (Fin d), compScore c (WithLp.ofLp x) i ∂multivariateGaussian (WithLp.toLp 2 c.mean) c.cov = 0 ∧
    ∫ x : EuclideanSpace ℝ (Fin d), compScore c (WithLp.ofLp x) i * x j ∂multivariateGaussian (WithLp.toLp 2 c.mean) c.cov = -(1 : Matrix (Fin d) (Fin d) ℝ) i j ∧
    ∫ x : EuclideanSpace ℝ (Fin d), compScore c (WithLp.ofLp x) i * compScore c (WithLp.ofLp x) j ∂multivariateGaussian (WithLp.toLp 2 c.mean) c.cov = c.cov⁻¹ i j := by
  set μ := multivariateGaussian (WithLp.toLp 2 c.mean) c.cov with hμ
  have hL : ∀ i, MemLp (fun x : EuclideanSpace ℝ (Fin d) => c.mean i - x i) 2 μ := fun i => (memLp_const _).sub (mvn_memLp c.mean c.cov i)
  have hmean : ∀ i, ∫ x : EuclideanSpace ℝ (Fin d), (c.mean i - x i) ∂μ = 0 := by
    intro i
    rw [integral_sub (integrable_const _) ((mvn_memLp c.mean c.cov i).integrable (by norm_num)), mvn_mean c.mean hc.posSemidef]
    simp
  have hsec : ∀ i j, ∫ x : EuclideanSpace ℝ (Fin d), (c.mean i - x i) * x j ∂μ = -c.cov i j := by
    intro i j
    have h1 : Integrable (fun x : EuclideanSpace ℝ (Fin d) => c.mean i * x j) μ := ((mvn_memLp c.mean c.cov j).integrable (by norm_num)).const_mul _
    simp only [sub_mul]
    rw [integral_sub h1 (mvn_second c.mean hc.posSemidef i j).1, integral_const_mul, mvn_mean c.mean hc.posSemidef, (mvn_second c.mean hc.posSemidef i j).2]
    ring
  have hsum : ∀ (i : Fin d) (x : EuclideanSpace ℝ (Fin d)), compScore c (WithLp.ofLp x) i = ∑ k, c.cov⁻¹ i k * (c.mean k - x k) := fun i x => rfl
  have hS : ∀ i, MemLp (fun x : EuclideanSpace ℝ (Fin d) => compScore c (WithLp.ofLp x) i) 2 μ := by
    intro i
    simp only [hsum]
    exact memLp_finsetSum _ fun k _ => (hL k).const_mul _
  have h0 : ∀ i, ∫ x : EuclideanSpace ℝ (Fin d), compScore c (WithLp.ofLp x) i ∂μ = 0 := by
    intro i
    simp only [hsum]
    rw [integral_finsetSum _ fun k _ => ((hL k).integrable (by norm_num)).const_mul _]
    simp only [integral_const_mul, hmean, mul_zero, Finset.sum_const_zero]
  have hx : ∀ i j, ∫ x : EuclideanSpace ℝ (Fin d), compScore c (WithLp.ofLp x) i * x j ∂μ = -(1 : Matrix (Fin d) (Fin d) ℝ) i j := by
    intro i j
    simp only [hsum, Finset.sum_mul, mul_assoc]
    have hi : ∀ k, Integrable (fun x : EuclideanSpace ℝ (Fin d) => (c.cov⁻¹ : Matrix _ _ ℝ) i k * ((c.mean k - x k) * x j)) μ := fun k =>
      ((hL k).integrable_mul (mvn_memLp c.mean c.cov j)).const_mul _
    rw [integral_finsetSum _ fun k _ => hi k]
    simp only [integral_const_mul, hsec]
    rw [← Matrix.nonsing_inv_mul _ (posDef_det hc), Matrix.mul_apply, ← Finset.sum_neg_distrib]
    exact Finset.sum_congr rfl fun k _ => by ring
  refine ⟨hS i, h0 i, hx i j, ?_⟩
  have e : ∀ x : EuclideanSpace ℝ (Fin d), compScore c (WithLp.ofLp x) i * compScore c (WithLp.ofLp x) j
      = ∑ k, (c.cov⁻¹ j k * c.mean k * compScore c (WithLp.ofLp x) i - c.cov⁻¹ j k * (compScore c (WithLp.ofLp x) i * x k)) := by
    intro x
    rw [hsum j, Finset.mul_sum]
    exact Finset.sum_congr rfl fun k _ => by ring
  simp only [e]
  have hi1 : ∀ k, Integrable (fun x : EuclideanSpace ℝ (Fin d) => c.cov⁻¹ j k * c.mean k * compScore c (WithLp.ofLp x) i) μ :=
    fun k => ((hS i).integrable (by norm_num)).const_mul _
  have hi2 : ∀ k, Integrable (fun x : EuclideanSpace ℝ (Fin d) => c.cov⁻¹ j k * (compScore c (WithLp.ofLp x) i * x k)) μ :=
    fun k => ((hS i).integrable_mul (mvn_memLp c.mean c.cov k)).const_mul _
  have hi3 : ∀ k, Integrable (fun x : EuclideanSpace ℝ (Fin d) => c.cov⁻¹ j k * c.mean k * compScore c (WithLp.ofLp x) i
      - c.cov⁻¹ j k * (compScore c (WithLp.ofLp x) i * x k)) μ := fun k => (hi1 k).sub (hi2 k)
  rw [integral_finsetSum _ fun k _ => hi3 k]
  have hs : (c.cov⁻¹)ᵀ = c.cov⁻¹ := hc.inv.posSemidef.symm
  have : ∀ k, ∫ x : EuclideanSpace ℝ (Fin d), (c.cov⁻¹ j k * c.mean k * compScore c (WithLp.ofLp x) i - c.cov⁻¹ j k * (compScore c (WithLp.ofLp x) i * x k)) ∂μ
      = c.cov⁻¹ j k * (1 : Matrix (Fin d) (Fin d) ℝ) i k := by
    intro k
    rw [integral_sub (hi1 k) (hi2 k), integral_const_mul, integral_const_mul, h0, hx]
    ring
  simp only [this]
  rw [Finset.sum_eq_single i (fun k _ hk => by rw [Matrix.one_apply_ne hk.symm, mul_zero]) (by simp), Matrix.one_apply_eq, mul_one]
  exact congrFun (congrFun hs i) j

/-- a bilinear form of integrals. -/
theorem integral_bilin {E : Type} [MeasurableSpace E] {μ : Measure E} {f g : Fin d → E → ℝ} (hf : ∀ i, MemLp (f i) 2 μ) (hg : ∀ i, MemLp (g i) 2 μ) (v b : Fin d → ℝ) :
    MemLp (fun x => ∑ i, v i * f i x) 2 μ ∧
    ∫ x, (∑ i, v i * f i x) * (∑ j, b j * g j x) ∂μ = v ⬝ᵥ (Matrix.of fun i j => ∫ x, f i x * g j x ∂μ) *ᵥ b := by
  refine ⟨memLp_finsetSum _ fun i _ => (hf i).const_mul _, ?_⟩
  have hi : ∀ i j, Integrable (fun x => v i * b j * (f i x * g j x)) μ := fun i j => ((hf i).integrable_mul (hg j)).const_mul _
  have e : ∀ x, (∑ i, v i * f i x) * (∑ j, b j * g j x) = ∑ i, ∑ j, v i * b j * (f i x * g j x) := by
    intro x
    rw [Finset.sum_mul_sum]
    exact Finset.sum_congr rfl fun i _ => Finset.sum_congr rfl fun j _ => by ring
  simp only [e]
  rw [integral_finsetSum _ fun i _ => integrable_finsetSum _ fun j _ => hi i j, dotProduct]
  refine Finset.sum_congr rfl fun i _ => ?_
  rw [integral_finsetSum _ fun j _ => hi i j, mulVec, dotProduct, Finset.mul_sum]
  refine Finset.sum_congr rfl fun j _ => ?_
  rw [integral_const_mul, Matrix.of_apply]
  ring

section
variable (comps : List (Component d)) (hw : ∀ c ∈ comps, 0 ≤ c.weight) (h1 : (comps.map (·.weight)).sum = 1) (hcov : ∀ c ∈ comps, c.cov.PosDef)
include hw h1 hcov

theorem respons_facts (k : Fin comps.length) : Continuous (respons comps k) ∧ ∀ x, 0 ≤ respons comps k x ∧ respons comps k x ≤ 1 := by
  have hpos := fun u => (mixPdf_eq comps hw h1 hcov theBackend theBackend_valid u).2
  have hc : ∀ k : Fin comps.length, Continuous fun x => mvnPdf comps[k].mean comps[k].cov x * comps[k].weight := fun k =>
    (mvnPdf_continuous _ continuous_const continuous_id).mul continuous_const
  have h0 : ∀ (k : Fin comps.length) x, 0 ≤ mvnPdf comps[k].mean comps[k].cov x * comps[k].weight := fun k x =>
    mul_nonneg (mvnPdf_nonneg _ _ _) (hw _ (List.getElem_mem _))
  refine ⟨(hc k).div (continuous_finsetSum _ fun k _ => hc k) fun x => (hpos x).ne', fun x => ⟨div_nonneg (h0 k x) (hpos x).le, ?_⟩⟩
  rw [respons, div_le_one (hpos x)]
  exact Finset.single_le_sum (f := fun k : Fin comps.length => mvnPdf comps[k].mean comps[k].cov x * comps[k].weight) (fun k _ => h0 k x) (Finset.mem_univ k)

theorem respons_integral (k : Fin comps.length) (F : EuclideanSpace ℝ (Fin d) → ℝ) :
    ∫ x, respons comps k (WithLp.ofLp x) * F x ∂mixtureND comps = comps[k].weight * ∫ x, F x ∂multivariateGaussian (WithLp.toLp 2 comps[k].mean) comps[k].cov := by
  have hpos := fun u => (mixPdf_eq comps hw h1 hcov theBackend theBackend_valid u).2
  have hd : mixtureND comps = volume.withDensity fun x => ENNReal.ofReal (mixPdf comps (WithLp.ofLp x)) := by
    rw [(C103_gaussian_sum_nd_density theBackend theBackend_valid comps hw h1 hcov).2.1]
    simp only [fun x => (mixPdf_eq comps hw h1 hcov theBackend theBackend_valid x).1]
  have hc : ∀ k : Fin comps.length, Continuous fun x : EuclideanSpace ℝ (Fin d) => mvnPdf comps[k].mean comps[k].cov (WithLp.ofLp x) := fun k =>
    mvnPdf_continuous _ continuous_const (PiLp.continuous_ofLp 2 _)
  have hcm : Continuous fun x : EuclideanSpace ℝ (Fin d) => mixPdf comps (WithLp.ofLp x) :=
    continuous_finsetSum _ fun k _ => (hc k).mul continuous_const
  rw [hd, mvn_withDensity comps[k] (hcov _ (List.getElem_mem _)),
    integral_withDensity_eq_integral_toReal_smul hcm.measurable.ennreal_ofReal (Eventually.of_forall fun x => ENNReal.ofReal_lt_top),
    integral_withDensity_eq_integral_toReal_smul (hc k).measurable.ennreal_ofReal (Eventually.of_forall fun x => ENNReal.ofReal_lt_top), ← integral_const_mul]
  refine integral_congr_ae (Eventually.of_forall fun x => ?_)
  simp only [ENNReal.toReal_ofReal (hpos _).le, ENNReal.toReal_ofReal (mvnPdf_nonneg _ _ _), smul_eq_mul, respons]
  have := (hpos (WithLp.ofLp x)).ne'
  field_simp

omit h1 hcov in
theorem coord_memLp (i : Fin d) : MemLp (fun x : EuclideanSpace ℝ (Fin d) => x i) 2 (mixtureND comps) := by
  have hm : Continuous fun x : EuclideanSpace ℝ (Fin d) => x i := by fun_prop
  rw [memLp_two_iff_integrable_sq hm.aestronglyMeasurable]
  refine (integral_mixtureND comps hw _ fun c hc => ?_).1
  exact (mvn_memLp c.mean c.cov i).integrable_sq

/-- **C200 (limit).** For independent samples of the Gaussian sum, `j0` converges almost surely to the information matrix of the initial law, the mean of the outer product of its score. This
matrix is positive definite, and the bound computed from it is at most the covariance of the initial law, in every direction. -/
theorem C200_limit (B : Backend) (hB : B.Valid) (mx : (Fin d → ℝ) → ℝ) {Ω : Type} [MeasurableSpace Ω] (P : Measure Ω)
    (Z : ℕ → Ω → EuclideanSpace ℝ (Fin d)) (hZ : ∀ n, Measurable (Z n)) (hlaw : ∀ n, P.map (Z n) = mixtureND comps)
    (hind : Pairwise fun m n => IndepFun (Z m) (Z n) P) :
    let I : Matrix (Fin d) (Fin d) ℝ := Matrix.of fun i j => ∫ x, pd (initLogpdf B mx comps) (WithLp.ofLp x) i * pd (initLogpdf B mx comps) (WithLp.ofLp x) j ∂mixtureND comps
    (∀ᵐ ω ∂P, Tendsto (fun n : ℕ => crJ0 B mx comps fun i : Fin n => WithLp.ofLp (Z i ω)) atTop (𝓝 I)) ∧ I.PosDef ∧
    ∀ (b : Fin d → ℝ) mi, b ⬝ᵥ I⁻¹ *ᵥ b ≤ b ⬝ᵥ (GaussianSumND.new comps mi).cov *ᵥ b := by
  intro I
  have hprob := mixtureND_prob comps hw h1
  set μ := mixtureND comps with hμ
  have hw1 : ∑ k : Fin comps.length, comps[k].weight = 1 := by
    rw [← h1]; exact Fin.sum_univ_fun_getElem comps (·.weight)
  have hx := coord_memLp comps hw
  have hq := respons_facts comps hw h1 hcov
  have hof : Continuous fun x : EuclideanSpace ℝ (Fin d) => WithLp.ofLp x := PiLp.continuous_ofLp 2 _
  have hs2 : ∀ (k : Fin comps.length) i, MemLp (fun x : EuclideanSpace ℝ (Fin d) => compScore comps[k] (WithLp.ofLp x) i) 2 μ := by
    intro k i
    have : ∀ x : EuclideanSpace ℝ (Fin d), compScore comps[k] (WithLp.ofLp x) i = ∑ l, comps[k].cov⁻¹ i l * (comps[k].mean l - x l) := fun x => rfl
    simp only [this]
    exact memLp_finsetSum _ fun l _ => ((memLp_const _).sub (hx l)).const_mul _
  have hqs : ∀ (k : Fin comps.length) i, MemLp (fun x : EuclideanSpace ℝ (Fin d) => respons comps k (WithLp.ofLp x) * compScore comps[k] (WithLp.ofLp x) i) 2 μ := by
    intro k i
    refine (hs2 k i).of_le (((hq k).1.comp hof).mul ((compScore_continuous _ i).comp hof)).aestronglyMeasurable (Eventually.of_forall fun x => ?_)
    rw [norm_mul, Real.norm_of_nonneg ((hq k).2 _).1]
    exact mul_le_of_le_one_left (norm_nonneg _) ((hq k).2 _).2
  have hqi : ∀ k : Fin comps.length, Integrable (fun x : EuclideanSpace ℝ (Fin d) => respons comps k (WithLp.ofLp x)) μ := fun k =>
    (integrable_const (1 : ℝ)).mono' ((hq k).1.comp hof).aestronglyMeasurable
      (Eventually.of_forall fun x => by rw [Real.norm_of_nonneg ((hq k).2 _).1]; exact ((hq k).2 _).2)
  have hS : ∀ i, MemLp (fun x : EuclideanSpace ℝ (Fin d) => mixScore comps (WithLp.ofLp x) i) 2 μ := fun i =>
    memLp_finsetSum _ fun k _ => hqs k i
  have hIe : I = Matrix.of fun i j => ∫ x : EuclideanSpace ℝ (Fin d), mixScore comps (WithLp.ofLp x) i * mixScore comps (WithLp.ofLp x) j ∂μ := by
    ext i j
    simp only [I, Matrix.of_apply]
    refine integral_congr_ae (Eventually.of_forall fun x => ?_)
    simp only [(C200_hessian comps hw h1 hcov B hB mx (WithLp.ofLp x)).1]
  have hR := respons_integral comps hw h1 hcov
  have hC := fun (k : Fin comps.length) i j => compScore_cov comps[k] (hcov _ (List.getElem_mem _)) i j
  have hCi : ∀ (k : Fin comps.length) i j, Integrable (fun x : EuclideanSpace ℝ (Fin d) => compScore comps[k] (WithLp.ofLp x) i * compScore comps[k] (WithLp.ofLp x) j)
      (multivariateGaussian (WithLp.toLp 2 comps[k].mean) comps[k].cov) := fun k i j => (hC k i j).1.integrable_mul (hC k j i).1
  -- the Hessian
  have hH1 : ∀ (k : Fin comps.length) i j, Integrable (fun x : EuclideanSpace ℝ (Fin d) => respons comps k (WithLp.ofLp x) *
      (compScore comps[k] (WithLp.ofLp x) i * compScore comps[k] (WithLp.ofLp x) j - comps[k].cov⁻¹ i j)) μ := by
    intro k i j
    have := ((hqs k i).integrable_mul (hs2 k j)).sub ((hqi k).mul_const (comps[k].cov⁻¹ i j))
    refine this.congr (Eventually.of_forall fun x => ?_)
    simp only [Pi.sub_apply, Pi.mul_apply]
    ring
  have hSS : ∀ i j, Integrable (fun x : EuclideanSpace ℝ (Fin d) => mixScore comps (WithLp.ofLp x) i * mixScore comps (WithLp.ofLp x) j) μ :=
    fun i j => (hS i).integrable_mul (hS j)
  have hH : ∀ i j, Integrable (fun x : EuclideanSpace ℝ (Fin d) => initFisher B mx comps (WithLp.ofLp x) i j) μ ∧
      ∫ x : EuclideanSpace ℝ (Fin d), initFisher B mx comps (WithLp.ofLp x) i j ∂μ = -I i j := by
    intro i j
    simp only [fun x : EuclideanSpace ℝ (Fin d) => (C200_hessian comps hw h1 hcov B hB mx (WithLp.ofLp x)).2 i j]
    refine ⟨(integrable_finsetSum _ fun k _ => hH1 k i j).sub (hSS i j), ?_⟩
    rw [integral_sub (integrable_finsetSum _ fun k _ => hH1 k i j) (hSS i j), integral_finsetSum _ fun k _ => hH1 k i j, hIe]
    have : ∀ k : Fin comps.length, ∫ x : EuclideanSpace ℝ (Fin d), respons comps k (WithLp.ofLp x) *
      (compScore comps[k] (WithLp.ofLp x) i * compScore comps[k] (WithLp.ofLp x) j - comps[k].cov⁻¹ i j) ∂μ = 0 := by
      intro k
      rw [hμ, hR k fun x => compScore comps[k] (WithLp.ofLp x) i * compScore comps[k] (WithLp.ofLp x) j - comps[k].cov⁻¹ i j,
        integral_sub (hCi k i j) (integrable_const _), (hC k i j).2.2.2]
      simp
    simp only [this, Finset.sum_const_zero, zero_sub, Matrix.of_apply]
  -- score and state
  set M : Fin d → ℝ := fun j => ∫ x : EuclideanSpace ℝ (Fin d), x j ∂μ with hM
  have hx0 : ∀ j, MemLp (fun x : EuclideanSpace ℝ (Fin d) => x j - M j) 2 μ := fun j => (hx j).sub (memLp_const _)
  have hSx : (Matrix.of fun i j => ∫ x : EuclideanSpace ℝ (Fin d), mixScore comps (WithLp.ofLp x) i * (x j - M j) ∂μ) = -(1 : Matrix (Fin d) (Fin d) ℝ) := by
    ext i j
    rw [Matrix.of_apply]
    have e : ∀ x : EuclideanSpace ℝ (Fin d), mixScore comps (WithLp.ofLp x) i * (x j - M j)
        = ∑ k : Fin comps.length, respons comps k (WithLp.ofLp x) * (compScore comps[k] (WithLp.ofLp x) i * x j - M j * compScore comps[k] (WithLp.ofLp x) i) := by
      intro x
      rw [mixScore, Finset.sum_mul]
      exact Finset.sum_congr rfl fun k _ => by ring
    simp only [e]
    have hi : ∀ k : Fin comps.length, Integrable (fun x : EuclideanSpace ℝ (Fin d) =>
        respons comps k (WithLp.ofLp x) * (compScore comps[k] (WithLp.ofLp x) i * x j - M j * compScore comps[k] (WithLp.ofLp x) i)) μ := by
      intro k
      refine ((hqs k i).integrable_mul (hx0 j)).congr (Eventually.of_forall fun x => ?_)
      simp only [Pi.mul_apply]
      ring
    rw [integral_finsetSum _ fun k _ => hi k]
    have : ∀ k : Fin comps.length, ∫ x : EuclideanSpace ℝ (Fin d),
        respons comps k (WithLp.ofLp x) * (compScore comps[k] (WithLp.ofLp x) i * x j - M j * compScore comps[k] (WithLp.ofLp x) i) ∂μ
        = comps[k].weight * -(1 : Matrix (Fin d) (Fin d) ℝ) i j := by
      intro k
      have hi1 : Integrable (fun x : EuclideanSpace ℝ (Fin d) => compScore comps[k] (WithLp.ofLp x) i * x j)
          (multivariateGaussian (WithLp.toLp 2 comps[k].mean) comps[k].cov) := (hC k i j).1.integrable_mul (mvn_memLp _ _ j)
      have hi2 : Integrable (fun x : EuclideanSpace ℝ (Fin d) => M j * compScore comps[k] (WithLp.ofLp x) i)
          (multivariateGaussian (WithLp.toLp 2 comps[k].mean) comps[k].cov) := ((hC k i j).1.integrable (by norm_num)).const_mul _
      rw [hμ, hR k fun x => compScore comps[k] (WithLp.ofLp x) i * x j - M j * compScore comps[k] (WithLp.ofLp x) i,
        integral_sub hi1 hi2, integral_const_mul, (hC k i j).2.1, (hC k i j).2.2.1, mul_zero, sub_zero]
    simp only [this]
    rw [← Finset.sum_mul, hw1, one_mul, Matrix.neg_apply]
  have hcv : ∀ mi, (GaussianSumND.new comps mi).cov = Matrix.of fun i j => ∫ x : EuclideanSpace ℝ (Fin d), (x i - M i) * (x j - M j) ∂μ := by
    intro mi
    ext i j
    have := (C66_gaussian_sum comps hw h1 (fun c h => (hcov c h).posSemidef) mi).2.2.1 i j
    rw [this]
    rfl
  have hcs : ∀ (v b : Fin d → ℝ) mi, (v ⬝ᵥ b) ^ 2 ≤ (v ⬝ᵥ I *ᵥ v) * (b ⬝ᵥ (GaussianSumND.new comps mi).cov *ᵥ b) := by
    intro v b mi
    obtain ⟨m1, e1⟩ := integral_bilin hS hS v v
    obtain ⟨m2, e2⟩ := integral_bilin hx0 hx0 b b
    have e3 := (integral_bilin hS hx0 v b).2
    rw [hSx, neg_mulVec, one_mulVec, dotProduct_neg] at e3
    rw [← hIe] at e1
    rw [← hcv mi] at e2
    have h := VanTrees.cauchy_schwarz (μ := μ) (p := fun _ => 1) (a := fun x => ∑ i, v i * mixScore comps (WithLp.ofLp x) i) (b := fun x => ∑ j, b j * (x j - M j))
      (fun _ => zero_le_one) (by simpa using m1.integrable_sq) (by simpa using m2.integrable_sq) (by simp only [one_mul]; exact m1.integrable_mul m2)
    simp only [one_mul, sq] at h
    rw [e1, e2, e3] at h
    nlinarith [h]
  have hIs : Iᵀ = I := by
    rw [hIe]
    ext i j
    simp only [Matrix.transpose_apply, Matrix.of_apply, mul_comm]
  have hpd : I.PosDef := by
    refine Matrix.PosDef.of_dotProduct_mulVec_pos (by rw [Matrix.IsHermitian, Matrix.conjTranspose_eq_transpose_of_trivial, hIs]) fun v hv => ?_
    rw [star_trivial]
    have h0 : 0 ≤ v ⬝ᵥ I *ᵥ v := by
      rw [hIe, ← (integral_bilin hS hS v v).2]
      exact integral_nonneg fun x => mul_self_nonneg _
    refine lt_of_le_of_ne h0 fun he => ?_
    have h := hcs v v []
    rw [← he, zero_mul] at h
    have : v ⬝ᵥ v = 0 := by nlinarith [sq_nonneg (v ⬝ᵥ v)]
    exact hv (dotProduct_self_eq_zero.1 this)
  refine ⟨?_, hpd, fun b mi => ?_⟩
  · have h := mean_lln P Z hZ μ hlaw hind (fun x => initFisher B mx comps (WithLp.ofLp x)) fun i j => (hH i j).1
    have e : (Matrix.of fun i j => -∫ z : EuclideanSpace ℝ (Fin d), initFisher B mx comps (WithLp.ofLp z) i j ∂μ) = I := by
      ext i j
      rw [Matrix.of_apply, (hH i j).2, neg_neg]
    rw [e] at h
    exact h
  · have h := hcs (I⁻¹ *ᵥ b) b mi
    rw [mulVec_mulVec, Matrix.mul_nonsing_inv _ (posDef_det hpd), one_mulVec, dotProduct_comm (I⁻¹ *ᵥ b) b] at h
    have hp : 0 ≤ b ⬝ᵥ I⁻¹ *ᵥ b := by
      have := hpd.inv.posSemidef.dotProduct_mulVec_nonneg b
      rwa [star_trivial] at this
    rcases hp.eq_or_lt with h0 | h0
    · rw [← h0, hcv mi, ← (integral_bilin hx0 hx0 b b).2]
      exact integral_nonneg fun x => mul_self_nonneg _
    · rw [sq] at h
      exact le_of_mul_le_mul_left h h0

end

/-! ## Samples of finite size -/

/-- **C200 (one component).** For a single Gaussian `j0` is the inverse of its covariance, whatever the samples. -/
theorem C200_single (B : Backend) (hB : B.Valid) (mx : (Fin d → ℝ) → ℝ) (m : Fin d → ℝ) (C : Matrix (Fin d) (Fin d) ℝ) (hC : C.PosDef) {n : ℕ} (hn : 0 < n)
    (x0s : Fin n → Fin d → ℝ) : crJ0 B mx [⟨m, C, 1⟩] x0s = C⁻¹ := by
  have h : ∀ x, initFisher B mx [⟨m, C, 1⟩] x = -C⁻¹ := by
    intro x
    ext i j
    have hpos := (mixPdf_eq [⟨m, C, 1⟩] (by simp) (by simp) (by simpa using hC) B hB x).2
    have hr : respons [⟨m, C, 1⟩] 0 x = 1 := by
      rw [respons, div_eq_one_iff_eq hpos.ne', mixPdf]
      simp
    rw [(C200_hessian [⟨m, C, 1⟩] (by simp) (by simp) (by simpa using hC) B hB mx x).2 i j]
    simp only [mixScore]
    have e : ∀ f : Fin ([⟨m, C, 1⟩] : List (Component d)).length → ℝ, ∑ k, f k = f 0 := fun f => Fin.sum_univ_one f
    rw [e, e, e, hr]
    simp only [Matrix.neg_apply]
    change 1 * (compScore ⟨m, C, 1⟩ x i * compScore ⟨m, C, 1⟩ x j - C⁻¹ i j) - 1 * compScore ⟨m, C, 1⟩ x i * (1 * compScore ⟨m, C, 1⟩ x j) = -C⁻¹ i j
    ring
  rw [crJ0]
  simp only [h, mean_const hn, neg_neg]

/-- **C200, refutation.** For a general Gaussian sum `j0` from finitely many samples need not be positive semidefinite. -/
theorem C200_indefinite_refuted (B : Backend) (hB : B.Valid) (mx : (Fin 1 → ℝ) → ℝ) : ∃ comps : List (Component 1), (∀ c ∈ comps, 0 ≤ c.weight) ∧
    (comps.map (·.weight)).sum = 1 ∧ (∀ c ∈ comps, c.cov.PosDef) ∧ ∃ x0s : Fin 1 → Fin 1 → ℝ, crJ0 B mx comps x0s = -(8 : ℝ) • (1 : Matrix (Fin 1) (Fin 1) ℝ) := by
  have hpd : (1 : Matrix (Fin 1) (Fin 1) ℝ).PosDef := Matrix.PosDef.one
  set comps : List (Component 1) := [⟨fun _ => 3, 1, 1 / 2⟩, ⟨fun _ => -3, 1, 1 / 2⟩] with hcomps
  have hw : ∀ c ∈ comps, 0 ≤ c.weight := by simp [hcomps]
  have h1 : (comps.map (·.weight)).sum = 1 := by simp [hcomps]; norm_num
  have hcov : ∀ c ∈ comps, c.cov.PosDef := by simp [hcomps, hpd]
  refine ⟨comps, hw, h1, hcov, fun _ _ => 0, ?_⟩
  rw [crJ0, mean_const one_pos]
  ext i j
  obtain rfl : i = 0 := Subsingleton.elim _ _
  obtain rfl : j = 0 := Subsingleton.elim _ _
  rw [Matrix.neg_apply, (C200_hessian comps hw h1 hcov B hB mx _).2 0 0]
  have e : ∀ f : Fin comps.length → ℝ, ∑ k, f k = f (0 : Fin 2) + f (1 : Fin 2) := fun f => Fin.sum_univ_two f
  have hd : ∀ t : ℝ, mvnPdf (fun _ : Fin 1 => t) 1 (fun _ => 0) = Real.exp (-(t * t) / 2) / Real.sqrt (2 * Real.pi) := by
    intro t
    simp [mvnPdf, dotProduct]
  have hp : 0 < Real.exp (-(3 * 3) / 2) / Real.sqrt (2 * Real.pi) := by positivity
  have hm : mixPdf comps (fun _ => 0) = Real.exp (-(3 * 3) / 2) / Real.sqrt (2 * Real.pi) := by
    rw [mixPdf, e]
    change mvnPdf (fun _ : Fin 1 => (3 : ℝ)) 1 (fun _ => 0) * (1 / 2) + mvnPdf (fun _ : Fin 1 => (-3 : ℝ)) 1 (fun _ => 0) * (1 / 2) = _
    rw [hd, hd, neg_mul_neg]; ring
  have r0 : respons comps (0 : Fin 2) (fun _ => 0) = 1 / 2 := by
    rw [respons, hm]
    change mvnPdf (fun _ : Fin 1 => (3 : ℝ)) 1 (fun _ => 0) * (1 / 2) / _ = _
    rw [hd]; field_simp
  have r1 : respons comps (1 : Fin 2) (fun _ => 0) = 1 / 2 := by
    rw [respons, hm]
    change mvnPdf (fun _ : Fin 1 => (-3 : ℝ)) 1 (fun _ => 0) * (1 / 2) / _ = _
    rw [hd, neg_mul_neg]; field_simp
  have s0 : compScore comps[(0 : Fin 2)] (fun _ => 0) 0 = 3 := by
    change compScore ⟨fun _ => 3, 1, 1 / 2⟩ (fun _ => 0) 0 = 3
    simp [compScore]
  have s1 : compScore comps[(1 : Fin 2)] (fun _ => 0) 0 = -3 := by
    change compScore ⟨fun _ => -3, 1, 1 / 2⟩ (fun _ => 0) 0 = -3
    simp [compScore]
  have c0 : (comps[(0 : Fin 2)]).cov = 1 := rfl
  have c1 : (comps[(1 : Fin 2)]).cov = 1 := rfl
  rw [mixScore, e, e, r0, r1, s0, s1, c0, c1]
  simp
  norm_num

/-! ## The initial law of the prey–predator model -/

/-- the initial law of the model: two components with the same mean and covariances `s` and `2 s` times the identity, `/repo/mfs/multi_dims/ss_models.py:47-53`
(`m = (1, 1)`, `s = 0.001`). -/
noncomputable abbrev preyComps (m : Fin 2 → ℝ) (s : ℝ) : List (Component 2) := [⟨m, s • 1, 1 / 2⟩, ⟨m, (2 * s) • 1, 1 / 2⟩]

theorem mvnPdf_scalar (m x : Fin 2 → ℝ) {s : ℝ} (hs : 0 < s) :
    mvnPdf m (s • (1 : Matrix (Fin 2) (Fin 2) ℝ)) x = Real.exp (-((x - m) ⬝ᵥ (x - m) / s) / 2) / (2 * Real.pi * s) := by
  have hinv : (s • (1 : Matrix (Fin 2) (Fin 2) ℝ))⁻¹ = s⁻¹ • 1 := by
    rw [Matrix.inv_eq_right_inv]
    rw [smul_mul_smul_comm, mul_inv_cancel₀ hs.ne', one_mul, one_smul]
  rw [mvnPdf, hinv, smul_mulVec, one_mulVec, dotProduct_smul, smul_eq_mul, inv_mul_eq_div, Matrix.det_smul, Fintype.card_fin, Matrix.det_one, mul_one, ← mul_pow,
    Real.sqrt_sq (by positivity)]

/-- **C200 (prey–predator).** For the initial law of the model minus every Hessian is positive definite, so that `j0` is positive definite for all samples. -/
theorem C200_prey (B : Backend) (hB : B.Valid) (mx : (Fin 2 → ℝ) → ℝ) (m : Fin 2 → ℝ) {s : ℝ} (hs : 0 < s) :
    (∀ x, (-initFisher B mx (preyComps m s) x).PosDef) ∧ ∀ {n : ℕ} (_ : 0 < n) (x0s : Fin n → Fin 2 → ℝ), (crJ0 B mx (preyComps m s) x0s).PosDef := by
  have hpd : ∀ t : ℝ, 0 < t → (t • (1 : Matrix (Fin 2) (Fin 2) ℝ)).PosDef := fun t ht => Matrix.PosDef.one.smul ht
  have hw : ∀ c ∈ preyComps m s, 0 ≤ c.weight := by simp [preyComps]
  have h1 : ((preyComps m s).map (·.weight)).sum = 1 := by simp [preyComps]; norm_num
  have hcov : ∀ c ∈ preyComps m s, c.cov.PosDef := by
    intro c hc
    simp only [preyComps, List.mem_cons, List.not_mem_nil, or_false] at hc
    rcases hc with rfl | rfl
    · exact hpd s hs
    · exact hpd (2 * s) (by linarith)
  have hinv : ∀ t : ℝ, 0 < t → (t • (1 : Matrix (Fin 2) (Fin 2) ℝ))⁻¹ = t⁻¹ • 1 := fun t ht => by
    rw [Matrix.inv_eq_right_inv]
    rw [smul_mul_smul_comm, mul_inv_cancel₀ ht.ne', one_mul, one_smul]
  have e : ∀ f : Fin (preyComps m s).length → ℝ, ∑ k, f k = f (0 : Fin 2) + f (1 : Fin 2) := fun f => Fin.sum_univ_two f
  have key : ∀ x, (-initFisher B mx (preyComps m s) x).PosDef := by
    intro x
    obtain ⟨z, hz⟩ : ∃ z, z = m - x := ⟨_, rfl⟩
    obtain ⟨u, hu⟩ : ∃ u, u = (z ⬝ᵥ z) / s := ⟨_, rfl⟩
    obtain ⟨E, hE⟩ : ∃ E, E = Real.exp (-u / 4) := ⟨_, rfl⟩
    have hE0 : 0 < E := hE ▸ Real.exp_pos _
    have hxz : (x - m) ⬝ᵥ (x - m) = z ⬝ᵥ z := by rw [hz, ← neg_sub m x, neg_dotProduct_neg]
    have hp0 : mvnPdf m (s • (1 : Matrix (Fin 2) (Fin 2) ℝ)) x = E ^ 2 / (2 * Real.pi * s) := by
      rw [mvnPdf_scalar m x hs, hxz, ← hu, hE, ← Real.exp_nat_mul]
      congr 2
      push_cast; ring
    have hp1 : mvnPdf m ((2 * s) • (1 : Matrix (Fin 2) (Fin 2) ℝ)) x = E / (2 * Real.pi * (2 * s)) := by
      rw [mvnPdf_scalar m x (by linarith), hxz, hE, hu]
      congr 2
      field_simp
      ring
    have hpi := Real.pi_pos
    have hm : mixPdf (preyComps m s) x = E * (2 * E + 1) / (8 * Real.pi * s) := by
      rw [mixPdf, e]
      change mvnPdf m (s • (1 : Matrix (Fin 2) (Fin 2) ℝ)) x * (1 / 2) + mvnPdf m ((2 * s) • (1 : Matrix (Fin 2) (Fin 2) ℝ)) x * (1 / 2) = _
      rw [hp0, hp1]; field_simp; ring
    have hden : 0 < 2 * E + 1 := by linarith
    have r0 : respons (preyComps m s) (0 : Fin 2) x = 2 * E / (2 * E + 1) := by
      rw [respons, hm]
      change mvnPdf m (s • (1 : Matrix (Fin 2) (Fin 2) ℝ)) x * (1 / 2) / _ = _
      rw [hp0]; field_simp; try norm_num
    have r1 : respons (preyComps m s) (1 : Fin 2) x = 1 / (2 * E + 1) := by
      rw [respons, hm]
      change mvnPdf m ((2 * s) • (1 : Matrix (Fin 2) (Fin 2) ℝ)) x * (1 / 2) / _ = _
      rw [hp1]; field_simp; try norm_num
    have s0 : ∀ i, compScore (preyComps m s)[(0 : Fin 2)] x i = z i / s := by
      intro i
      change compScore ⟨m, s • 1, 1 / 2⟩ x i = _
      simp only [compScore]
      rw [hinv s hs, smul_mulVec, one_mulVec, Pi.smul_apply, smul_eq_mul, ← hz, inv_mul_eq_div]
    have s1 : ∀ i, compScore (preyComps m s)[(1 : Fin 2)] x i = z i / (2 * s) := by
      intro i
      change compScore ⟨m, (2 * s) • 1, 1 / 2⟩ x i = _
      simp only [compScore]
      rw [hinv (2 * s) (by linarith), smul_mulVec, one_mulVec, Pi.smul_apply, smul_eq_mul, ← hz, inv_mul_eq_div]
    have c0 : ((preyComps m s)[(0 : Fin 2)]).cov⁻¹ = s⁻¹ • 1 := hinv s hs
    have c1 : ((preyComps m s)[(1 : Fin 2)]).cov⁻¹ = (2 * s)⁻¹ • 1 := hinv (2 * s) (by linarith)
    have hms : ∀ i, mixScore (preyComps m s) x i = 2 * E / (2 * E + 1) * (z i / s) + 1 / (2 * E + 1) * (z i / (2 * s)) := by
      intro i
      rw [mixScore, e, r0, r1, s0, s1]
    have hF : -initFisher B mx (preyComps m s) x = ((4 * E + 1) / (2 * s * (2 * E + 1))) • (1 : Matrix (Fin 2) (Fin 2) ℝ)
        - (E / (2 * s ^ 2 * (2 * E + 1) ^ 2)) • vecMulVec z z := by
      ext i j
      rw [Matrix.neg_apply, (C200_hessian _ hw h1 hcov B hB mx x).2 i j, hms, hms, e, r0, r1, s0, s0, s1, s1, c0, c1]
      simp only [Matrix.smul_apply, Matrix.sub_apply, vecMulVec_apply, smul_eq_mul]
      field_simp
      ring
    have hEu : E * u < 4 * E + 1 := by
      have h2 := Real.add_one_le_exp (u / 4 - 2)
      have h3 : Real.exp (u / 4 - 2) * E = Real.exp (-2) := by rw [hE, ← Real.exp_add]; congr 1; ring
      have h4 : Real.exp (-2) < 1 / 4 := by
        rw [Real.exp_neg, inv_eq_one_div]
        refine one_div_lt_one_div_of_lt (by norm_num) ?_
        have := Real.add_one_lt_exp (x := 1) one_ne_zero
        have e2 : Real.exp 2 = Real.exp 1 * Real.exp 1 := by rw [← Real.exp_add]; norm_num
        rw [e2]; nlinarith
      nlinarith [mul_le_mul_of_nonneg_right h2 hE0.le]
    rw [hF]
    refine Matrix.PosDef.of_dotProduct_mulVec_pos ?_ fun v hv => ?_
    · rw [Matrix.IsHermitian, Matrix.conjTranspose_eq_transpose_of_trivial]
      ext i j
      simp only [Matrix.transpose_apply, Matrix.sub_apply, Matrix.smul_apply, vecMulVec_apply, Matrix.one_apply, eq_comm (a := i), mul_comm (z i)]
    · have hvv : 0 < v ⬝ᵥ v := by
        have h0 : 0 ≤ v ⬝ᵥ v := Finset.sum_nonneg fun i _ => mul_self_nonneg _
        exact lt_of_le_of_ne h0 fun h => hv (dotProduct_self_eq_zero.1 h.symm)
      have hcs : (v ⬝ᵥ z) ^ 2 ≤ (v ⬝ᵥ v) * (z ⬝ᵥ z) := by
        simp only [dotProduct, Fin.sum_univ_two]
        nlinarith [sq_nonneg (v 0 * z 1 - v 1 * z 0)]
      have hzz : z ⬝ᵥ z = u * s := by rw [hu]; field_simp
      rw [star_trivial, sub_mulVec, smul_mulVec, smul_mulVec, one_mulVec, vecMulVec_mulVec, dotProduct_sub, dotProduct_smul, dotProduct_smul]
      have ev : v ⬝ᵥ (MulOpposite.op (z ⬝ᵥ v) • z) = (v ⬝ᵥ z) ^ 2 := by
        rw [dotProduct_smul, dotProduct_comm z v, MulOpposite.smul_eq_mul_unop, MulOpposite.unop_op, sq]
      rw [hzz] at hcs
      rw [ev, smul_eq_mul, smul_eq_mul]
      have h5 : E / (2 * s ^ 2 * (2 * E + 1) ^ 2) * (v ⬝ᵥ z) ^ 2 ≤ E / (2 * s ^ 2 * (2 * E + 1) ^ 2) * ((v ⬝ᵥ v) * (u * s)) :=
        mul_le_mul_of_nonneg_left hcs (by positivity)
      have h6 : E / (2 * s ^ 2 * (2 * E + 1) ^ 2) * ((v ⬝ᵥ v) * (u * s)) < (4 * E + 1) / (2 * s * (2 * E + 1)) * (v ⬝ᵥ v) := by
        have : E / (2 * s ^ 2 * (2 * E + 1) ^ 2) * ((v ⬝ᵥ v) * (u * s)) = (E * u / (2 * E + 1)) * ((v ⬝ᵥ v) / (2 * s * (2 * E + 1))) := by
          field_simp
        rw [this]
        have h7 : E * u / (2 * E + 1) < 4 * E + 1 := by
          rw [div_lt_iff₀ hden]
          nlinarith
        have h8 : 0 < (v ⬝ᵥ v) / (2 * s * (2 * E + 1)) := by positivity
        calc _ < (4 * E + 1) * ((v ⬝ᵥ v) / (2 * s * (2 * E + 1))) := mul_lt_mul_of_pos_right h7 h8
          _ = _ := by ring
      linarith
  refine ⟨key, fun {n} hn x0s => ?_⟩
  have : crJ0 B mx (preyComps m s) x0s = (n : ℝ)⁻¹ • ∑ i, -initFisher B mx (preyComps m s) (x0s i) := by
    rw [crJ0, mean, Finset.sum_neg_distrib, smul_neg]
  rw [this]
  have : Nonempty (Fin n) := ⟨⟨0, hn⟩⟩
  exact (Matrix.posDef_sum Finset.univ_nonempty fun i _ => key _).smul (by positivity)

/-! ## Transition and likelihood -/

/-- **C200 (transition).** Minus the Hessian of `logpdf_transition` in the new state is the inverse of the conditional covariance, whatever the new state. -/
theorem C200_transition (B : Backend) (hB : B.Valid) (mAndCov : (Fin d → ℝ) → (Fin d → ℝ) × Matrix (Fin d) (Fin d) ℝ) (xs : Fin d → ℝ) (hP : (mAndCov xs).2.PosDef)
    (xt : Fin d → ℝ) : hess (fun t => crLogT B mAndCov t xs) xt = -((mAndCov xs).2)⁻¹ := by
  have h : (fun t => crLogT B mAndCov t xs) = fun t => Real.log (mvnPdf (mAndCov xs).1 (mAndCov xs).2 t) := by
    funext t
    rw [crLogT, ← mvnLogpdf_eq B hB t _ hP, Real.log_exp]
  rw [h]
  have := hess_quad (-Real.log (Real.sqrt ((2 * Real.pi) ^ d * (mAndCov xs).2.det))) (-(mAndCov xs).1) 1 ((mAndCov xs).2)⁻¹ hP.inv.posSemidef.symm xt
  simp only [one_mulVec, neg_add_eq_sub, transpose_one, Matrix.one_mul, Matrix.mul_one] at this
  simpa only [log_mvnPdf _ hP] using this

theorem pd_first (f : ℝ → ℝ) (x : Fin 2 → ℝ) {f' : ℝ} (h : HasDerivAt f f' (x 0)) (i : Fin 2) : pd (fun u : Fin 2 → ℝ => f (u 0)) x i = if i = 0 then f' else 0 := by
  have h' : HasFDerivAt (fun u : Fin 2 → ℝ => f (u 0)) (f' • ContinuousLinearMap.proj (R := ℝ) (φ := fun _ : Fin 2 => ℝ) 0) x :=
    h.comp_hasFDerivAt x (hasFDerivAt_apply (𝕜 := ℝ) 0 x)
  rw [pd_eq h' i]
  simp [Pi.single_apply, eq_comm]

/-- **C200 (likelihood).** The Hessian of `logpdf_likelihood` has a single entry, `6 x (y - p) - 9 x⁴ p (1 - p)` for the prey `x` with `p` its emission; its mean over the measurement
is never positive. -/
theorem C200_likelihood (y : Fin 1 → ℝ) (x : Fin 2 → ℝ) :
    let p := SsModels.preyEmission (x 0)
    0 < p ∧ p < 1 ∧ (∀ i j, hess (crLogL y) x i j = if i = 0 ∧ j = 0 then 6 * x 0 * (y 0 - p) - 9 * x 0 ^ 4 * (p * (1 - p)) else 0) ∧
    p * hess (crLogL fun _ => 1) x 0 0 + (1 - p) * hess (crLogL fun _ => 0) x 0 0 ≤ 0 := by
  intro p
  have hq : ∀ t : ℝ, 0 < 1 + Real.exp (-t ^ 3 + 1) := fun t => by positivity
  have hp : ∀ t : ℝ, 0 < SsModels.preyEmission t ∧ SsModels.preyEmission t < 1 := fun t => by
    rw [SsModels.preyEmission]
    exact ⟨by positivity, by rw [div_lt_one (hq t)]; linarith [Real.exp_pos (-t ^ 3 + 1)]⟩
  have hp' : ∀ t : ℝ, HasDerivAt SsModels.preyEmission (3 * t ^ 2 * (SsModels.preyEmission t * (1 - SsModels.preyEmission t))) t := by
    intro t
    have h1 : HasDerivAt (fun t : ℝ => -t ^ 3 + 1) (-(3 * t ^ 2)) t := by
      simpa using ((hasDerivAt_pow 3 t).neg).add_const 1
    have h2 := (h1.exp.const_add 1).inv (hq t).ne'
    have e : SsModels.preyEmission = fun t : ℝ => (1 + Real.exp (-t ^ 3 + 1))⁻¹ := by funext t; rw [SsModels.preyEmission, one_div]
    rw [e]
    refine h2.congr_deriv ?_
    have := (hq t).ne'
    field_simp
    ring
  have hl : ∀ (y : Fin 1 → ℝ) (t : ℝ), HasDerivAt (fun t => y 0 * Real.log (SsModels.preyEmission t) + (1 - y 0) * Real.log (1 - SsModels.preyEmission t))
      (3 * t ^ 2 * (y 0 - SsModels.preyEmission t)) t := by
    intro y t
    have h1 := ((hp' t).log (hp t).1.ne').const_mul (y 0)
    have h2 := (((hp' t).const_sub 1).log (sub_pos.2 (hp t).2).ne').const_mul (1 - y 0)
    refine (h1.add h2).congr_deriv ?_
    have a1 := (hp t).1.ne'
    have a2 := (sub_pos.2 (hp t).2).ne'
    field_simp
    ring
  have hH : ∀ y : Fin 1 → ℝ, ∀ i j, hess (crLogL y) x i j = if i = 0 ∧ j = 0 then 6 * x 0 * (y 0 - p) - 9 * x 0 ^ 4 * (p * (1 - p)) else 0 := by
    intro y i j
    rw [hess, Matrix.of_apply]
    have e1 : (fun u => pd (crLogL y) u i) = fun u : Fin 2 → ℝ => (fun t => if i = 0 then 3 * t ^ 2 * (y 0 - SsModels.preyEmission t) else 0) (u 0) := by
      funext u
      exact pd_first (fun t => y 0 * Real.log (SsModels.preyEmission t) + (1 - y 0) * Real.log (1 - SsModels.preyEmission t)) u (hl y (u 0)) i
    rw [e1]
    by_cases hi : i = 0
    · simp only [hi, if_true, true_and]
      have h2 : HasDerivAt (fun t => 3 * t ^ 2 * (y 0 - SsModels.preyEmission t)) (6 * x 0 * (y 0 - p) - 9 * x 0 ^ 4 * (p * (1 - p))) (x 0) := by
        refine (((hasDerivAt_pow 2 (x 0)).const_mul 3).mul ((hp' (x 0)).const_sub (y 0))).congr_deriv ?_
        simp only [p]
        push_cast
        ring
      exact pd_first _ x h2 j
    · simp only [hi, if_false, false_and]
      rw [pd_first (fun _ => 0) x (hasDerivAt_const _ _) j, ite_self]
  refine ⟨(hp _).1, (hp _).2, hH y, ?_⟩
  rw [hH, hH]
  simp only [and_self, if_true]
  have : p * (6 * x 0 * (1 - p) - 9 * x 0 ^ 4 * (p * (1 - p))) + (1 - p) * (6 * x 0 * (0 - p) - 9 * x 0 ^ 4 * (p * (1 - p))) = -(9 * x 0 ^ 4 * (p * (1 - p))) := by ring
  rw [this]
  have : 0 ≤ p * (1 - p) := mul_nonneg (hp _).1.le (sub_pos.2 (hp _).2).le
  have : 0 ≤ 9 * x 0 ^ 4 * (p * (1 - p)) := by positivity
  linarith

/-- for a single measurement the likelihood can contribute negative information. -/
theorem C200_likelihood_refuted : ∃ (y : Fin 1 → ℝ) (x : Fin 2 → ℝ), y 0 = 1 ∧ -hess (crLogL y) x 0 0 < 0 := by
  refine ⟨fun _ => 1, fun _ => 1, rfl, ?_⟩
  have h := (C200_likelihood (fun _ => 1) (fun _ => 1)).2.2.1 0 0
  rw [h]
  have e : SsModels.preyEmission 1 = 1 / 2 := by
    rw [SsModels.preyEmission]; norm_num
  simp only [e]
  norm_num

/-- **C200 (run).** The script returns one matrix per measurement time if there are as many states as measurements, and fails otherwise. -/
theorem C200_run (B : Backend) (mx : (Fin 2 → ℝ) → ℝ) (comps : List (Component 2)) (mAndCov : (Fin 2 → ℝ) → (Fin 2 → ℝ) × Matrix (Fin 2) (Fin 2) ℝ) {n : ℕ}
    (x0s : Fin n → Fin 2 → ℝ) (xss : List (Fin n → Fin 2 → ℝ)) (yss : List (Fin n → Fin 1 → ℝ)) :
    (crlbs B mx comps mAndCov x0s xss yss).map List.length = if xss.length = yss.length then some yss.length else none := by
  rw [crlbs, posteriorCramerRao]
  by_cases h : xss.length = yss.length
  · rw [if_pos h, if_pos ⟨by simpa using h, by simpa using h⟩]
    simp [scan_length, h]
  · rw [if_neg h, if_neg (by simp [h])]
    rfl

/-- the initial law of the script, and the refutation of positivity in one dimension, have admissible parameters. -/
example : (0 : ℝ) < 0.001 ∧ (∀ c ∈ preyComps ![1, 1] 0.001, 0 ≤ c.weight) ∧ ((preyComps ![1, 1] 0.001).map (·.weight)).sum = 1 := by
  refine ⟨by norm_num, by simp [preyComps], by simp [preyComps]; norm_num⟩

end Mfs.Props

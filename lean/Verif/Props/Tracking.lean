import Verif.Model.Tracking
import Verif.Props.LinearPred
import Verif.Props.Lti
import Verif.Props.GaussianSum
import Mathlib.Analysis.SpecialFunctions.Complex.Arg

/-!
# C194: the notebook on tracking with bearings only
-/

namespace Mfs.Props

open Matrix Mfs.Tracking Mfs.Utils Mfs.Spec Mfs.QuadND Mfs.FilterND Mfs.MomentsND Mfs.StrongND
open MeasureTheory ProbabilityTheory Filter Topology

section discretisation

open NormedSpace
open scoped Matrix.Norms.Operator

theorem exp_trackA (s : ℝ) : exp (s • trackA) = !![1, s; 0, 1] := by
  have h2 : (s • trackA) ^ 2 = 0 := by
    ext i j
    fin_cases i <;> fin_cases j <;> simp [trackA, pow_two, Matrix.mul_apply]
  rw [exp_eq_tsum ℝ]
  simp only
  rw [tsum_eq_sum (s := Finset.range 2) fun n hn => ?_]
  · ext i j
    fin_cases i <;> fin_cases j <;> simp [trackA, Finset.sum_range_succ]
  · obtain ⟨k, rfl⟩ := Nat.exists_eq_add_of_le (not_lt.1 (mt Finset.mem_range.2 hn))
    rw [pow_add, h2, zero_mul, smul_zero]

/-- **C194 (discretisation).** For every sampling time, `discretise_lti_sde` returns for the `A` and `B` of the notebook the transition matrix and the
covariance of an integrated Wiener process; the covariance is positive definite although `B` is singular. -/
theorem C194_discretisation (dt : ℝ) :
    discretiseLtiSde trackA trackB dt = (!![1, dt; 0, 1], !![dt ^ 3 / 3, dt ^ 2 / 2; dt ^ 2 / 2, dt]) ∧
    (0 < dt → (discretiseLtiSde trackA trackB dt).2.PosDef) := by
  obtain ⟨h1, h2, -, -, -⟩ := C54_discretise trackA trackB
  have e : discretiseLtiSde trackA trackB dt = (!![1, dt; 0, 1], !![dt ^ 3 / 3, dt ^ 2 / 2; dt ^ 2 / 2, dt]) := by
    refine Prod.ext ?_ ?_
    · rw [h1, exp_trackA]
    · ext i j
      rw [h2]
      simp only [exp_trackA]
      have hm : ∀ s : ℝ, (!![1, s; 0, 1] * trackB * trackBᵀ * (!![1, s; 0, 1] : Matrix (Fin 2) (Fin 2) ℝ)ᵀ) = !![s ^ 2, s; s, 1] := fun s => by
        ext i j
        fin_cases i <;> fin_cases j <;> simp [trackB, Matrix.mul_apply, Fin.sum_univ_two, pow_two, vecMul, dotProduct]
      simp only [hm]
      fin_cases i <;> fin_cases j <;> simp [integral_pow]
      all_goals norm_num
  refine ⟨e, fun hdt => ?_⟩
  rw [e]
  refine PosDef.of_dotProduct_mulVec_pos ?_ fun v hv => ?_
  · rw [IsHermitian, conjTranspose_eq_transpose_of_trivial]
    ext i j
    fin_cases i <;> fin_cases j <;> simp
  · have h : star v ⬝ᵥ !![dt ^ 3 / 3, dt ^ 2 / 2; dt ^ 2 / 2, dt] *ᵥ v = dt * (v 1 + dt / 2 * v 0) ^ 2 + dt ^ 3 / 12 * v 0 ^ 2 := by
      simp [dotProduct, mulVec, Fin.sum_univ_two]
      ring
    rw [h]
    by_cases h0 : v 0 = 0
    · have h1 : v 1 ≠ 0 := fun h1 => hv (by ext i; fin_cases i <;> simp [h0, h1])
      rw [h0]
      have : 0 < v 1 ^ 2 := by positivity
      nlinarith
    · positivity

end discretisation

theorem trackF_eq : trackF = !![1, 1 / 100; 0, 1] := by
  rw [trackF, (C194_discretisation trackDt).1, trackDt]
  norm_num

theorem trackQ_eq : trackQ = !![1 / 3000000, 1 / 20000; 1 / 20000, 1 / 100] := by
  rw [trackQ, (C194_discretisation trackDt).1, trackDt]
  norm_num

theorem trackQ_posDef : trackQ.PosDef := (C194_discretisation trackDt).2 (by norm_num [trackDt])

theorem arctan_div {x : ℝ} (hx : x ≠ 0) (y : ℝ) : Real.arctan (y / x) = Real.arcsin (y * (|x| / x) / ‖(⟨x, y⟩ : ℂ)‖) := by
  rw [Real.arctan_eq_arcsin]
  congr 1
  have h1 : ‖(⟨x, y⟩ : ℂ)‖ = |x| * √(1 + (y / x) ^ 2) := by
    rw [Complex.norm_eq_sqrt_sq_add_sq, ← Real.sqrt_sq_eq_abs, ← Real.sqrt_mul (sq_nonneg x)]
    congr 1
    field_simp
  have h2 : |x| ≠ 0 := abs_ne_zero.2 hx
  have h3 : √(1 + (y / x) ^ 2) ≠ 0 := (Real.sqrt_pos.2 (by positivity)).ne'
  rw [h1]
  field_simp

theorem arctan2_eq_arg (y x : ℝ) : arctan2 y x = Complex.arg ⟨x, y⟩ := by
  rw [arctan2]
  split_ifs with h1 h2 h3 h4 h5
  · rw [Complex.arg_of_re_nonneg (by simpa using h1.le), arctan_div h1.ne', abs_of_pos h1, div_self h1.ne', mul_one]
  · rw [Complex.arg_of_re_neg_of_im_nonneg (by simpa using h2) (by simpa using h3), arctan_div h2.ne, abs_of_neg h2, neg_div, div_self h2.ne]
    simp
  · rw [Complex.arg_of_re_neg_of_im_neg (by simpa using h2) (by simpa using not_le.1 h3), arctan_div h2.ne, abs_of_neg h2, neg_div, div_self h2.ne]
    simp
  · exact (Complex.arg_eq_pi_div_two_iff.2 ⟨by simp; linarith, by simpa using h4⟩).symm
  · exact (Complex.arg_eq_neg_pi_div_two_iff.2 ⟨by simp; linarith, by simpa using h5⟩).symm
  · exact (Complex.arg_eq_zero_iff.2 ⟨by simp; linarith, by simp; linarith⟩).symm

/-- **C194 (angle).** `arctan2` is the argument of the point; away from the vertical axis it is the formula `arctan (x₂ / x₁)` of the notebook's text
exactly in the right half plane, and in the left half plane the two differ by `π`. -/
theorem C194_angle (y x : ℝ) : arctan2 y x = Complex.arg ⟨x, y⟩ ∧ (x ≠ 0 → (arctan2 y x = Real.arctan (y / x) ↔ 0 < x)) ∧
    (x < 0 → |arctan2 y x - Real.arctan (y / x)| = Real.pi) := by
  have hneg : x < 0 → |arctan2 y x - Real.arctan (y / x)| = Real.pi := fun hx => by
    rw [arctan2, if_neg hx.le.not_gt, if_pos hx]
    split_ifs
    · rw [add_sub_cancel_left, abs_of_pos Real.pi_pos]
    · rw [sub_sub_cancel_left, abs_neg, abs_of_pos Real.pi_pos]
  refine ⟨arctan2_eq_arg y x, fun hx => ⟨fun h => ?_, fun h => by rw [arctan2, if_pos h]⟩, hneg⟩
  by_contra h0
  have := hneg (lt_of_le_of_ne (not_lt.1 h0) hx)
  rw [h, sub_self, abs_zero] at this
  exact Real.pi_ne_zero this.symm

/-- a point in the left half plane: the angle is `3π/4`, the formula of the text gives `-π/4`. -/
example : arctan2 1 (-1) = 3 * Real.pi / 4 ∧ Real.arctan (1 / (-1)) = -(Real.pi / 4) := by
  have h : Real.arctan (1 / (-1)) = -(Real.pi / 4) := by norm_num [Real.arctan_neg, Real.arctan_one]
  refine ⟨?_, h⟩
  rw [arctan2, if_neg (by norm_num), if_pos (by norm_num), if_pos (by norm_num), h]
  ring

/-- the density of the measurement is the normal one about the angle. -/
theorem measurementCondPdf_eq (y : ℝ) (x : List ℝ) :
    measurementCondPdf y x = gaussianPDFReal (Complex.arg ⟨x.getD 0 0, x.getD 1 0⟩) (1 / 10) y := by
  rw [measurementCondPdf, normPdf_eq _ _ (by norm_num [trackXi]), arctan2_eq_arg]
  congr 1
  rw [← NNReal.coe_inj, Real.coe_toNNReal _ (by norm_num [trackXi])]
  norm_num [trackXi]

/-- **C194 (simulation).** One step of the simulation, from any state: the new state has the law `N(F x, Q)` and, given the new state, the measurement is
normal with the angle as mean and variance `0.1`; its density is the one the filter uses. -/
theorem C194_simulation (B : Backend) (hB : B.Valid) (x : Fin 2 → ℝ) :
    (∀ ry, (Measure.pi fun _ : Fin 2 => gaussianReal 0 1).map (fun rx => WithLp.toLp 2 (scanBody B x (rx, ry)).1)
      = multivariateGaussian (WithLp.toLp 2 (!![1, 1 / 100; 0, 1] *ᵥ x)) !![1 / 3000000, 1 / 20000; 1 / 20000, 1 / 100]) ∧
    ∀ rx, ∃ z, (∀ ry, (scanBody B x (rx, ry)).1 = z ∧ (scanBody B x (rx, ry)).2.1 = z) ∧
      (gaussianReal 0 1).map (fun ry => (scanBody B x (rx, ry)).2.2) = gaussianReal (Complex.arg ⟨z 0, z 1⟩) (1 / 10) ∧
      gaussianReal (Complex.arg ⟨z 0, z 1⟩) (1 / 10) = volume.withDensity fun y => ENNReal.ofReal (measurementCondPdf y (List.ofFn z)) := by
  have hsym : symmetrize trackQ = trackQ := by
    rw [trackQ_eq]
    ext i j
    fin_cases i <;> fin_cases j <;> norm_num [symmetrize]
  have hF := trackF_eq
  have hQ := trackQ_eq
  refine ⟨fun ry => ?_, fun rx => ?_⟩
  · simp only [scanBody]
    rw [Lemmas.map_stdGaussian, hsym, (hB.chol _ trackQ_posDef).mul_transpose, hF, hQ]
  · refine ⟨trackF *ᵥ x + B.chol (symmetrize trackQ) *ᵥ rx, fun ry => ⟨rfl, rfl⟩, ?_, ?_⟩
    · simp only [scanBody, ← arctan2_eq_arg]
      have h := gaussianReal_map_const_mul (μ := 0) (v := 1) (Real.sqrt trackXi)
      generalize arctan2 _ _ = a
      rw [← Function.comp_def (fun t => a + t) fun ry => √trackXi * ry, ← Measure.map_map (by fun_prop) (by fun_prop), h, gaussianReal_map_const_add]
      congr 1
      · simp
      · rw [← NNReal.coe_inj]
        simp [Real.sq_sqrt (show (0 : ℝ) ≤ trackXi by norm_num [trackXi])]
        norm_num [trackXi]
    · rw [gaussianReal_of_var_ne_zero _ (by norm_num)]
      congr 1
      funext y
      rw [measurementCondPdf_eq, gaussianPDF]
      simp

/-! ### the filter -/

theorem row_stateCond (full : List (List ℕ)) (x m : List ℝ) :
    (CondMoments.index (stateCondCentralMoments full)).row full m x
      = full.map fun α => rawMomentsMvnKan (trackF *ᵥ (fun j : Fin 2 => x.getD j 0) - fun j : Fin 2 => m.getD j 0) trackQ fun j => α.getD j 0 := by
  apply List.ext_getElem
  · simp [CondMoments.row]
  · intro i h1 h2
    have hi : i < full.length := by simpa using h2
    simp only [CondMoments.row, List.getElem_map, List.getElem_range, stateCondCentralMoments, jget, List.length_map]
    rw [Nat.min_eq_left (by omega)]
    simp [List.getD_eq_getElem?_getD, hi]

/-- **C194 (transition moments).** `state_cond_central_moments` are the moments about the given centre, in the order of the table, of the law `N(F x, Q)` of
the simulation, and `state_cond_mean` is its mean. -/
theorem C194_transition_moments (full : List (List ℕ)) (x m : List ℝ) :
    let law := multivariateGaussian (WithLp.toLp 2 (!![1, 1 / 100; 0, 1] *ᵥ fun j : Fin 2 => x.getD j 0)) !![1 / 3000000, 1 / 20000; 1 / 20000, 1 / 100]
    (CondMoments.index (stateCondCentralMoments full)).row full m x = full.map (fun α => ∫ z, ∏ j : Fin 2, (z j - m.getD j 0) ^ α.getD j 0 ∂law) ∧
    stateCondMean x = List.ofFn fun j : Fin 2 => ∫ z, z j ∂law := by
  intro law
  have hlaw : law = mvn (trackF *ᵥ fun j : Fin 2 => x.getD j 0) trackQ := by rw [trackF_eq, trackQ_eq]
  constructor
  · rw [row_stateCond, hlaw]
    refine List.map_congr_left fun α _ => ?_
    rw [rawKan_eq_integral _ trackQ_posDef.posSemidef]
    exact (integral_shift_mvn _ (fun j : Fin 2 => m.getD j 0) trackQ (fun z => ∏ j : Fin 2, z j ^ α.getD j 0) (by fun_prop)).symm
  · rw [hlaw, stateCondMean]
    congr 1
    funext j
    rw [mvn_mean _ trackQ_posDef.posSemidef]

/-- **C194 (prediction).** Whatever the law of the state, if the filter holds its central moments about some centre, then the prediction is exact: the
predicted means and, about any centre, the predicted moments are those of the law of `F x + w`, `w ~ N(0, Q)`, and the matrix that is factorised next is positive
definite. -/
theorem C194_prediction (B : Backend) (hB : B.Valid) (ldl : Bool) {N : ℕ} {basis full : List (List ℕ)} {mats : List (List (List ℤ))}
    (T : Tables N 2 basis full mats) (μ : Measure (Fin 2 → ℝ)) [IsProbabilityMeasure μ]
    (hμ : ∃ c : ℝ, 0 < c ∧ Integrable (fun x => Real.exp (c * ∑ j, |x j|)) μ)
    (hne : ∀ q : MvPolynomial (Fin 2) ℝ, (∀ᵐ x ∂μ, MvPolynomial.eval x q = 0) → q = 0) (mean : List ℝ) (hml : mean.length = 2) :
    let r := momentQuadratureND B (full.map fun α => ∫ x, ∏ j : Fin 2, (x j - mean.getD j 0) ^ α.getD j 0 ∂μ) mats (some mean) none false ldl
    let μ' := predLaw !![1, 1 / 100; 0, 1] !![1 / 3000000, 1 / 20000; 1 / 20000, 1 / 100] μ
    wsumVec 2 r stateCondMean = List.ofFn (fun i : Fin 2 => ∫ x, x i ∂μ') ∧
    (∀ m : List ℝ, wsumVec full.length r ((CondMoments.index (stateCondCentralMoments full)).row full m)
      = full.map fun α => ∫ x, ∏ j : Fin 2, (x j - m.getD j 0) ^ α.getD j 0 ∂μ') ∧
    (gramOn basis fun α => ∫ x, ∏ j, x j ^ α.getD j 0 ∂μ').PosDef := by
  intro r μ'
  have hμ' : μ' = predLaw trackF trackQ μ := by rw [trackF_eq, trackQ_eq]
  have h := linear_prediction B hB ldl T trackF trackQ_posDef.posSemidef μ hμ hne mean hml (.index (stateCondCentralMoments full))
    (fun x m => row_stateCond full x m) stateCondMean fun _ => rfl
  rw [← hμ'] at h
  refine ⟨h.1, h.2, ?_⟩
  rw [hμ']
  exact gram_posDef_of_integrable T _ (integrable_poly (predLaw_exp _ trackQ_posDef.posSemidef μ hμ)) (predLaw_ne _ trackQ_posDef μ)

theorem trackInit_facts : (∀ c ∈ trackInit, 0 ≤ c.weight) ∧ (trackInit.map (·.weight)).sum = 1 ∧ ∀ c ∈ trackInit, c.cov.PosDef := by
  have h : ((0.01 : ℝ) • !![1, 0; 0, 1] : Matrix (Fin 2) (Fin 2) ℝ).PosDef := by
    have e : (!![1, 0; 0, 1] : Matrix (Fin 2) (Fin 2) ℝ) = 1 := by
      ext i j
      fin_cases i <;> fin_cases j <;> simp
    rw [e]
    exact PosDef.one.smul (by norm_num)
  refine ⟨fun c hc => ?_, by norm_num [trackInit], fun c hc => ?_⟩
  · simp only [trackInit, List.mem_cons, List.not_mem_nil, or_false] at hc
    rcases hc with rfl | rfl <;> norm_num
  · simp only [trackInit, List.mem_cons, List.not_mem_nil, or_false] at hc
    rcases hc with rfl | rfl <;> exact h

/-- the hypotheses of the prediction theorem: the initial law of the notebook. -/
example : IsProbabilityMeasure (gaussSumLaw trackInit) ∧
    (∃ c : ℝ, 0 < c ∧ Integrable (fun x => Real.exp (c * ∑ j, |x j|)) (gaussSumLaw trackInit)) ∧
    ∀ q : MvPolynomial (Fin 2) ℝ, (∀ᵐ x ∂gaussSumLaw trackInit, MvPolynomial.eval x q = 0) → q = 0 :=
  ⟨gaussSumLaw_prob _ trackInit_facts.1 trackInit_facts.2.1,
    ⟨1, one_pos, gaussSumLaw_exp _ trackInit_facts.1 fun c h => (trackInit_facts.2.2 c h).posSemidef⟩,
    gaussSumLaw_ne _ trackInit_facts.1 trackInit_facts.2.1 trackInit_facts.2.2⟩

/-- the initial state after one transition. -/
noncomputable def trackPred : List (Component 2) :=
  [{ mean := ![1, 0], cov := !![7501 / 750000, 3 / 20000; 3 / 20000, 1 / 50], weight := 7 / 10 },
   { mean := ![101 / 100, 1], cov := !![7501 / 750000, 3 / 20000; 3 / 20000, 1 / 50], weight := 3 / 10 }]

theorem predLaw_trackInit : predLaw trackF trackQ (gaussSumLaw trackInit) = gaussSumLaw trackPred := by
  rw [predLaw_gaussSum _ trackQ_posDef.posSemidef _ fun c h => (trackInit_facts.2.2 c h).posSemidef]
  congr 1
  have hC : trackF * ((0.01 : ℝ) • !![1, 0; 0, 1]) * trackFᵀ + trackQ = !![7501 / 750000, 3 / 20000; 3 / 20000, 1 / 50] := by
    rw [trackF_eq, trackQ_eq]
    ext i j
    fin_cases i <;> fin_cases j <;> norm_num [Matrix.mul_apply, Fin.sum_univ_two, vecMul, dotProduct]
  have h1 : trackF *ᵥ ![1, 0] = ![1, 0] := by
    rw [trackF_eq]
    ext i
    fin_cases i <;> norm_num [mulVec, dotProduct]
  have h2 : trackF *ᵥ ![1, 1] = ![101 / 100, 1] := by
    rw [trackF_eq]
    ext i
    fin_cases i <;> norm_num [mulVec, dotProduct]
  simp only [trackInit, trackPred, List.map_cons, List.map_nil, hC, h1, h2]
  norm_num

theorem ofFn_getD_two (v : Fin 2 → ℝ) (j : Fin 2) : (List.ofFn v).getD j 0 = v j := by
  fin_cases j <;> simp

/-- **C194 (first step).** For every order, the first step of the notebook's filter is Bayes' formula for the rule of the exact predicted law, the sum of the two
propagated normal laws, with the normal density of the measurement about the angle. -/
theorem C194_first_step (B : Backend) (hB : B.Valid) {N : ℕ} {basis full : List (List ℕ)} {mats : List (List (List ℤ))}
    (T : Tables N 2 basis full mats) (y : ℝ) :
    let μ := gaussSumLaw trackPred
    let c : List ℝ := List.ofFn fun i : Fin 2 => ∫ x, x i ∂μ
    let r := momentQuadratureND B (full.map fun α => ∫ x, ∏ j : Fin 2, (x j - c.getD j 0) ^ α.getD j 0 ∂μ) mats (some c) none false false
    let l : List ℝ → ℝ := fun x => gaussianPDFReal (Complex.arg ⟨x.getD 0 0, x.getD 1 0⟩) (1 / 10) y
    ∃ (cms : List ℝ) (mean : Fin 2 → ℝ), momentFilter B [y] (full, mats) = .ok ([(cms, List.ofFn mean)], -Real.log (integND r l)) ∧
      (∀ j : Fin 2, mean j = (integND r fun x => x.getD j 0 * l x) / integND r l) ∧
      cms = full.map fun α => (integND r fun x => (∏ j : Fin 2, (x.getD j 0 - mean j) ^ α.getD j 0) * l x) / integND r l := by
  intro μ c r l
  have hw := trackInit_facts.1
  have h1 := trackInit_facts.2.1
  have hps : ∀ c ∈ trackInit, c.cov.PosSemidef := fun c h => (trackInit_facts.2.2 c h).posSemidef
  have := gaussSumLaw_prob _ hw h1
  -- the initial moments
  obtain ⟨-, hgm, -, -, hgc⟩ := C66_gaussian_sum trackInit hw h1 hps (full.map fun α => fun j : Fin 2 => α.getD j 0)
  obtain ⟨g, hg⟩ : ∃ g, g = GaussianSumND.new trackInit (full.map fun α => fun j : Fin 2 => α.getD j 0) := ⟨_, rfl⟩
  rw [← hg] at hgm hgc
  have hm : ∀ φ : (Fin 2 → ℝ) → ℝ, Continuous φ → ∫ x, φ x ∂gaussSumLaw trackInit = ∫ x, φ (WithLp.ofLp x) ∂mixtureND trackInit := fun φ hφ =>
    integral_map measurable_ofLp.aemeasurable hφ.aestronglyMeasurable
  have hcms : g.cms = full.map fun α => ∫ x, ∏ j : Fin 2, (x j - (List.ofFn g.mean).getD j 0) ^ α.getD j 0 ∂gaussSumLaw trackInit := by
    rw [hgc, List.map_map]
    refine List.map_congr_left fun α _ => ?_
    rw [hm _ (by fun_prop)]
    refine integral_congr_ae (.of_forall fun x => Finset.prod_congr rfl fun j _ => ?_)
    rw [← hgm j, ofFn_getD_two]
  obtain ⟨p1, p2, -⟩ := C194_prediction B hB false T (gaussSumLaw trackInit) ⟨1, one_pos, gaussSumLaw_exp _ hw hps⟩
    (gaussSumLaw_ne _ hw h1 trackInit_facts.2.2) (List.ofFn g.mean) (by simp)
  rw [← hcms, ← trackF_eq, ← trackQ_eq, predLaw_trackInit] at p1 p2
  have hnode : ∀ p ∈ r, p.2.length = 2 :=
    momentQuadratureND_node_length B _ mats 2 T.mats_len (some c) none (by simp [c]) (by simp) false false
  have hl : ∀ x, measurementCondPdf y x = l x := fun x => measurementCondPdf_eq y x
  have hlen : full.length = g.cms.length := by rw [hcms]; simp
  have hhead := T.head_len
  have e : momentFilter B [y] (full, mats) = .ok ([(cmsStep B false (.index (stateCondCentralMoments full)) stateCondMean measurementCondPdf 2 full mats
      ((g.cms, List.ofFn g.mean), 0) y).2], (cmsStep B false (.index (stateCondCentralMoments full)) stateCondMean measurementCondPdf 2 full mats
      ((g.cms, List.ofFn g.mean), 0) y).1.2) := by
    rw [momentFilter]
    simp only [← hg]
    rw [filterCms]
    simp only [hlen, ne_eq, not_true_eq_false, if_false, hhead, scan]
  have hstep : cmsStep B false (.index (stateCondCentralMoments full)) stateCondMean measurementCondPdf 2 full mats ((g.cms, List.ofFn g.mean), 0) y
      = (((full.map fun α => (integND r fun x => prodPow (List.zipWith (· - ·) x ((eyeRows 2).map fun α =>
          (integND r fun x => prodPow (x.map (· - 0)) α * l x) / integND r l)) α * l x) / integND r l,
          (eyeRows 2).map fun α => (integND r fun x => prodPow (x.map (· - 0)) α * l x) / integND r l), 0 - Real.log (integND r l)),
        (full.map fun α => (integND r fun x => prodPow (List.zipWith (· - ·) x ((eyeRows 2).map fun α =>
          (integND r fun x => prodPow (x.map (· - 0)) α * l x) / integND r l)) α * l x) / integND r l,
          (eyeRows 2).map fun α => (integND r fun x => prodPow (x.map (· - 0)) α * l x) / integND r l)) := by
    rw [cmsStep]
    simp only [p1, p2, FilterND.wsum_eq, funext hl]
    rfl
  have hmean : (eyeRows 2).map (fun α => (integND r fun x => prodPow (x.map (· - 0)) α * l x) / integND r l)
      = List.ofFn fun j : Fin 2 => (integND r fun x => x.getD j 0 * l x) / integND r l := by
    apply List.ext_getElem
    · simp [eyeRows]
    · intro i h1 h2
      have hi : i < 2 := by simpa using h2
      have h3 := getD_eyeRows_map (d := 2) (fun α => (integND r fun x => prodPow (x.map (· - 0)) α * l x) / integND r l) ⟨i, hi⟩
      rw [List.getD_eq_getElem?_getD, List.getElem?_eq_getElem h1, Option.getD_some] at h3
      rw [h3, List.getElem_ofFn]
      congr 1
      refine integND_congr fun p hp => ?_
      rw [prodPow_eq, monomial_eq_prod (d := 2) (by simpa using hnode p hp) (by simp)]
      congr 1
      have := prod_eyeRow_one (fun i : Fin 2 => (p.2.map fun t => t - 0).getD i 0) ⟨i, hi⟩
      rw [this]
      simp
  refine ⟨full.map fun α => (integND r fun x => prodPow (List.zipWith (· - ·) x (List.ofFn fun j : Fin 2 =>
    (integND r fun x => x.getD j 0 * l x) / integND r l)) α * l x) / integND r l, fun j => (integND r fun x => x.getD j 0 * l x) / integND r l, ?_,
    fun j => rfl, ?_⟩
  · rw [e, hstep, hmean, zero_sub]
  · refine List.map_congr_left fun α hα => ?_
    congr 1
    refine integND_congr fun p hp => ?_
    have hpl := hnode p hp
    rw [prodPow_eq, monomial_eq_prod (d := 2) (by simp [hpl]) (T.mem_full.1 hα).1]
    congr 1
    refine Finset.prod_congr rfl fun j _ => ?_
    congr 1
    have hz : ∀ (a b : List ℝ) (k : ℕ), k < a.length → k < b.length → (List.zipWith (· - ·) a b).getD k 0 = a.getD k 0 - b.getD k 0 := fun a b k ha hb => by
      simp [List.getD_eq_getElem?_getD, ha, hb]
    rw [hz _ _ _ (by rw [hpl]; exact j.2) (by simpa using j.2), ofFn_getD_two]

/-- the tables exist: the order of the notebook. -/
example : ∃ basis full mats, Tables 4 2 basis full mats := by
  obtain ⟨basis, full, mats, T⟩ := exists_tables_seq (d := 2) (by norm_num)
  exact ⟨_, _, _, T 4 (by norm_num)⟩

/-- **C194 (records).** `simulate` returns one record for every draw; the state of record `t` comes from the state of the record before (the initial state for the first)
and the draw `t`, and its measurement from that state. -/
theorem C194_records (B : Backend) (x0 : Fin 2 → ℝ) (rnds : List ((Fin 2 → ℝ) × ℝ)) :
    (simulate B x0 rnds).length = rnds.length ∧ ∀ t (ht : t < rnds.length) (ht' : t < (simulate B x0 rnds).length),
      let before := (x0 :: (simulate B x0 rnds).map (·.1)).getD t 0
      (simulate B x0 rnds)[t].1 = !![1, 1 / 100; 0, 1] *ᵥ before + B.chol (symmetrize trackQ) *ᵥ rnds[t].1 ∧
      (simulate B x0 rnds)[t].2 = Complex.arg ⟨(simulate B x0 rnds)[t].1 0, (simulate B x0 rnds)[t].1 1⟩ + √(1 / 10) * rnds[t].2 := by
  have hcons : ∀ x0 r rs, simulate B x0 (r :: rs) = (scanBody B x0 r).2 :: simulate B (scanBody B x0 r).1 rs := fun _ _ _ => rfl
  have hxi : trackXi = 1 / 10 := by norm_num [trackXi]
  induction rnds generalizing x0 with
  | nil => exact ⟨rfl, fun t ht => by simp at ht⟩
  | cons r rs ih =>
    obtain ⟨h1, h2⟩ := ih (scanBody B x0 r).1
    refine ⟨by rw [hcons, List.length_cons, h1, List.length_cons], fun t ht ht' => ?_⟩
    simp only [hcons]
    cases t with
    | zero =>
      simp only [List.getElem_cons_zero, List.getD_cons_zero]
      exact ⟨by simp only [scanBody, trackF_eq], by simp only [scanBody, ← arctan2_eq_arg, hxi]⟩
    | succ t =>
      simp only [List.length_cons, Nat.add_lt_add_iff_right] at ht
      have := h2 t ht (by rw [h1]; exact ht)
      have e2 : (scanBody B x0 r).2.1 = (scanBody B x0 r).1 := rfl
      simpa only [List.getElem_cons_succ, List.map_cons, List.getD_cons_succ, e2] using this

example := C194_records theBackend ![1, 2] [(![0, 1], 1), (![1, 0], -1)]

end Mfs.Props

import Verif.Lemmas.SigmaPoints
import Verif.Props.SigmaPoints

/-!
# C212: the covariances of the sigma-point filter and smoother stay positive definite
-/

namespace Mfs.Props

open Mfs.Spec Mfs.Classical Matrix

variable {dx dy : ℕ}

section cov

variable {p q : ℕ} (sgps : SigmaPoints dx)

/-- the weighted covariance of two families of numbers. -/
def wcov (u v : Fin sgps.nPoints → ℝ) : ℝ := ∑ i, sgps.w i * (u i * v i) - (∑ i, sgps.w i * u i) * ∑ i, sgps.w i * v i

theorem wcov_sub (u v : Fin sgps.nPoints → ℝ) : wcov sgps (fun i => u i - v i) (fun i => u i - v i) = wcov sgps u u - 2 * wcov sgps u v + wcov sgps v v := by
  have h1 : ∑ i, sgps.w i * (u i - v i) = ∑ i, sgps.w i * u i - ∑ i, sgps.w i * v i := by
    rw [← Finset.sum_sub_distrib]; exact Finset.sum_congr rfl fun i _ => by ring
  have h2 : ∑ i, sgps.w i * ((u i - v i) * (u i - v i)) = ∑ i, sgps.w i * (u i * u i) - 2 * ∑ i, sgps.w i * (u i * v i) + ∑ i, sgps.w i * (v i * v i) := by
    rw [Finset.mul_sum, ← Finset.sum_sub_distrib, ← Finset.sum_add_distrib]; exact Finset.sum_congr rfl fun i _ => by ring
  simp only [wcov, h1, h2]
  ring

theorem wcov_nonneg (hw : ∀ i, 0 ≤ sgps.w i) (h1 : ∑ i, sgps.w i = 1) (u : Fin sgps.nPoints → ℝ) : 0 ≤ wcov sgps u u := by
  have h : wcov sgps u u = ∑ i, sgps.w i * (u i - ∑ j, sgps.w j * u j) ^ 2 := by
    set c := ∑ j, sgps.w j * u j with hc
    have e : ∀ c : ℝ, ∑ i, sgps.w i * (u i - c) ^ 2 = ∑ i, sgps.w i * (u i * u i) - 2 * c * ∑ i, sgps.w i * u i + c ^ 2 * ∑ i, sgps.w i := fun c => by
      rw [Finset.mul_sum, Finset.mul_sum, ← Finset.sum_sub_distrib, ← Finset.sum_add_distrib]; exact Finset.sum_congr rfl fun i _ => by ring
    rw [e, h1, ← hc, wcov, ← hc]
    ring
  rw [h]
  exact Finset.sum_nonneg fun i _ => mul_nonneg (hw i) (sq_nonneg _)

theorem dot_expectation (a : Fin sgps.nPoints → Fin p → ℝ) (x : Fin p → ℝ) : x ⬝ᵥ sgps.expectation a = ∑ i, sgps.w i * (x ⬝ᵥ a i) := by
  rw [SigmaPoints.expectation, dotProduct_sum]
  exact Finset.sum_congr rfl fun i _ => by rw [dotProduct_smul, smul_eq_mul]

theorem form_cov (a : Fin sgps.nPoints → Fin p → ℝ) (b : Fin sgps.nPoints → Fin q → ℝ) (x : Fin p → ℝ) (u : Fin q → ℝ) :
    x ⬝ᵥ (sgps.expectation (fun i => vecMulVec (a i) (b i)) - vecMulVec (sgps.expectation a) (sgps.expectation b)) *ᵥ u
      = wcov sgps (fun i => x ⬝ᵥ a i) fun i => u ⬝ᵥ b i := by
  have hv : ∀ (c : Fin p → ℝ) (d : Fin q → ℝ), x ⬝ᵥ vecMulVec c d *ᵥ u = (x ⬝ᵥ c) * (u ⬝ᵥ d) := fun c d => by
    rw [Matrix.vecMulVec_mulVec, dotProduct_smul, dotProduct_comm d u]; rfl
  rw [sub_mulVec, dotProduct_sub, hv, dot_expectation, dot_expectation, wcov]
  congr 1
  rw [SigmaPoints.expectation, sum_mulVec, dotProduct_sum]
  exact Finset.sum_congr rfl fun i _ => by rw [smul_mulVec, dotProduct_smul, hv, smul_eq_mul]

theorem cov_posSemidef (hw : ∀ i, 0 ≤ sgps.w i) (h1 : ∑ i, sgps.w i = 1) (b : Fin sgps.nPoints → Fin q → ℝ) :
    (sgps.expectation (fun i => vecMulVec (b i) (b i)) - vecMulVec (sgps.expectation b) (sgps.expectation b)).PosSemidef := by
  refine PosSemidef.of_dotProduct_mulVec_nonneg ?_ fun x => ?_
  · rw [IsHermitian, conjTranspose_eq_transpose_of_trivial]
    exact (expectation_symm _ _ fun i => vecMulVec_symm _).sub (vecMulVec_symm _)
  · rw [star_trivial, form_cov]
    exact wcov_nonneg sgps hw h1 _

theorem expectation_posDef (hw : ∀ i, 0 ≤ sgps.w i) (h1 : ∑ i, sgps.w i = 1) (M : Fin sgps.nPoints → Matrix (Fin q) (Fin q) ℝ) (hM : ∀ i, (M i).PosDef) :
    (sgps.expectation M).PosDef := by
  refine PosDef.of_dotProduct_mulVec_pos ?_ fun x hx => ?_
  · rw [IsHermitian, conjTranspose_eq_transpose_of_trivial]
    exact expectation_symm _ _ fun i => (hM i).posSemidef.symm
  · rw [SigmaPoints.expectation, sum_mulVec, dotProduct_sum]
    have hp : ∀ i, 0 < star x ⬝ᵥ M i *ᵥ x := fun i => (hM i).dotProduct_mulVec_pos hx
    have e : ∀ i, star x ⬝ᵥ (sgps.w i • M i) *ᵥ x = sgps.w i * (star x ⬝ᵥ M i *ᵥ x) := fun i => by rw [smul_mulVec, dotProduct_smul, smul_eq_mul]
    simp only [e]
    obtain ⟨j, -, hj⟩ : ∃ j ∈ Finset.univ, 0 < sgps.w j := by
      by_contra hc
      push Not at hc
      have := Finset.sum_nonpos hc
      linarith
    exact Finset.sum_pos' (fun i _ => mul_nonneg (hw i) (hp i).le) ⟨j, Finset.mem_univ j, mul_pos hj (hp j)⟩

/-- conditioning: the joint covariance of two families of points, with noise on the second. -/
theorem condition_posDef (hw : ∀ i, 0 ≤ sgps.w i) (h1 : ∑ i, sgps.w i = 1) (a : Fin sgps.nPoints → Fin p → ℝ) (b : Fin sgps.nPoints → Fin q → ℝ)
    {P : Matrix (Fin p) (Fin p) ℝ} {C : Matrix (Fin p) (Fin q) ℝ} {S R : Matrix (Fin q) (Fin q) ℝ} (hP : P.PosDef) (hR : R.PosDef)
    (eP : P = sgps.expectation (fun i => vecMulVec (a i) (a i)) - vecMulVec (sgps.expectation a) (sgps.expectation a))
    (eC : C = sgps.expectation (fun i => vecMulVec (a i) (b i)) - vecMulVec (sgps.expectation a) (sgps.expectation b))
    (eS : S = sgps.expectation (fun i => vecMulVec (b i) (b i)) - vecMulVec (sgps.expectation b) (sgps.expectation b) + R) :
    S.PosDef ∧ (P - (S⁻¹ * Cᵀ)ᵀ * S * ((S⁻¹ * Cᵀ)ᵀ)ᵀ).PosDef := by
  have hS : S.PosDef := by
    rw [eS]; exact PosDef.posSemidef_add (cov_posSemidef sgps hw h1 b) hR
  have hSs : Sᵀ = S := hS.posSemidef.symm
  have hSu : IsUnit S.det := (Matrix.isUnit_iff_isUnit_det S).1 hS.isUnit
  refine ⟨hS, PosDef.of_dotProduct_mulVec_pos ?_ fun x hx => ?_⟩
  · rw [IsHermitian, conjTranspose_eq_transpose_of_trivial]
    exact (show P.IsSymm from hP.posSemidef.symm).sub (conj_symm hSs _)
  · rw [star_trivial]
    have hPx : 0 < x ⬝ᵥ P *ᵥ x := by simpa using hP.dotProduct_mulVec_pos hx
    set u := (S⁻¹ * Cᵀ) *ᵥ x with hu
    have hSuv : S *ᵥ u = Cᵀ *ᵥ x := by rw [hu, mulVec_mulVec, ← Matrix.mul_assoc, Matrix.mul_nonsing_inv S hSu, Matrix.one_mul]
    have hq : x ⬝ᵥ ((S⁻¹ * Cᵀ)ᵀ * S * ((S⁻¹ * Cᵀ)ᵀ)ᵀ) *ᵥ x = u ⬝ᵥ S *ᵥ u := by
      rw [transpose_transpose, ← mulVec_mulVec, ← mulVec_mulVec, ← hu, dotProduct_mulVec, vecMul_transpose, ← hu]
    have hc : x ⬝ᵥ C *ᵥ u = u ⬝ᵥ S *ᵥ u := by
      rw [hSuv, dotProduct_mulVec, ← mulVec_transpose, dotProduct_comm]
    have hSq : u ⬝ᵥ S *ᵥ u = wcov sgps (fun i => u ⬝ᵥ b i) (fun i => u ⬝ᵥ b i) + u ⬝ᵥ R *ᵥ u := by
      conv_lhs => rw [eS]
      rw [add_mulVec, dotProduct_add, form_cov]
    have hn := wcov_nonneg sgps hw h1 fun i => x ⬝ᵥ a i - u ⬝ᵥ b i
    rw [wcov_sub, ← form_cov, ← form_cov, ← eP, ← eC, hc] at hn
    rw [sub_mulVec, dotProduct_sub, hq]
    by_cases hu0 : u = 0
    · rw [hu0, zero_dotProduct, sub_zero]; exact hPx
    · have hRu : 0 < u ⬝ᵥ R *ᵥ u := by simpa using hR.dotProduct_mulVec_pos hu0
      linarith

end cov

section filter

variable {B : Backend} (hB : B.Valid) {sgps : SigmaPoints dx} (hr : SecondOrder sgps.w sgps.xi) (hw : ∀ i, 0 ≤ sgps.w i)
include hB hr

theorem cov_chi {b : Belief dx} (hb : b.2.PosDef) :
    b.2 = sgps.expectation (fun i => vecMulVec (sgps.genSigmaPoints b.1 (B.chol (symmetrize b.2)) i) (sgps.genSigmaPoints b.1 (B.chol (symmetrize b.2)) i))
      - vecMulVec (sgps.expectation (sgps.genSigmaPoints b.1 (B.chol (symmetrize b.2)))) (sgps.expectation (sgps.genSigmaPoints b.1 (B.chol (symmetrize b.2)))) := by
  rw [expectation_chi_chi hr, expectation_chi hr, add_sub_cancel_left, (chol_symm hB hb).mul_transpose]

include hw

omit hB in
theorem sgpPrediction_posDef (state : (Fin dx → ℝ) → ℝ → Belief dx) (dt : ℝ) (hs : ∀ x, (state x dt).2.PosDef) (f : Belief dx) :
    (sgpPrediction B sgps state dt f).1.2.PosDef := by
  simp only [sgpPrediction]
  rw [expectation_add, add_sub_right_comm]
  exact PosDef.posSemidef_add (cov_posSemidef sgps hw hr.total _) (expectation_posDef sgps hw hr.total _ fun i => hs _)

/-- the innovation covariance that `_sgp_update` factorises. -/
noncomputable def sgpInnov (B : Backend) (sgps : SigmaPoints dx) (meas : (Fin dx → ℝ) → (Fin dy → ℝ) × Matrix (Fin dy) (Fin dy) ℝ) (p : Belief dx) (constCov : Bool) : Matrix (Fin dy) (Fin dy) ℝ :=
  let chi := sgps.genSigmaPoints p.1 (B.chol (symmetrize p.2))
  let em := fun i => (meas (chi i)).1
  sgps.expectation (fun i => vecMulVec (em i) (em i)) - vecMulVec (sgps.expectation em) (sgps.expectation em)
    + if constCov then (if h : 0 < sgps.nPoints then (meas (chi ⟨0, h⟩)).2 else 0) else sgps.expectation fun i => (meas (chi i)).2

theorem sgpUpdate_eq (meas : (Fin dx → ℝ) → (Fin dy → ℝ) × Matrix (Fin dy) (Fin dy) ℝ) (hm : ∀ x, (meas x).2.PosDef) (p : Belief dx) (hp : p.2.PosDef) (constCov : Bool)
    {pred : Fin dy → ℝ} {C : Matrix (Fin dx) (Fin dy) ℝ} {S : Matrix (Fin dy) (Fin dy) ℝ} (eS : S = sgpInnov B sgps meas p constCov)
    (epred : pred = sgps.expectation fun i => (meas (sgps.genSigmaPoints p.1 (B.chol (symmetrize p.2)) i)).1)
    (eC : C = sgps.expectation (fun i => vecMulVec (sgps.genSigmaPoints p.1 (B.chol (symmetrize p.2)) i) (meas (sgps.genSigmaPoints p.1 (B.chol (symmetrize p.2)) i)).1) - vecMulVec p.1 pred) :
    S.PosDef ∧ (p.2 - (S⁻¹ * Cᵀ)ᵀ * S * ((S⁻¹ * Cᵀ)ᵀ)ᵀ).PosDef ∧
    ∀ y, sgpUpdate B sgps meas p y constCov = ((p.1 + (S⁻¹ * Cᵀ)ᵀ *ᵥ (y - pred), p.2 - (S⁻¹ * Cᵀ)ᵀ * S * ((S⁻¹ * Cᵀ)ᵀ)ᵀ), -logMvnPdf y pred (B.chol (symmetrize S))) := by
  subst epred
  have hR : (if constCov then (if h : 0 < sgps.nPoints then (meas (sgps.genSigmaPoints p.1 (B.chol (symmetrize p.2)) ⟨0, h⟩)).2 else 0)
      else sgps.expectation fun i => (meas (sgps.genSigmaPoints p.1 (B.chol (symmetrize p.2)) i)).2).PosDef := by
    rw [dif_pos (nPoints_pos hr)]
    split_ifs
    · exact hm _
    · exact expectation_posDef sgps hw hr.total _ fun i => hm _
  have hk := condition_posDef sgps hw hr.total (sgps.genSigmaPoints p.1 (B.chol (symmetrize p.2)))
    (fun i => (meas (sgps.genSigmaPoints p.1 (B.chol (symmetrize p.2)) i)).1) hp hR (cov_chi hB hr hp) (C := C) (S := S) (by rw [eC, expectation_chi hr]) eS
  refine ⟨hk.1, hk.2, fun y => ?_⟩
  have hS : (if constCov = true then
      sgps.expectation (fun i => vecMulVec (meas (sgps.genSigmaPoints p.1 (B.chol (symmetrize p.2)) i)).1 (meas (sgps.genSigmaPoints p.1 (B.chol (symmetrize p.2)) i)).1)
        - vecMulVec (sgps.expectation fun i => (meas (sgps.genSigmaPoints p.1 (B.chol (symmetrize p.2)) i)).1) (sgps.expectation fun i => (meas (sgps.genSigmaPoints p.1 (B.chol (symmetrize p.2)) i)).1)
        + (if h : 0 < sgps.nPoints then (meas (sgps.genSigmaPoints p.1 (B.chol (symmetrize p.2)) ⟨0, h⟩)).2 else 0)
    else sgps.expectation (fun i => vecMulVec (meas (sgps.genSigmaPoints p.1 (B.chol (symmetrize p.2)) i)).1 (meas (sgps.genSigmaPoints p.1 (B.chol (symmetrize p.2)) i)).1
        + (meas (sgps.genSigmaPoints p.1 (B.chol (symmetrize p.2)) i)).2)
        - vecMulVec (sgps.expectation fun i => (meas (sgps.genSigmaPoints p.1 (B.chol (symmetrize p.2)) i)).1) (sgps.expectation fun i => (meas (sgps.genSigmaPoints p.1 (B.chol (symmetrize p.2)) i)).1)) = S := by
    rw [eS, sgpInnov]
    cases constCov
    · rw [if_neg (by decide), expectation_add, add_sub_right_comm]; rfl
    · rw [if_pos rfl]; rfl
  simp only [sgpUpdate]
  rw [hS, ← eC, choSolve_eq (chol_symm hB hk.1)]

end filter

/-- **C212 (filter).** Let the sigma-point rule integrate quadratics exactly with nonnegative weights, and let the transition and measurement covariances and the initial covariance be positive definite.
Then every covariance returned by `sgp_filter` is positive definite: for all nonlinear dynamics and measurement functions, all dimensions and measurement sequences, and both ways of computing the
innovation covariance. -/
theorem C212_filter (B : Backend) (hB : B.Valid) (sgps : SigmaPoints dx) (hr : SecondOrder sgps.w sgps.xi) (hw : ∀ i, 0 ≤ sgps.w i) (state : (Fin dx → ℝ) → ℝ → Belief dx)
    (meas : (Fin dx → ℝ) → (Fin dy → ℝ) × Matrix (Fin dy) (Fin dy) ℝ) (m0 : Fin dx → ℝ) (v0 : Matrix (Fin dx) (Fin dx) ℝ) (dt : ℝ) (hs : ∀ x, (state x dt).2.PosDef)
    (hm : ∀ x, (meas x).2.PosDef) (hv0 : v0.PosDef) (ys : List (Fin dy → ℝ)) (constCov : Bool) :
    ∀ o ∈ sgpFilter B state meas sgps m0 v0 dt ys constCov, o.1.2.PosDef := fun o ho =>
  scan_filterBody_inv (fun f => (sgpPrediction B sgps state dt f).1) (fun p y => sgpUpdate B sgps meas p y constCov) (fun b => b.2.PosDef) (fun c y _ => by
    obtain ⟨-, h2, h3⟩ := sgpUpdate_eq hB hr hw meas hm _ (sgpPrediction_posDef (B := B) hr hw state dt hs c) constCov rfl rfl rfl
    rw [h3 y]
    exact h2) ((m0, v0), 0) hv0 ys o (List.mem_cons_of_mem _ ho)

theorem smoothRec_inv_mem (step : Belief dx → Belief dx → Belief dx) (I : Belief dx → Prop) (fs : List (Belief dx)) (hfs : ∀ f ∈ fs, I f)
    (h : ∀ f s, I f → I s → I (step f s)) : ∀ s ∈ smoothRec step fs, I s := by
  induction fs with
  | nil => intro s hs; simp [smoothRec] at hs
  | cons f fs ih =>
    have ih := ih fun g hg => hfs g (List.mem_cons_of_mem _ hg)
    have hf := hfs f List.mem_cons_self
    rw [smoothRec]
    cases e : smoothRec step fs with
    | nil => intro s hs; rw [List.mem_singleton.1 hs]; exact hf
    | cons t ts =>
      rw [e] at ih
      intro s hs
      rcases List.mem_cons.1 hs with rfl | hs
      · exact h f t hf (ih t List.mem_cons_self)
      · exact ih s hs

theorem sgp_smooth_step_posDef (B : Backend) (hB : B.Valid) (sgps : SigmaPoints dx) (hr : SecondOrder sgps.w sgps.xi) (hw : ∀ i, 0 ≤ sgps.w i) (state : (Fin dx → ℝ) → ℝ → Belief dx) (dt : ℝ)
    (hs : ∀ x, (state x dt).2.PosDef) (f s : Belief dx) (hf : f.2.PosDef) (hs' : s.2.PosDef) :
    (gaussianSmootherShared B (sgps.expectation (fun i => vecMulVec ((sgpPrediction B sgps state dt f).2.1 i) ((sgpPrediction B sgps state dt f).2.2 i))
      - vecMulVec f.1 (sgpPrediction B sgps state dt f).1.1)ᵀ f (sgpPrediction B sgps state dt f).1 s).2.PosDef := by
  have hp := sgpPrediction_posDef (B := B) hr hw state dt hs f
  have hk := condition_posDef sgps hw hr.total (sgps.genSigmaPoints f.1 (B.chol (symmetrize f.2))) (fun i => (state (sgps.genSigmaPoints f.1 (B.chol (symmetrize f.2)) i) dt).1)
    hf (expectation_posDef sgps hw hr.total (fun i => (state (sgps.genSigmaPoints f.1 (B.chol (symmetrize f.2)) i) dt).2) fun i => hs _) (cov_chi hB hr hf) rfl rfl
  simp only [gaussianSmootherShared]
  rw [choSolve_eq (hB.chol _ hp)]
  simp only [sgpPrediction]
  rw [expectation_add, add_sub_right_comm, Matrix.mul_sub, Matrix.sub_mul, add_sub_assoc', add_sub_right_comm, ← expectation_chi hr f.1 (B.chol (symmetrize f.2))]
  simp only [expectation_chi hr] at hk ⊢
  exact PosDef.add_posSemidef hk.2 (psd_conj hs'.posSemidef _)

/-- **C212 (smoother).** Under the same conditions on the rule and the transition covariances, `sgp_smoother` maps positive definite filtering covariances to positive definite smoothing covariances. -/
theorem C212_smoother (B : Backend) (hB : B.Valid) (sgps : SigmaPoints dx) (hr : SecondOrder sgps.w sgps.xi) (hw : ∀ i, 0 ≤ sgps.w i) (state : (Fin dx → ℝ) → ℝ → Belief dx) (dt : ℝ)
    (hs : ∀ x, (state x dt).2.PosDef) (fs ss : List (Belief dx)) (hfs : ∀ f ∈ fs, f.2.PosDef) (h : sgpSmoother B state sgps fs dt = some ss) : ∀ s ∈ ss, s.2.PosDef := by
  rw [sgpSmoother, smoothWith_eq] at h
  split_ifs at h
  rw [← Option.some.inj h]
  refine smoothRec_inv_mem _ (fun b => b.2.PosDef) fs hfs fun f s hf hs' => ?_
  exact sgp_smooth_step_posDef B hB sgps hr hw state dt hs f s hf hs'

/-- **C212 (built-in rules).** The rules that the package offers meet the conditions: the cubature rule in every dimension, and the Gauss–Hermite rule of every order from two on in every dimension. -/
theorem C212_rules (d : ℕ) :
    (0 < d → SecondOrder (SigmaPoints.cubature d).w (SigmaPoints.cubature d).xi ∧ ∀ i, 0 ≤ (SigmaPoints.cubature d).w i) ∧
    ∀ (order : ℕ) (roots : ℕ → ℝ), 2 ≤ order → (∀ i j, i < order → j < order → roots i = roots j → i = j) →
      (∀ j, j < order → polyval ((genHermitePolyCoeff order).getLastD []) (roots j) = 0) →
      SecondOrder (SigmaPoints.gaussHermite d order roots).w (SigmaPoints.gaussHermite d order roots).xi ∧ ∀ i, 0 ≤ (SigmaPoints.gaussHermite d order roots).w i := by
  refine ⟨fun hd => ⟨(C72_cubature d hd).1, fun i => ?_⟩, fun order roots ho hinj hroot => ⟨C74_second_order d order ho roots hinj hroot, fun i => ?_⟩⟩
  · simp only [SigmaPoints.cubature]
    positivity
  · simp only [SigmaPoints.gaussHermite, ghWeight1d]
    positivity

/-- non-vacuity: the cubature rule in two dimensions with nonlinear dynamics, state-dependent noise and a nonlinear measurement. -/
example : ∃ (state : (Fin 2 → ℝ) → ℝ → Belief 2) (meas : (Fin 2 → ℝ) → (Fin 1 → ℝ) × Matrix (Fin 1) (Fin 1) ℝ), SecondOrder (SigmaPoints.cubature 2).w (SigmaPoints.cubature 2).xi ∧
    (∀ i, 0 ≤ (SigmaPoints.cubature 2).w i) ∧ (∀ x, (state x 1).2.PosDef) ∧ (∀ x, (meas x).2.PosDef) ∧ (∃ x y, (state x 1).2 ≠ (state y 1).2) ∧
    ∀ o ∈ sgpFilter theBackend state meas (SigmaPoints.cubature 2) 0 1 1 [fun _ => 3, fun _ => -1] false, o.1.2.PosDef := by
  have hr := (C72_cubature 2 (by norm_num)).1
  have hw : ∀ i, 0 ≤ (SigmaPoints.cubature 2).w i := fun i => by simp [SigmaPoints.cubature]
  have hs : ∀ x : Fin 2 → ℝ, ((1 + x 0 ^ 2) • (1 : Matrix (Fin 2) (Fin 2) ℝ)).PosDef := fun x => PosDef.one.smul (by positivity)
  refine ⟨fun x _ => (fun i => Real.sin (x i), (1 + x 0 ^ 2) • 1), fun x => (fun _ => x 0 ^ 3, 1), hr, hw, hs, fun _ => PosDef.one, ⟨fun _ => 0, fun _ => 1, fun h => ?_⟩, ?_⟩
  · simpa using congrFun (congrFun h 0) 0
  · exact C212_filter theBackend theBackend_valid _ hr hw _ _ 0 1 1 hs (fun _ => PosDef.one) PosDef.one _ false

end Mfs.Props

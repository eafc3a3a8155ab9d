import Verif.Props.MeasUnitsVector

/-!
# C217, continued: linear combinations of the measurements in the sigma-point filter
-/

namespace Mfs.Props

open Mfs.Spec Mfs.Classical Matrix

variable {dx dy : ℕ}

theorem scan_filterBody_fst_predict {Y : Type} (predict : Belief dx → Belief dx) (update update' : Belief dx → Y → Belief dx × ℝ) (g : Y → Y)
    (hu : ∀ c y, (update' (predict c) (g y)).1 = (update (predict c) y).1) (b : Belief dx) (n n' : ℝ) (ys : List Y) :
    (scan (filterBody predict update') (b, n') (ys.map g)).2.map Prod.fst = (scan (filterBody predict update) (b, n) ys).2.map Prod.fst := by
  induction ys generalizing b n n' with
  | nil => rfl
  | cons y ys ih =>
    rw [List.map_cons, scan_filterBody_cons, scan_filterBody_cons, List.map_cons, List.map_cons]
    simp only [stepOf, hu]
    rw [ih]

theorem sgpUpdate_mix {B : Backend} (hB : B.Valid) {sgps : SigmaPoints dx} (hr : SecondOrder sgps.w sgps.xi) (hw : ∀ i, 0 ≤ sgps.w i)
    (meas : (Fin dx → ℝ) → (Fin dy → ℝ) × Matrix (Fin dy) (Fin dy) ℝ) (hm : ∀ x, (meas x).2.PosDef) (T : Matrix (Fin dy) (Fin dy) ℝ) (hT : IsUnit T.det) (p : Belief dx) (hp : p.2.PosDef)
    (constCov : Bool) (y : Fin dy → ℝ) :
    (sgpUpdate B sgps (fun x => (T *ᵥ (meas x).1, T * (meas x).2 * Tᵀ)) p (T *ᵥ y) constCov).1 = (sgpUpdate B sgps meas p y constCov).1 := by
  have hTt : IsUnit Tᵀ.det := by rwa [det_transpose]
  have hm' : ∀ x, (T * (meas x).2 * Tᵀ).PosDef := fun x => by
    have := (hm x).conjTranspose_mul_mul_same (B := Tᵀ) (mulVec_injective_of_isUnit ((Matrix.isUnit_iff_isUnit_det _).2 hTt))
    rwa [conjTranspose_eq_transpose_of_trivial, transpose_transpose] at this
  have hv : ∀ {a : ℕ} (A : Matrix (Fin a) (Fin a) ℝ) (u : Fin a → ℝ) (v : Fin dy → ℝ), vecMulVec (A *ᵥ u) (T *ᵥ v) = A * vecMulVec u v * Tᵀ := fun A u v => by
    rw [Matrix.mul_vecMulVec, Matrix.vecMulVec_mul, Matrix.vecMul_transpose]
  have hv1 : ∀ (u : Fin dx → ℝ) (v : Fin dy → ℝ), vecMulVec u (T *ᵥ v) = (1 : Matrix (Fin dx) (Fin dx) ℝ) * vecMulVec u v * Tᵀ := fun u v => by
    rw [Matrix.one_mul, Matrix.vecMulVec_mul, Matrix.vecMul_transpose]
  obtain ⟨hS, -, h⟩ := sgpUpdate_eq hB hr hw meas hm p hp constCov rfl rfl rfl
  obtain ⟨-, -, h'⟩ := sgpUpdate_eq hB hr hw (fun x => (T *ᵥ (meas x).1, T * (meas x).2 * Tᵀ)) hm' p hp constCov rfl rfl rfl
  rw [h', h]
  set chi := sgps.genSigmaPoints p.1 (B.chol (symmetrize p.2)) with hchi
  have eS : sgpInnov B sgps (fun x => (T *ᵥ (meas x).1, T * (meas x).2 * Tᵀ)) p constCov = T * sgpInnov B sgps meas p constCov * Tᵀ := by
    simp only [sgpInnov, ← hchi]
    rw [expectation_mulVec, hv]
    simp only [hv]
    rw [expectation_mul, Matrix.mul_add, Matrix.add_mul, Matrix.mul_sub, Matrix.sub_mul]
    congr 1
    rw [dif_pos (nPoints_pos hr), dif_pos (nPoints_pos hr)]
    split_ifs
    · rfl
    · exact expectation_mul sgps _ _ _
  have eC : sgps.expectation (fun i => vecMulVec (chi i) (T *ᵥ (meas (chi i)).1)) - vecMulVec p.1 (sgps.expectation fun i => T *ᵥ (meas (chi i)).1)
      = (sgps.expectation (fun i => vecMulVec (chi i) (meas (chi i)).1) - vecMulVec p.1 (sgps.expectation fun i => (meas (chi i)).1)) * Tᵀ := by
    rw [expectation_mulVec, hv1]
    simp only [hv1]
    rw [expectation_mul, Matrix.one_mul, Matrix.one_mul, Matrix.sub_mul]
  simp only
  rw [eS, eC, expectation_mulVec]
  generalize sgpInnov B sgps meas p constCov = S at *
  generalize sgps.expectation (fun i => vecMulVec (chi i) (meas (chi i)).1) - vecMulVec p.1 (sgps.expectation fun i => (meas (chi i)).1) = C
  generalize (sgps.expectation fun i => (meas (chi i)).1) = pr
  have eK : ((T * S * Tᵀ)⁻¹ * (C * Tᵀ)ᵀ)ᵀ = (S⁻¹ * Cᵀ)ᵀ * T⁻¹ := by
    rw [Matrix.mul_inv_rev, Matrix.mul_inv_rev, transpose_mul C, transpose_transpose]
    rw [show Tᵀ⁻¹ * (S⁻¹ * T⁻¹) * (T * Cᵀ) = Tᵀ⁻¹ * (S⁻¹ * Cᵀ) by
      rw [Matrix.mul_assoc, Matrix.mul_assoc S⁻¹, ← Matrix.mul_assoc T⁻¹ T, Matrix.nonsing_inv_mul _ hT, Matrix.one_mul]]
    rw [transpose_mul, transpose_nonsing_inv, transpose_transpose]
  rw [eK]
  generalize (S⁻¹ * Cᵀ)ᵀ = K
  refine Prod.ext ?_ ?_
  · simp only
    rw [← mulVec_sub, mulVec_mulVec, Matrix.mul_assoc, Matrix.nonsing_inv_mul _ hT, Matrix.mul_one]
  · simp only
    rw [transpose_mul, show K * T⁻¹ * (T * S * Tᵀ) * (T⁻¹ᵀ * Kᵀ) = K * (T⁻¹ * T) * S * (Tᵀ * T⁻¹ᵀ) * Kᵀ by simp only [Matrix.mul_assoc], ← transpose_mul, Matrix.nonsing_inv_mul _ hT, transpose_one,
      Matrix.mul_one, Matrix.mul_one]

/-- **C217 (linear combinations).** Measurements of any dimension. Replacing the measurements by any invertible linear combinations of them, and the measurement model accordingly, leaves all filtering means and
covariances of `sgp_filter` unchanged. (The negative log-likelihoods are not claimed: with correlated components they are wrong, C69.) -/
theorem C217_sgp_mix (B : Backend) (hB : B.Valid) (sgps : SigmaPoints dx) (hr : SecondOrder sgps.w sgps.xi) (hw : ∀ i, 0 ≤ sgps.w i) (state : (Fin dx → ℝ) → ℝ → Belief dx)
    (meas : (Fin dx → ℝ) → (Fin dy → ℝ) × Matrix (Fin dy) (Fin dy) ℝ) (m0 : Fin dx → ℝ) (v0 : Matrix (Fin dx) (Fin dx) ℝ) (dt : ℝ) (hs : ∀ x, (state x dt).2.PosDef)
    (hm : ∀ x, (meas x).2.PosDef) (T : Matrix (Fin dy) (Fin dy) ℝ) (hT : IsUnit T.det) (ys : List (Fin dy → ℝ)) (constCov : Bool) :
    (sgpFilter B state (fun x => (T *ᵥ (meas x).1, T * (meas x).2 * Tᵀ)) sgps m0 v0 dt (ys.map fun y => T *ᵥ y) constCov).map Prod.fst
      = (sgpFilter B state meas sgps m0 v0 dt ys constCov).map Prod.fst :=
  scan_filterBody_fst_predict _ _ _ _ (fun c y => sgpUpdate_mix hB hr hw meas hm T hT _ (sgpPrediction_posDef (B := B) hr hw state dt hs c) constCov y) _ _ _ ys

/-- non-vacuity: sum and difference of two sensors. -/
example (ys : List (Fin 2 → ℝ)) : (sgpFilter theBackend (fun x _ => (x, 1)) (fun x => ((!![1, 1; 1, -1] : Matrix (Fin 2) (Fin 2) ℝ) *ᵥ x, (!![1, 1; 1, -1] : Matrix (Fin 2) (Fin 2) ℝ) * 1 * (!![1, 1; 1, -1])ᵀ))
      (SigmaPoints.cubature 2) 0 1 1 (ys.map fun y => (!![1, 1; 1, -1] : Matrix (Fin 2) (Fin 2) ℝ) *ᵥ y) false).map Prod.fst
    = (sgpFilter theBackend (fun x _ => (x, 1)) (fun x => (x, 1)) (SigmaPoints.cubature 2) 0 1 1 ys false).map Prod.fst :=
  C217_sgp_mix theBackend theBackend_valid _ ((C212_rules 2).1 (by norm_num)).1 ((C212_rules 2).1 (by norm_num)).2 (fun x _ => (x, 1)) (fun x => (x, 1)) 0 1 1 (fun _ => PosDef.one) (fun _ => PosDef.one)
    _ (by rw [det_fin_two_of]; norm_num) ys false

end Mfs.Props

import Verif.Spec.Gauss
import Mathlib.LinearAlgebra.Matrix.SchurComplement
import Mathlib.Tactic.NoncommRing
import Mathlib.Analysis.Matrix.PosDef
import Mathlib.Tactic.Linarith

/-!
# Linear algebra of the Kalman update
-/

namespace Mfs

open Matrix Mfs.Spec

section
variable {n k : ℕ} {P : Matrix (Fin n) (Fin n) ℝ} {R : Matrix (Fin k) (Fin k) ℝ} (H : Matrix (Fin k) (Fin n) ℝ)

/-- innovation covariance. -/
def innov (P : Matrix (Fin n) (Fin n) ℝ) (H : Matrix (Fin k) (Fin n) ℝ) (R : Matrix (Fin k) (Fin k) ℝ) : Matrix (Fin k) (Fin k) ℝ :=
  H * P * Hᵀ + R

/-- Kalman gain. -/
noncomputable def kgain (P : Matrix (Fin n) (Fin n) ℝ) (H : Matrix (Fin k) (Fin n) ℝ) (R : Matrix (Fin k) (Fin k) ℝ) :
    Matrix (Fin n) (Fin k) ℝ :=
  P * Hᵀ * (innov P H R)⁻¹

/-- updated covariance. -/
noncomputable def kcov (P : Matrix (Fin n) (Fin n) ℝ) (H : Matrix (Fin k) (Fin n) ℝ) (R : Matrix (Fin k) (Fin k) ℝ) :
    Matrix (Fin n) (Fin n) ℝ :=
  P - kgain P H R * innov P H R * (kgain P H R)ᵀ

theorem _root_.Matrix.PosSemidef.symm {P : Matrix (Fin n) (Fin n) ℝ} (h : P.PosSemidef) : Pᵀ = P := by
  simpa [Matrix.conjTranspose_eq_transpose_of_trivial] using h.isHermitian.eq

theorem psd_conj {P : Matrix (Fin n) (Fin n) ℝ} (h : P.PosSemidef) (A : Matrix (Fin k) (Fin n) ℝ) : (A * P * Aᵀ).PosSemidef := by
  simpa [Matrix.conjTranspose_eq_transpose_of_trivial] using h.mul_mul_conjTranspose_same A

theorem innov_posDef (hP : P.PosSemidef) (hR : R.PosDef) : (innov P H R).PosDef :=
  PosDef.posSemidef_add (psd_conj hP H) hR

theorem innov_symm (hP : P.PosSemidef) (hR : R.PosDef) : (innov P H R)ᵀ = innov P H R := (innov_posDef H hP hR).posSemidef.symm

theorem posDef_det {P : Matrix (Fin n) (Fin n) ℝ} (h : P.PosDef) : IsUnit P.det := (Matrix.isUnit_iff_isUnit_det _).1 h.isUnit

theorem kgain_mul_innov' (hS : (innov P H R).PosDef) : kgain P H R * innov P H R = P * Hᵀ := by
  rw [kgain, Matrix.nonsing_inv_mul_cancel_right _ _ (posDef_det hS)]

theorem kgain_transpose' (hP : P.PosSemidef) (hS : (innov P H R).PosDef) : (kgain P H R)ᵀ = (innov P H R)⁻¹ * (H * P) := by
  rw [kgain, Matrix.transpose_mul, Matrix.transpose_mul, Matrix.transpose_transpose, hP.symm, Matrix.transpose_nonsing_inv,
    hS.posSemidef.symm]

theorem kcov_eq' (hP : P.PosSemidef) (hS : (innov P H R).PosDef) : kcov P H R = P - kgain P H R * (H * P) := by
  rw [kcov, Matrix.mul_assoc, kgain_transpose' H hP hS, Matrix.mul_nonsing_inv_cancel_left _ _ (posDef_det hS)]

/-- Joseph form. -/
theorem kcov_joseph' (hP : P.PosSemidef) (hS : (innov P H R).PosDef) :
    kcov P H R = (1 - kgain P H R * H) * P * (1 - kgain P H R * H)ᵀ + kgain P H R * R * (kgain P H R)ᵀ := by
  have h1 := kcov_eq' H hP hS
  have h2 : kgain P H R * (H * P) = kgain P H R * innov P H R * (kgain P H R)ᵀ := by
    rw [Matrix.mul_assoc, kgain_transpose' H hP hS, Matrix.mul_nonsing_inv_cancel_left _ _ (posDef_det hS)]
  have h3 : P * Hᵀ * (kgain P H R)ᵀ = kgain P H R * innov P H R * (kgain P H R)ᵀ := by rw [kgain_mul_innov' H hS]
  have h4 : kgain P H R * innov P H R * (kgain P H R)ᵀ
      = kgain P H R * H * P * Hᵀ * (kgain P H R)ᵀ + kgain P H R * R * (kgain P H R)ᵀ := by
    rw [innov]; simp only [Matrix.mul_add, Matrix.add_mul, Matrix.mul_assoc]
  set K := kgain P H R
  rw [h1, Matrix.transpose_sub, Matrix.transpose_one, Matrix.transpose_mul]
  have e : (1 - K * H) * P * (1 - Hᵀ * Kᵀ) + K * R * Kᵀ
      = P - K * (H * P) - P * Hᵀ * Kᵀ + (K * H * P * Hᵀ * Kᵀ + K * R * Kᵀ) := by
    simp only [Matrix.sub_mul, Matrix.mul_sub, Matrix.one_mul, Matrix.mul_one, Matrix.mul_assoc]
    abel
  rw [e, ← h4, h3]
  abel

theorem kcov_posSemidef' (hP : P.PosSemidef) (hR : R.PosSemidef) (hS : (innov P H R).PosDef) : (kcov P H R).PosSemidef := by
  rw [kcov_joseph' H hP hS]
  exact (psd_conj hP _).add (psd_conj hR _)

/-- the update never increases the covariance. -/
theorem kcov_le' (hS : (innov P H R).PosDef) : (P - kcov P H R).PosSemidef := by
  rw [kcov, sub_sub_cancel]
  exact psd_conj hS.posSemidef _

theorem kgain_mul_innov (hP : P.PosSemidef) (hR : R.PosDef) : kgain P H R * innov P H R = P * Hᵀ :=
  kgain_mul_innov' H (innov_posDef H hP hR)

theorem kgain_transpose (hP : P.PosSemidef) (hR : R.PosDef) : (kgain P H R)ᵀ = (innov P H R)⁻¹ * (H * P) :=
  kgain_transpose' H hP (innov_posDef H hP hR)

theorem kcov_eq (hP : P.PosSemidef) (hR : R.PosDef) : kcov P H R = P - kgain P H R * (H * P) :=
  kcov_eq' H hP (innov_posDef H hP hR)

theorem kcov_posSemidef (hP : P.PosSemidef) (hR : R.PosDef) : (kcov P H R).PosSemidef :=
  kcov_posSemidef' H hP hR.posSemidef (innov_posDef H hP hR)

theorem kcov_le (hP : P.PosSemidef) (hR : R.PosDef) : (P - kcov P H R).PosSemidef := kcov_le' H (innov_posDef H hP hR)

theorem kgain_info (hP : P.PosSemidef) (hR : R.PosDef) :
    P * Hᵀ * R⁻¹ - kgain P H R - kgain P H R * (H * P * Hᵀ) * R⁻¹ = 0 := by
  have h := kgain_mul_innov H hP hR
  have hh : kgain P H R * (H * P * Hᵀ) = P * Hᵀ - kgain P H R * R := by
    rw [← h, innov, Matrix.mul_add]; abel
  rw [hh, Matrix.sub_mul, Matrix.mul_nonsing_inv_cancel_right _ _ (posDef_det hR)]
  abel

/-- information form. -/
theorem kcov_mul_info (hP : P.PosDef) (hR : R.PosDef) : kcov P H R * (P⁻¹ + Hᵀ * R⁻¹ * H) = 1 := by
  rw [kcov_eq H hP.posSemidef hR]
  have hk := kgain_info H hP.posSemidef hR
  set K := kgain P H R
  have e : (P - K * (H * P)) * (P⁻¹ + Hᵀ * R⁻¹ * H)
      = P * P⁻¹ + (P * Hᵀ * R⁻¹ - K * (H * P * Hᵀ) * R⁻¹) * H - K * H * (P * P⁻¹) := by
    simp only [Matrix.sub_mul, Matrix.mul_add, Matrix.mul_assoc]
    abel
  rw [e, Matrix.mul_nonsing_inv _ (posDef_det hP), Matrix.mul_one, add_sub_assoc, ← Matrix.sub_mul,
    show P * Hᵀ * R⁻¹ - K * (H * P * Hᵀ) * R⁻¹ - K = 0 by rw [← hk]; abel, Matrix.zero_mul, add_zero]

theorem kcov_inv (hP : P.PosDef) (hR : R.PosDef) : (kcov P H R)⁻¹ = P⁻¹ + Hᵀ * R⁻¹ * H :=
  Matrix.inv_eq_right_inv (kcov_mul_info H hP hR)

theorem kcov_eq_inv (hP : P.PosDef) (hR : R.PosDef) : kcov P H R = (P⁻¹ + Hᵀ * R⁻¹ * H)⁻¹ :=
  (Matrix.inv_eq_left_inv (kcov_mul_info H hP hR)).symm

theorem info_posDef (hP : P.PosDef) (hR : R.PosDef) : (P⁻¹ + Hᵀ * R⁻¹ * H).PosDef := by
  refine hP.inv.add_posSemidef ?_
  have := psd_conj hR.inv.posSemidef Hᵀ
  rwa [Matrix.transpose_transpose] at this

theorem kcov_posDef (hP : P.PosDef) (hR : R.PosDef) : (kcov P H R).PosDef := by
  rw [kcov_eq_inv H hP hR]
  exact (info_posDef H hP hR).inv

theorem kcov_inv_mul_kgain (hP : P.PosDef) (hR : R.PosDef) : (kcov P H R)⁻¹ * kgain P H R = Hᵀ * R⁻¹ := by
  rw [kcov_inv H hP hR]
  have hS := posDef_det (innov_posDef H hP.posSemidef hR)
  have : (P⁻¹ + Hᵀ * R⁻¹ * H) * (P * Hᵀ) = Hᵀ * R⁻¹ * innov P H R := by
    rw [innov, Matrix.add_mul, Matrix.mul_add, ← Matrix.mul_assoc P⁻¹, Matrix.nonsing_inv_mul _ (posDef_det hP), Matrix.one_mul,
      Matrix.nonsing_inv_mul_cancel_right _ _ (posDef_det hR)]
    simp only [Matrix.mul_assoc]
    abel
  rw [kgain, ← Matrix.mul_assoc, this, Matrix.mul_nonsing_inv_cancel_right _ _ hS]

theorem innov_inv_add (hP : P.PosSemidef) (hR : R.PosDef) :
    (innov P H R)⁻¹ + (kgain P H R)ᵀ * (Hᵀ * R⁻¹) = R⁻¹ := by
  have hS := posDef_det (innov_posDef H hP hR)
  rw [kgain_transpose H hP hR]
  have : (innov P H R)⁻¹ * (H * P) * (Hᵀ * R⁻¹) = (innov P H R)⁻¹ * (innov P H R - R) * R⁻¹ := by
    rw [innov, add_sub_cancel_right]; simp only [Matrix.mul_assoc]
  rw [this, Matrix.mul_sub, Matrix.nonsing_inv_mul _ hS, Matrix.sub_mul, Matrix.one_mul,
    Matrix.mul_nonsing_inv_cancel_right _ _ (posDef_det hR)]
  abel

theorem mulVec_dot {a b : ℕ} (A : Matrix (Fin a) (Fin b) ℝ) (u : Fin b → ℝ) (w : Fin a → ℝ) : A *ᵥ u ⬝ᵥ w = u ⬝ᵥ Aᵀ *ᵥ w := by
  rw [Matrix.dotProduct_mulVec, Matrix.vecMul_transpose]

/-- completing the square. -/
theorem quad_identity (hP : P.PosDef) (hR : R.PosDef) (u : Fin n → ℝ) (e : Fin k → ℝ) :
    u ⬝ᵥ P⁻¹ *ᵥ u + (e - H *ᵥ u) ⬝ᵥ R⁻¹ *ᵥ (e - H *ᵥ u)
      = e ⬝ᵥ (innov P H R)⁻¹ *ᵥ e + (u - kgain P H R *ᵥ e) ⬝ᵥ (kcov P H R)⁻¹ *ᵥ (u - kgain P H R *ᵥ e) := by
  have h1 := kcov_inv_mul_kgain H hP hR
  have h2 := innov_inv_add H hP.posSemidef hR
  have hL : ((kcov P H R)⁻¹)ᵀ = (kcov P H R)⁻¹ := (kcov_posDef H hP hR).inv.posSemidef.symm
  have h3 : (kgain P H R)ᵀ * (kcov P H R)⁻¹ = (Hᵀ * R⁻¹)ᵀ := by rw [← h1, Matrix.transpose_mul, hL]
  have h4 : (Hᵀ * R⁻¹)ᵀ = R⁻¹ * H := by
    rw [Matrix.transpose_mul, Matrix.transpose_transpose, hR.inv.posSemidef.symm]
  have hinv := kcov_inv H hP hR
  set K := kgain P H R
  set L := (kcov P H R)⁻¹
  have r1 : (u - K *ᵥ e) ⬝ᵥ L *ᵥ (u - K *ᵥ e)
      = u ⬝ᵥ L *ᵥ u - u ⬝ᵥ (Hᵀ * R⁻¹) *ᵥ e - e ⬝ᵥ (R⁻¹ * H) *ᵥ u + e ⬝ᵥ (Kᵀ * (Hᵀ * R⁻¹)) *ᵥ e := by
    rw [Matrix.mulVec_sub, dotProduct_sub, sub_dotProduct, sub_dotProduct, mulVec_dot, mulVec_dot, Matrix.mulVec_mulVec,
      Matrix.mulVec_mulVec, h1, Matrix.mulVec_mulVec, h3, h4]
    ring
  have r2 : (e - H *ᵥ u) ⬝ᵥ R⁻¹ *ᵥ (e - H *ᵥ u)
      = e ⬝ᵥ R⁻¹ *ᵥ e - e ⬝ᵥ (R⁻¹ * H) *ᵥ u - u ⬝ᵥ (Hᵀ * R⁻¹) *ᵥ e + u ⬝ᵥ (Hᵀ * R⁻¹ * H) *ᵥ u := by
    rw [Matrix.mulVec_sub, dotProduct_sub, sub_dotProduct, sub_dotProduct, mulVec_dot, mulVec_dot, Matrix.mulVec_mulVec,
      Matrix.mulVec_mulVec, Matrix.mulVec_mulVec, Matrix.mul_assoc]
    ring
  rw [r1, r2, hinv, ← h2, Matrix.add_mulVec, Matrix.add_mulVec, dotProduct_add, dotProduct_add]
  rw [h2]
  ring

theorem det_identity (hP : P.PosDef) (hR : R.PosDef) : P.det * R.det = (innov P H R).det * (kcov P H R).det := by
  have hk : (kcov P H R).det * (P⁻¹ + Hᵀ * R⁻¹ * H).det = 1 := by
    rw [← Matrix.det_mul, kcov_mul_info H hP hR, Matrix.det_one]
  have h1 : P⁻¹ + Hᵀ * R⁻¹ * H = P⁻¹ * (1 + P * Hᵀ * (R⁻¹ * H)) := by
    rw [Matrix.mul_add, Matrix.mul_one, Matrix.mul_assoc P, ← Matrix.mul_assoc P⁻¹, Matrix.nonsing_inv_mul _ (posDef_det hP),
      Matrix.one_mul, Matrix.mul_assoc]
  have h2 : (1 + R⁻¹ * H * (P * Hᵀ)) = R⁻¹ * innov P H R := by
    rw [innov, Matrix.mul_add, Matrix.nonsing_inv_mul _ (posDef_det hR), add_comm]
    simp only [Matrix.mul_assoc]
  have h3 : (P⁻¹ + Hᵀ * R⁻¹ * H).det = P⁻¹.det * (R⁻¹.det * (innov P H R).det) := by
    rw [h1, Matrix.det_mul, Matrix.det_one_add_mul_comm, h2, Matrix.det_mul]
  have hPd := hP.det_pos.ne'
  have hRd := hR.det_pos.ne'
  rw [h3, Matrix.det_nonsing_inv, Matrix.det_nonsing_inv, Ring.inverse_eq_inv'] at hk
  field_simp at hk
  linarith

/-- **Bayes' rule for linear Gaussian measurements**. -/
theorem bayes_identity (hP : P.PosDef) (hR : R.PosDef) (m x : Fin n → ℝ) (y : Fin k → ℝ) :
    mvnPdf m P x * mvnPdf (H *ᵥ x) R y
      = mvnPdf (H *ᵥ m) (innov P H R) y * mvnPdf (m + kgain P H R *ᵥ (y - H *ᵥ m)) (kcov P H R) x := by
  have hq := quad_identity H hP hR (x - m) (y - H *ᵥ m)
  have e1 : y - H *ᵥ m - H *ᵥ (x - m) = y - H *ᵥ x := by rw [Matrix.mulVec_sub]; abel
  have e2 : x - m - kgain P H R *ᵥ (y - H *ᵥ m) = x - (m + kgain P H R *ᵥ (y - H *ᵥ m)) := by abel
  rw [e1, e2] at hq
  have hd := det_identity H hP hR
  have hSp := (innov_posDef H hP.posSemidef hR).det_pos
  have hPp := hP.det_pos
  unfold mvnPdf
  rw [div_mul_div_comm, div_mul_div_comm, ← Real.exp_add, ← Real.exp_add, ← Real.sqrt_mul (by positivity),
    ← Real.sqrt_mul (by positivity)]
  congr 1
  · congr 1; linarith
  · congr 1
    calc (2 * Real.pi) ^ n * P.det * ((2 * Real.pi) ^ k * R.det)
        = (2 * Real.pi) ^ n * (2 * Real.pi) ^ k * (P.det * R.det) := by ring
      _ = _ := by rw [hd]; ring

end

end Mfs

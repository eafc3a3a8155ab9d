import Verif.Spec.LinAlg
import Mathlib.LinearAlgebra.Matrix.Block
import Mathlib.LinearAlgebra.Matrix.NonsingularInverse

/-!
# Triangular matrices and Cholesky factors
-/

namespace Mfs.Spec

open Matrix

variable {n : ℕ} {A B R G : Matrix (Fin n) (Fin n) ℝ}

theorem IsLower.blockTriangular (h : IsLower R) : BlockTriangular R OrderDual.toDual :=
  fun i j hij => h i j hij

theorem IsLower.det (h : IsLower R) : R.det = ∏ i, R i i :=
  Matrix.det_of_isLowerTriangular _ (fun i j hij => h i j hij)

theorem IsLower.isUnit_det (h : IsLower R) (hd : ∀ i, R i i ≠ 0) : IsUnit R.det := by
  rw [h.det, isUnit_iff_ne_zero]
  exact Finset.prod_ne_zero_iff.2 (fun i _ => hd i)

theorem IsLower.inv (h : IsLower R) (hd : IsUnit R.det) : IsLower R⁻¹ := by
  letI := Matrix.invertibleOfIsUnitDet R hd
  have := blockTriangular_inv_of_blockTriangular h.blockTriangular
  exact fun i j hij => this hij

theorem IsLower.mul (hA : IsLower A) (hB : IsLower B) : IsLower (A * B) := by
  intro i j hij
  rw [Matrix.mul_apply]
  apply Finset.sum_eq_zero
  intro k _
  rcases lt_or_ge i k with h | h
  · rw [hA i k h, zero_mul]
  · rw [hB k j (lt_of_le_of_lt h hij), mul_zero]

theorem IsLower.mul_diag (hA : IsLower A) (hB : IsLower B) (i : Fin n) : (A * B) i i = A i i * B i i := by
  rw [Matrix.mul_apply, Finset.sum_eq_single i]
  · intro k _ hk
    rcases lt_or_gt_of_ne hk with h | h
    · rw [hB k i h, mul_zero]
    · rw [hA i k h, zero_mul]
  · simp

theorem IsLower.inv_diag (h : IsLower R) (hd : ∀ i, R i i ≠ 0) (i : Fin n) : R⁻¹ i i = (R i i)⁻¹ := by
  have hu := h.isUnit_det hd
  have := h.mul_diag (h.inv hu) i
  rw [Matrix.mul_nonsing_inv _ hu, Matrix.one_apply_eq] at this
  exact eq_inv_of_mul_eq_one_right this.symm

theorem IsChol.isUnit_det (h : IsChol G R) : IsUnit R.det :=
  h.lower.isUnit_det (fun i => (h.diag_pos i).ne')

theorem IsChol.isSymm (h : IsChol G R) : G.IsSymm := by
  rw [← h.mul_transpose]
  simp [Matrix.IsSymm, Matrix.transpose_mul]

theorem IsChol.isUnit_det_G (h : IsChol G R) : IsUnit G.det := by
  rw [← h.mul_transpose, Matrix.det_mul, Matrix.det_transpose]
  exact h.isUnit_det.mul h.isUnit_det

/-- Cholesky factors are unique. -/
theorem IsChol.unique {R' : Matrix (Fin n) (Fin n) ℝ} (h : IsChol G R) (h' : IsChol G R') : R = R' := by
  have hu := h.isUnit_det
  have hu' := h'.isUnit_det
  set Q := R'⁻¹ * R with hQ
  have hR : R = R' * Q := by rw [hQ, ← Matrix.mul_assoc, Matrix.mul_nonsing_inv _ hu', Matrix.one_mul]
  have hQl : IsLower Q := (h'.lower.inv hu').mul h.lower
  have hQo : Q * Qᵀ = 1 := by
    rw [hQ, Matrix.transpose_mul, Matrix.mul_assoc, ← Matrix.mul_assoc R, h.mul_transpose, ← h'.mul_transpose,
      Matrix.mul_assoc R', ← Matrix.transpose_mul, Matrix.nonsing_inv_mul _ hu', Matrix.transpose_one, Matrix.mul_one,
      Matrix.nonsing_inv_mul _ hu']
  have hQd : ∀ i, 0 < Q i i := by
    intro i
    rw [hQ, (h'.lower.inv hu').mul_diag h.lower, h'.lower.inv_diag (fun i => (h'.diag_pos i).ne')]
    exact mul_pos (inv_pos.2 (h'.diag_pos i)) (h.diag_pos i)
  have hQu : IsUnit Q.det := hQl.isUnit_det (fun i => (hQd i).ne')
  have hQinv : Q⁻¹ = Qᵀ := Matrix.inv_eq_right_inv hQo
  have hQ1 : Q = 1 := by
    have hT : IsLower Qᵀ := hQinv ▸ hQl.inv hQu
    ext i j
    rcases lt_trichotomy i j with hij | hij | hij
    · rw [hQl i j hij, Matrix.one_apply_ne hij.ne]
    · subst hij
      have := congrFun (congrFun hQo i) i
      rw [hQl.mul_diag hT, Matrix.transpose_apply, Matrix.one_apply_eq] at this
      rw [Matrix.one_apply_eq]
      nlinarith [hQd i]
    · have := hT j i hij
      rw [Matrix.transpose_apply] at this
      rw [this, Matrix.one_apply_ne hij.ne']
  rw [hR, hQ1, Matrix.mul_one]

theorem IsChol.posDef (h : IsChol G R) : G.PosDef := by
  rw [← h.mul_transpose]
  have : R * Rᵀ = R * Rᴴ := by rw [Matrix.conjTranspose_eq_transpose_of_trivial]
  rw [this]
  refine Matrix.PosDef.mul_conjTranspose_self R ?_
  intro x y hxy
  have hu := h.isUnit_det
  have := congrArg (fun v => v ᵥ* R⁻¹) hxy
  simpa [Matrix.vecMul_vecMul, Matrix.mul_nonsing_inv _ hu] using this

end Mfs.Spec

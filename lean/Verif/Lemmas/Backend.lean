import Verif.Model.Backend
import Verif.Lemmas.Ldl
import Mathlib.Analysis.Matrix.Spectrum
import Mathlib.Data.Fin.Tuple.Sort

/-!
# A valid backend exists

Hence theorems quantified over valid backends are not vacuous.
-/

namespace Mfs

open Matrix Mfs.Spec

theorem exists_isEigh {n : ℕ} (K : Matrix (Fin n) (Fin n) ℝ) (hK : K.IsSymm) :
    ∃ e : Matrix (Fin n) (Fin n) ℝ × (Fin n → ℝ), IsEigh K e.1 e.2 ∧ Monotone e.2 := by
  have hH : K.IsHermitian := by
    rw [Matrix.IsHermitian, Matrix.conjTranspose_eq_transpose_of_trivial]; exact hK
  let U : Matrix (Fin n) (Fin n) ℝ := hH.eigenvectorUnitary
  have hU : U * Uᵀ = 1 := by
    have := Unitary.coe_mul_star_self hH.eigenvectorUnitary
    rwa [Unitary.coe_star, Matrix.star_eq_conjTranspose, Matrix.conjTranspose_eq_transpose_of_trivial] at this
  have hs : K = U * diagonal hH.eigenvalues * Uᵀ := by
    have h := hH.spectral_theorem
    rw [Unitary.conjStarAlgAut_apply, Matrix.star_eq_conjTranspose, Matrix.conjTranspose_eq_transpose_of_trivial] at h
    exact h
  let σ := Tuple.sort hH.eigenvalues
  refine ⟨(Matrix.of fun i j => U i (σ j), hH.eigenvalues ∘ σ), ⟨?_, ?_⟩, Tuple.monotone_sort hH.eigenvalues⟩
  · ext i j
    rw [← hU, Matrix.mul_apply, Matrix.mul_apply]
    exact Equiv.sum_comp σ (fun k => U i k * U j k)
  · ext i j
    conv_lhs => rw [hs]
    rw [Matrix.mul_apply, Matrix.mul_apply]
    simp only [Matrix.mul_diagonal, Matrix.transpose_apply, Matrix.of_apply, Function.comp]
    exact (Equiv.sum_comp σ (fun k => U i k * hH.eigenvalues k * U j k)).symm

open Classical in
/-- a concrete backend: Cholesky by `ldl`, eigenvectors by choice. -/
noncomputable def theBackend : Backend where
  chol G := Ldl.ldlChol G
  eigh _ K := if h : K.IsSymm then (exists_isEigh K h).choose else (1, 0)

theorem theBackend_valid : theBackend.Valid where
  chol G hG := Ldl.ldlChol_isChol G hG none
  eigh _ K hK := by
    simp only [theBackend, dif_pos hK]
    exact (exists_isEigh K hK).choose_spec.1
  sorted K hK := by
    simp only [theBackend, dif_pos hK]
    exact (exists_isEigh K hK).choose_spec.2

theorem symmetrize_isSymm {n : ℕ} (a : Matrix (Fin n) (Fin n) ℝ) : (symmetrize a).IsSymm := by
  rw [Matrix.IsSymm, symmetrize, Matrix.transpose_smul, Matrix.transpose_add, Matrix.transpose_transpose, add_comm]

theorem symmetrize_eq {n : ℕ} {a : Matrix (Fin n) (Fin n) ℝ} (h : a.IsSymm) : symmetrize a = a := by
  rw [symmetrize, h.eq]
  ext i j
  simp only [Matrix.smul_apply, Matrix.add_apply, smul_eq_mul]
  ring

theorem lowerPart_eq {n : ℕ} {a : Matrix (Fin n) (Fin n) ℝ} (h : IsLower a) : lowerPart a = a := by
  ext i j
  simp only [lowerPart, Matrix.of_apply]
  split_ifs with hij
  · rfl
  · exact (h i j (not_le.1 hij)).symm

end Mfs

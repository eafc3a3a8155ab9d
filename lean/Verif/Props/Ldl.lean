import Verif.Lemmas.Ldl

/-!
# Properties C55, C56: `ldl` and `ldl_chol`
-/

namespace Mfs.Props

open Matrix Mfs.Spec Mfs.Ldl

/-- **C55.** For a symmetric matrix whose pivots (the returned diagonal) are non-zero, `ldl` returns a unit lower
triangular `L` and a diagonal `D` with `L D Lᵀ = mat`. -/
theorem C55_ldl_factorises {n : ℕ} (M : Matrix (Fin n) (Fin n) ℝ) (hM : M.IsSymm) (hd : ∀ i, (ldl M).2 i ≠ 0) :
    IsLower (ldl M).1 ∧ (∀ i, (ldl M).1 i i = 1) ∧ (ldl M).1 * diagonal (ldl M).2 * (ldl M).1ᵀ = M :=
  ⟨ldl_lower M, ldl_diag M, ldl_mul M hM hd⟩

/-- C55, converse direction used by callers: positive definite input always has positive pivots. -/
theorem C55_ldl_pivots_pos {n : ℕ} (M : Matrix (Fin n) (Fin n) ℝ) (hM : M.PosDef) : ∀ i, 0 < (ldl M).2 i :=
  ldl_pos M hM

/-- an indefinite matrix meeting the hypotheses of C55. -/
example : (!![1, 2; 2, 3] : Matrix (Fin 2) (Fin 2) ℝ).IsSymm ∧
    (∀ i, (ldl (!![1, 2; 2, 3] : Matrix (Fin 2) (Fin 2) ℝ)).2 i ≠ 0) ∧
    (ldl (!![1, 2; 2, 3] : Matrix (Fin 2) (Fin 2) ℝ)).2 1 < 0 := by
  refine ⟨?_, ?_, ?_⟩
  · ext i j; fin_cases i <;> fin_cases j <;> rfl
  · intro i
    fin_cases i <;> simp [ldl, loop, step, Ldl.init, mget] <;> norm_num
  · simp [ldl, loop, step, Ldl.init, mget]; norm_num

/-- **C56.** `ldl_chol` returns the Cholesky factor of a positive definite matrix, whatever `eps`; for every matrix
it returns a lower triangular `R` with `R Rᵀ = L diag(d_j if d_j ≥ 0 else eps²) Lᵀ`, which is positive semidefinite; and
(for `eps ≠ 0`) `R` is singular exactly when some pivot is exactly zero. -/
theorem C56_ldl_chol {n : ℕ} (M : Matrix (Fin n) (Fin n) ℝ) (eps : ℝ) :
    (∀ e, M.PosDef → IsChol M (ldlChol M e)) ∧
    IsLower (ldlChol M (some eps)) ∧
    ldlChol M (some eps) * (ldlChol M (some eps))ᵀ
      = (ldl M).1 * diagonal (fun j => if 0 ≤ (ldl M).2 j then (ldl M).2 j else eps ^ 2) * (ldl M).1ᵀ ∧
    (ldlChol M (some eps) * (ldlChol M (some eps))ᵀ).PosSemidef ∧
    (eps ≠ 0 → ((ldlChol M (some eps)).det = 0 ↔ ∃ j, (ldl M).2 j = 0)) := by
  have hlow : IsLower (ldlChol M (some eps)) := by
    intro i j hij
    simp only [ldlChol, Matrix.of_apply]
    rw [ldl_lower M i j hij, zero_mul]
  refine ⟨fun e h => ldlChol_isChol M h e, hlow, ?_, ?_, ?_⟩
  · ext i j
    rw [Matrix.mul_apply, Matrix.mul_apply]
    apply Finset.sum_congr rfl
    intro k _
    rw [Matrix.mul_diagonal, Matrix.transpose_apply, Matrix.transpose_apply]
    simp only [ldlChol, Matrix.of_apply]
    by_cases h : (ldl M).2 k < 0
    · rw [if_pos h, if_neg (not_le.2 h)]; ring
    · rw [if_neg h, if_pos (not_lt.1 h)]
      have := Real.mul_self_sqrt (not_lt.1 h)
      calc _ = (ldl M).1 i k * (Real.sqrt ((ldl M).2 k) * Real.sqrt ((ldl M).2 k)) * (ldl M).1 j k := by ring
        _ = _ := by rw [this]
  · have := Matrix.posSemidef_self_mul_conjTranspose (ldlChol M (some eps))
    rwa [Matrix.conjTranspose_eq_transpose_of_trivial] at this
  · intro he
    rw [hlow.det, Finset.prod_eq_zero_iff]
    constructor
    · rintro ⟨j, _, hj⟩
      refine ⟨j, ?_⟩
      simp only [ldlChol, Matrix.of_apply, ldl_diag, one_mul] at hj
      by_cases h : (ldl M).2 j < 0
      · rw [if_pos h] at hj; exact absurd hj he
      · rw [if_neg h] at hj
        exact le_antisymm (Real.sqrt_eq_zero'.1 hj) (not_lt.1 h)
    · rintro ⟨j, hj⟩
      refine ⟨j, Finset.mem_univ _, ?_⟩
      simp [ldlChol, hj]

/-- the default `eps` is a multiple of the Frobenius norm. -/
theorem C56_default_eps {n : ℕ} (M : Matrix (Fin n) (Fin n) ℝ) :
    ldlChol M none = ldlChol M (some (1e-8 * Real.sqrt (∑ i, ∑ j, M i j ^ 2))) := rfl

/-- C56 is not vacuous: the identity is positive definite, and `0` has zero pivots, so `ldl_chol` returns a singular
factor for it (the "repair" does not apply to zero pivots). -/
example : (1 : Matrix (Fin 2) (Fin 2) ℝ).PosDef ∧ (ldlChol (0 : Matrix (Fin 1) (Fin 1) ℝ) (some 1)).det = 0 := by
  refine ⟨Matrix.PosDef.one, ?_⟩
  rw [(C56_ldl_chol (0 : Matrix (Fin 1) (Fin 1) ℝ) 1).2.2.2.2 one_ne_zero]
  exact ⟨0, by simp [ldl, loop, Ldl.init, mget]⟩

end Mfs.Props

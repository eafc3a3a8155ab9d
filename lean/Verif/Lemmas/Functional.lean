import Verif.Lemmas.Quad1
import Mathlib.Algebra.Polynomial.Taylor
import Mathlib.Analysis.Calculus.Deriv.Polynomial

/-!
# Moment functionals
-/

namespace Mfs.Spec

open Matrix Polynomial

theorem momFun_functional (L : ℝ[X] →ₗ[ℝ] ℝ) (m : ℕ → ℝ) (N : ℕ) (hm : ∀ k < N, m k = L (X ^ k)) (p : ℝ[X])
    (hp : p.natDegree < N) : momFun m p = L p := by
  conv_rhs => rw [p.as_sum_range_C_mul_X_pow]
  rw [map_sum, momFun]
  apply Finset.sum_congr rfl
  intro k hk
  rw [Finset.mem_range] at hk
  rw [hm k (by omega), ← smul_eq_C_mul, map_smul, smul_eq_mul]

theorem quadForm_hankel (L : ℝ[X] →ₗ[ℝ] ℝ) (n : ℕ) (m : ℕ → ℝ) (hm : ∀ k < 2 * n, m k = L (X ^ k)) (c : Fin n → ℝ) :
    c ⬝ᵥ (hankelMat n m *ᵥ c) = L ((∑ i : Fin n, C (c i) * X ^ (i : ℕ)) ^ 2) := by
  rw [sq, Finset.sum_mul_sum, map_sum]
  simp only [dotProduct, Matrix.mulVec, hankelMat, Matrix.of_apply, Finset.mul_sum]
  apply Finset.sum_congr rfl
  intro i _
  rw [map_sum]
  apply Finset.sum_congr rfl
  intro j _
  rw [hm _ (by omega), show C (c i) * X ^ (i : ℕ) * (C (c j) * X ^ (j : ℕ)) = C (c i * c j) * X ^ ((i : ℕ) + j) by
    rw [C_mul, pow_add]; ring, ← smul_eq_C_mul, map_smul, smul_eq_mul]
  ring

theorem poly_of_vec {n : ℕ} (c : Fin n → ℝ) (i : Fin n) :
    (∑ i : Fin n, C (c i) * X ^ (i : ℕ)).coeff i = c i := by
  simp only [finsetSum_coeff, coeff_C_mul, coeff_X_pow]
  rw [Finset.sum_eq_single i]
  · simp
  · intro j _ hj
    rw [if_neg (fun h => hj (Fin.ext h.symm)), mul_zero]
  · simp

theorem natDegree_poly_of_vec {n : ℕ} (hn : 0 < n) (c : Fin n → ℝ) :
    (∑ i : Fin n, C (c i) * X ^ (i : ℕ)).natDegree < n := by
  refine lt_of_le_of_lt (natDegree_sum_le_of_forall_le _ _ (n := n - 1) ?_) (by omega)
  intro i _
  refine (natDegree_C_mul_X_pow_le _ _).trans ?_
  omega

/-- positive definiteness of the Hankel matrix in terms of the functional. -/
theorem posDef_hankel_iff (L : ℝ[X] →ₗ[ℝ] ℝ) (n : ℕ) (m : ℕ → ℝ) (hm : ∀ k < 2 * n, m k = L (X ^ k)) :
    (hankelMat n m).PosDef ↔ ∀ q : ℝ[X], q ≠ 0 → q.natDegree < n → 0 < L (q ^ 2) := by
  constructor
  · intro h q hq hd
    have hc : (fun i : Fin n => q.coeff i) ≠ 0 := by
      intro h0
      apply hq
      ext k
      by_cases hk : k < n
      · exact congrFun h0 ⟨k, hk⟩
      · rw [coeff_eq_zero_of_natDegree_lt (by omega), coeff_zero]
    have := h.dotProduct_mulVec_pos hc
    rw [star_trivial, quadForm_hankel L n m hm] at this
    have e : (∑ i : Fin n, C (q.coeff i) * X ^ (i : ℕ)) = q := by
      rw [Fin.sum_univ_eq_sum_range (fun i => C (q.coeff i) * X ^ i) n]
      conv_rhs => rw [q.as_sum_range' n hd]
      exact Finset.sum_congr rfl (fun i _ => C_mul_X_pow_eq_monomial)
    rwa [e] at this
  · intro h
    refine Matrix.PosDef.of_dotProduct_mulVec_pos ?_ ?_
    · rw [Matrix.IsHermitian, Matrix.conjTranspose_eq_transpose_of_trivial]
      exact Quad1.hankelMat_isSymm n m
    · intro c hc
      rw [star_trivial, quadForm_hankel L n m hm]
      have hn : 0 < n := by
        rcases Nat.eq_zero_or_pos n with h0 | h0
        · subst h0; exact absurd (Subsingleton.elim c 0) hc
        · exact h0
      refine h _ ?_ (natDegree_poly_of_vec hn c)
      intro h0
      apply hc
      ext i
      rw [← poly_of_vec c i, h0]; simp

/-- the functional pulled back by an affine map: `p ↦ L (p (a X + b))`. -/
noncomputable def affineFun (L : ℝ[X] →ₗ[ℝ] ℝ) (a b : ℝ) : ℝ[X] →ₗ[ℝ] ℝ :=
  L ∘ₗ (Polynomial.aeval (C a * X + C b : ℝ[X])).toLinearMap

theorem affineFun_apply (L : ℝ[X] →ₗ[ℝ] ℝ) (a b : ℝ) (p : ℝ[X]) : affineFun L a b p = L (p.comp (C a * X + C b)) := by
  rw [affineFun, LinearMap.comp_apply, AlgHom.toLinearMap_apply, ← Polynomial.comp_eq_aeval]

theorem comp_affine_ne_zero {a b : ℝ} (ha : a ≠ 0) {q : ℝ[X]} (hq : q ≠ 0) :
    q.comp (C a * X + C b) ≠ 0 ∧ (q.comp (C a * X + C b)).natDegree = q.natDegree := by
  have hd : (C a * X + C b : ℝ[X]).natDegree = 1 := natDegree_linear ha
  constructor
  · intro h0
    rcases comp_eq_zero_iff.1 h0 with h | ⟨_, h⟩
    · exact hq h
    · rw [h, natDegree_C] at hd; exact absurd hd (by norm_num)
  · rw [natDegree_comp, hd, mul_one]

end Mfs.Spec

import Verif.Lemmas.Tri
import Mathlib.LinearAlgebra.Lagrange

/-!
# Matrix algebra behind the quadratures

`K = R⁻¹ H R⁻ᵀ`, where `R` is the Cholesky factor of the Gram matrix `G`. The rows `v_a` of `R` satisfy
`⟨v_a, v_b⟩ = G_ab`, `⟨v_a, K v_b⟩ = H_ab`, and `K v_a = v_b` as soon as column `a` of `H` is column `b` of `G`.
-/

namespace Mfs.Spec

open Matrix

variable {n : ℕ} {G R H K U : Matrix (Fin n) (Fin n) ℝ} {lam : Fin n → ℝ}

/-- the multiplication matrix. -/
noncomputable def multMat (R H : Matrix (Fin n) (Fin n) ℝ) : Matrix (Fin n) (Fin n) ℝ := R⁻¹ * H * Rᵀ⁻¹

/-- row `a` of `R`, as a vector. -/
def rowVec (R : Matrix (Fin n) (Fin n) ℝ) (a : Fin n) : Fin n → ℝ := fun k => R a k

theorem IsChol.rowVec_dot (h : IsChol G R) (a b : Fin n) : rowVec R a ⬝ᵥ rowVec R b = G a b := by
  rw [← h.mul_transpose]
  simp [rowVec, Matrix.mul_apply, dotProduct]

theorem IsChol.multMat_mul (h : IsChol G R) : multMat R H * Rᵀ = R⁻¹ * H := by
  rw [multMat, Matrix.mul_assoc, Matrix.nonsing_inv_mul, Matrix.mul_one]
  rw [Matrix.det_transpose]; exact h.isUnit_det

theorem IsChol.mul_multMat_mul (h : IsChol G R) : R * (multMat R H * Rᵀ) = H := by
  rw [h.multMat_mul, ← Matrix.mul_assoc, Matrix.mul_nonsing_inv _ h.isUnit_det, Matrix.one_mul]

theorem rowVec_eq_mulVec (a : Fin n) : rowVec R a = Rᵀ *ᵥ Pi.single a 1 := by
  ext k
  simp [rowVec]

theorem IsChol.rowVec_dot_multMat (h : IsChol G R) (a b : Fin n) :
    rowVec R a ⬝ᵥ (multMat R H *ᵥ rowVec R b) = H a b := by
  rw [rowVec_eq_mulVec b, Matrix.mulVec_mulVec]
  have := congrFun (congrFun (h.mul_multMat_mul (H := H)) a) b
  rw [← this, Matrix.mul_apply]
  simp only [dotProduct, rowVec]
  apply Finset.sum_congr rfl
  intro k _
  congr 1
  simp

theorem IsChol.multMat_rowVec (h : IsChol G R) (a b : Fin n) (hab : ∀ c, H c a = G c b) :
    multMat R H *ᵥ rowVec R a = rowVec R b := by
  rw [rowVec_eq_mulVec a, Matrix.mulVec_mulVec, h.multMat_mul, ← Matrix.mulVec_mulVec]
  have : H *ᵥ Pi.single a 1 = G *ᵥ Pi.single b 1 := by
    ext c; simp [hab c]
  rw [this, Matrix.mulVec_mulVec]
  rw [← h.mul_transpose, ← Matrix.mul_assoc, Matrix.nonsing_inv_mul _ h.isUnit_det, Matrix.one_mul,
    ← rowVec_eq_mulVec]

theorem multMat_isSymm (hH : H.IsSymm) : (multMat R H).IsSymm := by
  rw [Matrix.IsSymm, multMat, Matrix.transpose_mul, Matrix.transpose_mul, hH.eq, Matrix.transpose_nonsing_inv,
    Matrix.transpose_nonsing_inv, Matrix.transpose_transpose, Matrix.mul_assoc]

theorem IsLower.rowVec_zero (h : IsLower R) (z : Fin n) (hz : (z : ℕ) = 0) :
    rowVec R z = R z z • Pi.single z 1 := by
  ext k
  by_cases hk : k = z
  · subst hk; simp [rowVec]
  · have : z < k := by
      rw [Fin.lt_def, hz]
      have : (k : ℕ) ≠ 0 := fun h0 => hk (Fin.ext (h0.trans hz.symm))
      omega
    simp [rowVec, h z k this, hk]

theorem IsEigh.orth' (h : IsEigh K U lam) : Uᵀ * U = 1 := mul_eq_one_comm.1 h.orth

theorem IsEigh.pow (h : IsEigh K U lam) (k : ℕ) : K ^ k = U * Matrix.diagonal (fun i => lam i ^ k) * Uᵀ := by
  induction k with
  | zero => simp [h.orth]
  | succ k ih =>
    rw [pow_succ, ih, h.spec]
    calc U * diagonal (fun i => lam i ^ k) * Uᵀ * (U * diagonal lam * Uᵀ)
        = U * diagonal (fun i => lam i ^ k) * (Uᵀ * U) * diagonal lam * Uᵀ := by simp only [Matrix.mul_assoc]
      _ = _ := by
        rw [h.orth', Matrix.mul_one, Matrix.mul_assoc U, Matrix.diagonal_mul_diagonal]
        simp only [pow_succ]

theorem IsEigh.pow_apply (h : IsEigh K U lam) (k : ℕ) (a b : Fin n) :
    (K ^ k) a b = ∑ i, U a i * U b i * lam i ^ k := by
  rw [h.pow, Matrix.mul_apply]
  apply Finset.sum_congr rfl
  intro i _
  rw [Matrix.mul_diagonal, Matrix.transpose_apply]; ring

/-- `f(K) = U diag(f(lam)) Uᵀ`, the matrix function. -/
def funMat (U : Matrix (Fin n) (Fin n) ℝ) (lam : Fin n → ℝ) (f : ℝ → ℝ) : Matrix (Fin n) (Fin n) ℝ :=
  U * Matrix.diagonal (fun i => f (lam i)) * Uᵀ

theorem funMat_apply (f : ℝ → ℝ) (a b : Fin n) : funMat U lam f a b = ∑ i, U a i * U b i * f (lam i) := by
  rw [funMat, Matrix.mul_apply]
  apply Finset.sum_congr rfl
  intro i _
  rw [Matrix.mul_diagonal, Matrix.transpose_apply]; ring

theorem IsEigh.funMat_poly (h : IsEigh K U lam) (p : Polynomial ℝ) :
    funMat U lam (fun x => p.eval x) = Polynomial.aeval K p := by
  ext a b
  rw [funMat_apply, Polynomial.aeval_eq_sum_range, Matrix.sum_apply]
  simp only [Matrix.smul_apply, h.pow_apply, smul_eq_mul, Polynomial.eval_eq_sum_range, Finset.mul_sum]
  rw [Finset.sum_comm]
  exact Finset.sum_congr rfl (fun i _ => Finset.sum_congr rfl (fun k _ => by ring))

/-- The matrix function does not depend on the spectral decomposition. -/
theorem IsEigh.funMat_eq {U' : Matrix (Fin n) (Fin n) ℝ} {lam' : Fin n → ℝ} (h : IsEigh K U lam)
    (h' : IsEigh K U' lam') (f : ℝ → ℝ) : funMat U lam f = funMat U' lam' f := by
  classical
  let s : Finset ℝ := Finset.univ.image lam ∪ Finset.univ.image lam'
  let p : Polynomial ℝ := Lagrange.interpolate s id f
  have hp : ∀ x ∈ s, p.eval x = f x := by
    intro x hx
    exact Lagrange.eval_interpolate_at_node f (v := id) (s := s) (fun _ _ _ _ h => h) hx
  have e1 : funMat U lam f = funMat U lam (fun x => p.eval x) := by
    simp only [funMat]
    congr 3
    ext i
    exact (hp _ (by simp [s])).symm
  have e2 : funMat U' lam' f = funMat U' lam' (fun x => p.eval x) := by
    simp only [funMat]
    congr 3
    ext i
    exact (hp _ (by simp [s])).symm
  rw [e1, e2, h.funMat_poly, h'.funMat_poly]

end Mfs.Spec

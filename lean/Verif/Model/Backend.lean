import Verif.Model.Ldl
import Verif.Spec.LinAlg

/-!
# Linear-algebra routines the code relies on

`jax.lax.linalg.cholesky` and `jax.lax.linalg.eigh` are not re-implemented: a `Backend` supplies them and
`Backend.Valid` is their contract. `Verif/Lemmas/Backend.lean` shows that a valid backend exists.
-/

namespace Mfs

open Matrix Mfs.Spec

/-- The two decomposition routines; the Boolean is `sort_eigenvalues`. -/
structure Backend where
  chol : {n : ℕ} → Matrix (Fin n) (Fin n) ℝ → Matrix (Fin n) (Fin n) ℝ
  eigh : {n : ℕ} → Bool → Matrix (Fin n) (Fin n) ℝ → Matrix (Fin n) (Fin n) ℝ × (Fin n → ℝ)

/-- Contract: `cholesky` returns the Cholesky factor of a positive definite matrix (nothing is promised otherwise);
`eigh` returns some spectral decomposition of every symmetric matrix, in ascending order if asked to sort. -/
structure Backend.Valid (B : Backend) : Prop where
  chol : ∀ {n : ℕ} (G : Matrix (Fin n) (Fin n) ℝ), G.PosDef → IsChol G (B.chol G)
  eigh : ∀ {n : ℕ} (sort : Bool) (K : Matrix (Fin n) (Fin n) ℝ), K.IsSymm → IsEigh K (B.eigh sort K).1 (B.eigh sort K).2
  sorted : ∀ {n : ℕ} (K : Matrix (Fin n) (Fin n) ℝ), K.IsSymm → Monotone (B.eigh true K).2

/-- The lower triangle of a matrix, which is all that `triangular_solve(..., lower=True)` reads. -/
def lowerPart {n : ℕ} (a : Matrix (Fin n) (Fin n) ℝ) : Matrix (Fin n) (Fin n) ℝ :=
  Matrix.of fun i j => if j ≤ i then a i j else 0

/-- `jax.lax.linalg.triangular_solve(a, b, left_side=True, lower=True)`: the solution of `a x = b`. -/
noncomputable def triSolveLeft {n : ℕ} (a b : Matrix (Fin n) (Fin n) ℝ) : Matrix (Fin n) (Fin n) ℝ :=
  (lowerPart a)⁻¹ * b

/-- `jax.lax.linalg.triangular_solve(a, b, left_side=False, lower=True, transpose_a=True)`: the solution of
`x aᵀ = b`. -/
noncomputable def triSolveRightT {n : ℕ} (a b : Matrix (Fin n) (Fin n) ℝ) : Matrix (Fin n) (Fin n) ℝ :=
  b * ((lowerPart a)ᵀ)⁻¹

/-- `symmetrize_input=True`, the default of `eigh` and `cholesky` in JAX: `(a + aᵀ) / 2`. -/
noncomputable def symmetrize {n : ℕ} (a : Matrix (Fin n) (Fin n) ℝ) : Matrix (Fin n) (Fin n) ℝ :=
  (1 / 2 : ℝ) • (a + aᵀ)

/-- JAX indexing of a one-dimensional array with a non-negative index: out-of-range indices are clamped to the last
entry. -/
def jget (ms : List ℝ) (i : ℕ) : ℝ := ms.getD (min i (ms.length - 1)) 0

end Mfs

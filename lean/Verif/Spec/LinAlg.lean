import Mathlib.LinearAlgebra.Matrix.PosDef
import Mathlib.Analysis.Real.Sqrt
import Mathlib.Algebra.Order.Star.Real
import Mathlib.Data.Matrix.Mul
import Mathlib.LinearAlgebra.Matrix.Symmetric

/-!
# Specification vocabulary for linear algebra
-/

namespace Mfs.Spec

open Matrix

variable {n : ℕ}

/-- lower triangular. -/
def IsLower (R : Matrix (Fin n) (Fin n) ℝ) : Prop := ∀ i j, i < j → R i j = 0

/-- `R` is the Cholesky factor of `G`: lower triangular, positive diagonal, `R Rᵀ = G`. -/
structure IsChol (G R : Matrix (Fin n) (Fin n) ℝ) : Prop where
  lower : IsLower R
  diag_pos : ∀ i, 0 < R i i
  mul_transpose : R * Rᵀ = G

/-- `(U, lam)` is a spectral decomposition of `K`: `U` orthogonal and `K = U diag(lam) Uᵀ`. Nothing is said about order,
signs, or the basis chosen inside an eigenspace. -/
structure IsEigh (K U : Matrix (Fin n) (Fin n) ℝ) (lam : Fin n → ℝ) : Prop where
  orth : U * Uᵀ = 1
  spec : K = U * Matrix.diagonal lam * Uᵀ

end Mfs.Spec

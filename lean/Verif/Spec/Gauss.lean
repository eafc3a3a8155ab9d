import Mathlib.LinearAlgebra.Matrix.NonsingularInverse
import Mathlib.LinearAlgebra.Matrix.PosDef
import Mathlib.Analysis.SpecialFunctions.Trigonometric.Basic
import Mathlib.Analysis.SpecialFunctions.Exp
import Mathlib.Analysis.Real.Sqrt

/-!
# Multivariate normal density
-/

namespace Mfs.Spec

open Matrix

/-- density of `N(m, P)` at `x`. -/
noncomputable def mvnPdf {n : ℕ} (m : Fin n → ℝ) (P : Matrix (Fin n) (Fin n) ℝ) (x : Fin n → ℝ) : ℝ :=
  Real.exp (-((x - m) ⬝ᵥ P⁻¹ *ᵥ (x - m)) / 2) / Real.sqrt ((2 * Real.pi) ^ n * P.det)

end Mfs.Spec

import Mathlib.Data.Real.Basic
import Mathlib.Data.Matrix.Basic

/-!
# Specification vocabulary for multidimensional moments
-/

namespace Mfs.Spec

/-- `∏ⱼ xⱼ ^ αⱼ`. -/
def monomial (x : List ℝ) (α : List ℕ) : ℝ := (List.zipWith (· ^ ·) x α).prod

/-- the Gram matrix `(μ(α + β))` over a list of multi-indices. -/
def gramOn (basis : List (List ℕ)) (μ : List ℕ → ℝ) : Matrix (Fin basis.length) (Fin basis.length) ℝ :=
  Matrix.of fun a b => μ (List.zipWith (· + ·) basis[a] basis[b])

/-- value of a list of weighted nodes on a function. -/
def integND (r : List (ℝ × List ℝ)) (F : List ℝ → ℝ) : ℝ := (r.map fun p => p.1 * F p.2).sum

/-- a function of the form `x ↦ ∏ⱼ fⱼ(xⱼ)`. -/
def prodFun (fs : List (ℝ → ℝ)) (x : List ℝ) : ℝ := (List.zipWith (fun f y => f y) fs x).prod

end Mfs.Spec

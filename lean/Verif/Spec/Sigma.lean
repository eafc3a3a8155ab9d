import Mathlib.Data.Matrix.Mul
import Mathlib.Data.Real.Basic

/-!
# Reference notion: sigma-point rules integrating quadratics exactly
-/

namespace Mfs.Spec

open Matrix

/-- weights `w` and nodes `xi` whose moments up to order two are those of the standard normal law. -/
structure SecondOrder {n d : ℕ} (w : Fin n → ℝ) (xi : Fin n → Fin d → ℝ) : Prop where
  total : ∑ i, w i = 1
  mean : ∀ a, ∑ i, w i * xi i a = 0
  cov : ∀ a b, ∑ i, w i * (xi i a * xi i b) = if a = b then 1 else 0

end Mfs.Spec

import Mathlib.Probability.Kernel.WithDensity
import Mathlib.Probability.Distributions.Gaussian.Real

/-!
# The transition law of the Beneš equation `dX = tanh(X) dt + dW`
-/

namespace Mfs.Spec

open MeasureTheory ProbabilityTheory

/-- the transition density of `dX = tanh(X) dt + dW` from `x` to `y` over a time `t`. -/
noncomputable def benesDens (t x y : ℝ) : ℝ :=
  Real.cosh y / Real.cosh x * Real.exp (-t / 2) * (Real.exp (-(y - x) ^ 2 / (2 * t)) / √(2 * Real.pi * t))

/-- the transition kernel with that density. -/
noncomputable def benesKernel (t : ℝ) : Kernel ℝ ℝ :=
  Kernel.withDensity (Kernel.const ℝ volume) fun x y => ENNReal.ofReal (benesDens t x y)

end Mfs.Spec

import Mathlib.Probability.Distributions.Gaussian.Real
import Mathlib.Probability.Kernel.Basic

/-!
# Normal transition kernels
-/

namespace Mfs.Spec

open MeasureTheory ProbabilityTheory
open scoped NNReal

/-- the transition kernel `x ↦ N(m(x), v(x))`. -/
noncomputable def normalKernel (m : ℝ → ℝ) (v : ℝ → ℝ≥0) (hm : Measurable m) (hv : Measurable v) : Kernel ℝ ℝ :=
  ⟨fun x => gaussianReal (m x) (v x), measurable_gaussianReal.comp (hm.prodMk hv)⟩

end Mfs.Spec

import Mathlib.Probability.Kernel.Composition.CompProd
import Mathlib.Probability.Kernel.Composition.MapComap

/-!
# The law of the path of a Markov chain
-/

namespace Mfs.Spec

open MeasureTheory ProbabilityTheory

/-- the law of `(x_1, …, x_T)` given `x_0`, for the Markov chain with transition kernel `P`. -/
noncomputable def pathKernel {X : Type} [MeasurableSpace X] (P : Kernel X X) : (T : ℕ) → Kernel X (Fin T → X)
  | 0 => Kernel.const X (Measure.dirac Fin.elim0)
  | T + 1 => (P ⊗ₖ Kernel.prodMkLeft X (pathKernel P T)).map fun p => (Fin.cons p.1 p.2 : Fin (T + 1) → X)

end Mfs.Spec

import Mathlib.Probability.Kernel.Composition.Comp

/-!
# Several transitions of a Markov chain
-/

namespace Mfs.Spec

open ProbabilityTheory

/-- the law after `n` transitions. -/
noncomputable def iterK {X : Type} [MeasurableSpace X] (K : Kernel X X) : ℕ → Kernel X X
  | 0 => Kernel.id
  | n + 1 => K ∘ₖ iterK K n

end Mfs.Spec

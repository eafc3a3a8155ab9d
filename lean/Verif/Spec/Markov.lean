import Mathlib.Probability.Kernel.Basic
import Mathlib.MeasureTheory.Integral.Lebesgue.Basic
import Mathlib.MeasureTheory.Integral.Bochner.Basic

/-!
# Marginal likelihood of a hidden Markov model on a general state space
-/

namespace Mfs.Spec

open MeasureTheory ProbabilityTheory

/-- `E[f(x_T) g(y_1, x_1) ⋯ g(y_T, x_T) | x_0 = x]` for the Markov chain with transition kernel `P`; with `f = 1` this is the
likelihood of the measurements given the initial state. -/
noncomputable def markovLik {X Y : Type} [MeasurableSpace X] (P : Kernel X X) (g : Y → X → ℝ) (f : X → ENNReal) : List Y → X → ENNReal
  | [], x => f x
  | y :: ys, x => ∫⁻ x', ENNReal.ofReal (g y x') * markovLik P g f ys x' ∂(P x)

/-- the same conditional expectation for real-valued `f`. -/
noncomputable def markovE {X Y : Type} [MeasurableSpace X] (P : Kernel X X) (g : Y → X → ℝ) (f : X → ℝ) : List Y → X → ℝ
  | [], x => f x
  | y :: ys, x => ∫ x', g y x' * markovE P g f ys x' ∂(P x)

end Mfs.Spec

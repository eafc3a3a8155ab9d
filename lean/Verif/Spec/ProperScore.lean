import Mathlib.Analysis.SpecialFunctions.Log.Basic
import Mathlib.Topology.Algebra.InfiniteSum.Real
import Mathlib.MeasureTheory.Integral.Bochner.Basic

/-!
# Scores of data
-/

namespace Mfs.Spec

/-- `nell` is a proper logarithmic score for the laws on a countable set of data. Whatever law `p` the data have: the expectation of `nell` exceeds the entropy of `p` by a non-negative number, which
vanishes only if `exp (-nell)` is `p`; and the probability that `nell` is smaller than the negative log-likelihood of the true law by `c` or more is at most `exp (-c)`. -/
def ProperScore {D : Type} (nell : D → ℝ) : Prop :=
  ∀ p : D → ℝ, (∀ z, 0 ≤ p z) → HasSum p 1 →
    (Summable (fun z => p z * (nell z + Real.log (p z))) →
      0 ≤ ∑' z, p z * (nell z + Real.log (p z)) ∧ (∑' z, p z * (nell z + Real.log (p z)) = 0 ↔ ∀ z, Real.exp (-nell z) = p z)) ∧
    ∀ c : ℝ, ∀ A : Set D, (∀ z ∈ A, nell z ≤ -Real.log (p z) - c) → ∑' z, A.indicator p z ≤ Real.exp (-c)

/-- the same for data with densities with respect to `ν`: the expectation of `nell + log p` always exists (its negative part is at most one) and is nonnegative. -/
def DensityScore {D : Type} [MeasurableSpace D] (ν : MeasureTheory.Measure D) (nell : D → ℝ) : Prop :=
  ∀ p : D → ℝ, Measurable p → (∀ z, 0 ≤ p z) → ∫⁻ z, ENNReal.ofReal (p z) ∂ν = 1 →
    (∫⁻ z, ENNReal.ofReal (-(p z * (nell z + Real.log (p z)))) ∂ν ≤ 1 ∧
      ∫⁻ z, ENNReal.ofReal (-(p z * (nell z + Real.log (p z)))) ∂ν ≤ ∫⁻ z, ENNReal.ofReal (p z * (nell z + Real.log (p z))) ∂ν) ∧
    (MeasureTheory.Integrable (fun z => p z * (nell z + Real.log (p z))) ν →
      0 ≤ ∫ z, p z * (nell z + Real.log (p z)) ∂ν ∧ (∫ z, p z * (nell z + Real.log (p z)) ∂ν = 0 ↔ (fun z => Real.exp (-nell z)) =ᵐ[ν] p)) ∧
    ∀ c : ℝ, ∀ A : Set D, MeasurableSet A → (∀ z ∈ A, nell z ≤ -Real.log (p z) - c) → ∫⁻ z in A, ENNReal.ofReal (p z) ∂ν ≤ ENNReal.ofReal (Real.exp (-c))

end Mfs.Spec

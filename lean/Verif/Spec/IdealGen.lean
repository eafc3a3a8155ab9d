import Verif.Model.Prng
import Mathlib.Probability.Distributions.Gaussian.Real
import Mathlib.MeasureTheory.Constructions.Pi

/-!
# What an ideal generator does
-/

namespace Mfs.Spec

open MeasureTheory ProbabilityTheory Mfs.Prng

variable {K : Type} [MeasurableSpace K]

/-- An ideal generator, with a random key of law `ρ`: the normals drawn from a key are independent standard normal numbers and independent of the keys obtained
by splitting it, which are again independent random keys of law `ρ`; the uniforms drawn from a key are independent and uniform on `[0, 1)`. -/
structure IdealGen (G : Gen K) (ρ : Measure K) : Prop where
  prob : IsProbabilityMeasure ρ
  length : ∀ k num, (G.split k num).length = num
  measurable_key : ∀ num i, Measurable fun k => G.key k num i
  measurable_normal : ∀ size i, Measurable fun k => G.normal k size i
  measurable_uniform : ∀ size i, Measurable fun k => G.uniform k size i
  normals : ∀ num size, ρ.map (fun k => ((fun i : Fin size => G.normal k size i), fun i : Fin num => G.key k num i))
    = (Measure.pi fun _ => gaussianReal 0 1).prod (Measure.pi fun _ => ρ)
  uniforms : ∀ size, ρ.map (fun k (i : Fin size) => G.uniform k size i) = Measure.pi fun _ => (volume : Measure ℝ).restrict (Set.Ico 0 1)

end Mfs.Spec

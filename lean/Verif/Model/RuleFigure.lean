import Verif.Model.Quad1
import Verif.Model.Moments1
import Mathlib.Analysis.SpecialFunctions.Gamma.Basic

/-!
# Model of the rules drawn by `reproduce_paper_plots/plot_quadrature_rules.py`

The script draws, for three laws, the nodes and weights that `moment_quadrature` computes from `2 N` moments; `N = 11` in the script and
arbitrary here, as are the parameters of the laws.
-/

namespace Mfs.Plots

open Mfs.Quad1 Mfs.Moments1

/-- the raw moments of the Gaussian mixture, `/repo/reproduce_paper_plots/plot_quadrature_rules.py:25-28`; `range(order + 1)` with
`order = 2 * N - 1` is written `range (2 * N)`. -/
noncomputable def figMixtureRms (comps : List Component) (N : ℕ) : List ℝ :=
  (List.range (2 * N)).map fun p => (comps.map fun c => rawMomentOfNormal c.mean c.variance p * c.weight).sum

/-- the central moments of the Gaussian mixture, `/repo/reproduce_paper_plots/plot_quadrature_rules.py:29`. -/
noncomputable def figMixtureCms (comps : List Component) (N : ℕ) : List ℝ := rawToCentral (figMixtureRms comps N)

/-- the rule of the Gaussian mixture, `/repo/reproduce_paper_plots/plot_quadrature_rules.py:33`. -/
noncomputable def figMixtureRule (B : Backend) (comps : List Component) (N : ℕ) :=
  momentQuadrature B (figMixtureCms comps N) (comps.map fun c => c.mean * c.weight).sum

/-- the raw moments of the uniform law, `/repo/reproduce_paper_plots/plot_quadrature_rules.py:46`. -/
noncomputable def figUniformRms (a b : ℝ) (N : ℕ) : List ℝ :=
  (List.range (2 * N)).map fun k : ℕ => 1 / ((k : ℝ) + 1) * ((List.range (k + 1)).map fun i => a ^ i * b ^ (k - i)).sum

/-- the rule of the uniform law, `/repo/reproduce_paper_plots/plot_quadrature_rules.py:48`. -/
noncomputable def figUniformRule (B : Backend) (a b : ℝ) (N : ℕ) := momentQuadrature B (figUniformRms a b N)

/-- the raw moments of the gamma law, `/repo/reproduce_paper_plots/plot_quadrature_rules.py:60`. -/
noncomputable def figGammaRms (k theta : ℝ) (N : ℕ) : List ℝ :=
  (List.range (2 * N)).map fun n : ℕ => theta ^ n * Real.Gamma (k + n) / Real.Gamma k

/-- the rule of the gamma law, `/repo/reproduce_paper_plots/plot_quadrature_rules.py:62`. -/
noncomputable def figGammaRule (B : Backend) (k theta : ℝ) (N : ℕ) := momentQuadrature B (figGammaRms k theta N)

end Mfs.Plots

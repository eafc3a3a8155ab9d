import Verif.Model.QuadND
import Verif.Model.MomentsND

/-!
# Model of the rules drawn by `reproduce_paper_plots/plot_quadrature_rules_2d.py`

The script draws, for three laws on the plane, the nodes of `moment_quadrature_nd` with marks whose sizes are the weights divided by the largest
absolute weight. Dimension, order and the parameters of the laws are arbitrary here (`d = 2`, `N = 2, 4, 6` in the script). A rule is a list of pairs of
weight and node. `sympy.polytope_integrate` is a parameter. The drawing itself is not modelled.
-/

namespace Mfs.Plots

open Mfs.QuadND Mfs.MomentsND Mfs.Quad1

/-- `np.max(np.abs(weights))`, `/repo/reproduce_paper_plots/plot_quadrature_rules_2d.py:56`; the empty array, where NumPy raises, does not occur. -/
noncomputable def maxAbsWeight (rule : List (ℝ × List ℝ)) : ℝ := (rule.map fun p => |p.1|).foldr max 0

/-- `weights / np.max(np.abs(weights))`, `/repo/reproduce_paper_plots/plot_quadrature_rules_2d.py:56` (the same in lines 78 and 109). -/
noncomputable def figNormalise (rule : List (ℝ × List ℝ)) : List (ℝ × List ℝ) := rule.map fun p => (p.1 / maxAbsWeight rule, p.2)

/-- the round marks of the Gaussian sum and of the polygon, `/repo/reproduce_paper_plots/plot_quadrature_rules_2d.py:58` and `:111`. -/
noncomputable def marksGe (rule : List (ℝ × List ℝ)) : List (ℝ × List ℝ) := rule.filter fun p => 0 ≤ p.1

/-- the crosses, `/repo/reproduce_paper_plots/plot_quadrature_rules_2d.py:59`, `:81` and `:112`. -/
noncomputable def marksNeg (rule : List (ℝ × List ℝ)) : List (ℝ × List ℝ) := rule.filter fun p => p.1 < 0

/-- the round marks of the uniform law, `/repo/reproduce_paper_plots/plot_quadrature_rules_2d.py:80`. -/
noncomputable def marksGt (rule : List (ℝ × List ℝ)) : List (ℝ × List ℝ) := rule.filter fun p => 0 < p.1

/-- the triangles of the uniform law, `/repo/reproduce_paper_plots/plot_quadrature_rules_2d.py:82`; `tol = 1e-8`. -/
noncomputable def marksZero (tol : ℝ) (rule : List (ℝ × List ℝ)) : List (ℝ × List ℝ) := rule.filter fun p => |p.1| < tol

/-- the sizes of the round marks, `/repo/reproduce_paper_plots/plot_quadrature_rules_2d.py:63`; `size = 2e2`. -/
noncomputable def roundSizes (size : ℝ) (marks : List (ℝ × List ℝ)) : List ℝ := marks.map fun p => p.1 * size

/-- the sizes of the crosses, `/repo/reproduce_paper_plots/plot_quadrature_rules_2d.py:65`. -/
noncomputable def crossSizes (size : ℝ) (marks : List (ℝ × List ℝ)) : List ℝ := marks.map fun p => -p.1 * size

/-- the rule of the Gaussian sum, `/repo/reproduce_paper_plots/plot_quadrature_rules_2d.py:37-55`. -/
noncomputable def figGaussianSumRule {d : ℕ} (B : Backend) (comps : List (Component d)) (full : List (List ℕ)) (mats : List (List (List ℤ))) :
    List (ℝ × List ℝ) :=
  let gs := GaussianSumND.new comps (full.map fun α (j : Fin d) => α.getD j 0)
  momentQuadratureND B gs.cms mats (some (List.ofFn gs.mean))

/-- the rule of the uniform law on a box, `/repo/reproduce_paper_plots/plot_quadrature_rules_2d.py:73-77`. -/
noncomputable def figBoxRule (B : Backend) (bounds : List (ℝ × ℝ)) (full : List (List ℕ)) (mats : List (List (List ℤ))) : List (ℝ × List ℝ) :=
  momentQuadratureND B (full.map fun α => momentsNdUniform bounds α) mats

/-- the rule of the uniform law on a polygon, `/repo/reproduce_paper_plots/plot_quadrature_rules_2d.py:97-108`; `polytope α` is the value of
`polytope_integrate` on the polygon and the monomial `x ^ α`. -/
noncomputable def figPolygonRule {d : ℕ} (B : Backend) (polytope : (Fin d → ℕ) → ℝ) (full : List (List ℕ)) (mats : List (List (List ℤ))) :
    List (ℝ × List ℝ) :=
  let area := polytope fun _ => 0
  momentQuadratureND B (full.map fun α => polytope (fun j => α.getD j 0) / area) mats

end Mfs.Plots

import Mathlib.Data.Real.Basic
import Mathlib.Data.List.Basic
import Mathlib.Data.List.GetD

/-!
# Model of the statistics computed by the plotting scripts

An entry of an array is a number or NaN, here `Option ℝ` with `none` for NaN. Infinities are not modelled.
-/

namespace Mfs.Plots

/-- a floating-point entry; `none` is NaN. -/
abbrev Num := Option ℝ

/-- `np.abs(a - b)` for two entries. -/
noncomputable def absDiff (a b : Num) : Num := a.bind fun x => b.map fun y => |x - y|

/-- the errors `np.abs(a - b)` of `/repo/dardel/benes_bernoulli/compute_errs.py:94-101`: one row for every run, one entry for every time. -/
noncomputable def errs (a b : List (List Num)) : List (List Num) := List.zipWith (List.zipWith absDiff) a b

/-- `np.any(np.isnan(arr), axis=1)` for one row. -/
def diverged (row : List Num) : Bool := row.any (·.isNone)

/-- `rm_divergent`, `/repo/reproduce_paper_plots/plot_benes_bernoulli_errs_and_times.py:11-15`. -/
def rmDivergent (arr : List (List Num)) : List (List Num) × ℕ := (arr.filter (!diverged ·), arr.countP diverged)

/-- `np.nanmean` of one column. -/
noncomputable def nanmean (col : List Num) : Num :=
  let v := col.filterMap id
  if v.length = 0 then none else some (v.sum / v.length)

/-- `np.nanmean(arr, axis=0)` for rows of length `T`. -/
noncomputable def nanmean0 (T : ℕ) (arr : List (List Num)) : List Num := (List.range T).map fun t => nanmean (arr.map (·.getD t none))

/-- the curve plotted for one filter, `/repo/reproduce_paper_plots/plot_benes_bernoulli_errs_and_times.py:28-30,64-67`. -/
noncomputable def curve (T : ℕ) (arr : List (List Num)) : List Num := nanmean0 T (rmDivergent arr).1

/-- the number of divergences printed for one filter, `/repo/reproduce_paper_plots/plot_benes_bernoulli_errs_and_times.py:22-26,32-35`. -/
noncomputable def printedDivs (trajs means filter : List (List Num)) : ℤ :=
  (rmDivergent (errs means filter)).2 - (rmDivergent (errs trajs means)).2

/-- `x >= b`; a comparison with NaN is false. -/
noncomputable def ge (b : ℝ) (x : Num) : Bool := x.elim false fun v => decide (b ≤ v)

/-- `find_valid`, `/repo/reproduce_paper_plots/plot_parameter_estimation.py:10-18`, with upper bound `ub`. -/
noncomputable def findValid (ub : ℝ) (stats : List Bool) (vals : List (List Num)) : ℕ × List (List Num) :=
  let kept := ((stats.zip vals).filter (·.1)).map (·.2)
  (stats.count false + kept.countP (·.any (ge ub)), kept.filter (!·.any (ge ub)))

end Mfs.Plots

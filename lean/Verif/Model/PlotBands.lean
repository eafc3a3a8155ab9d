import Verif.Model.PlotStats
import Verif.Model.PreyStats
import Mathlib.Data.List.Sort
import Mathlib.Algebra.Order.Floor.Semiring

/-!
# The curves and bands of `/repo/reproduce_paper_plots/plot_benes_bernoulli_errs_and_times.py`
-/

namespace Mfs.PlotBands

open Mfs.Plots Mfs.PreyStats

open _root_.Classical in
/-- `np.quantile` with the default method `linear` of a nonempty array without NaN. -/
noncomputable def quantile (q : ℝ) (v : List ℝ) : ℝ :=
  let s := v.insertionSort (· ≤ ·)
  let h := q * ((v.length - 1 : ℕ) : ℝ)
  let i := ⌊h⌋₊
  s.getD i 0 + (h - i) * (s.getD (min (i + 1) (v.length - 1)) 0 - s.getD i 0)

/-- `np.quantile` of an array that may contain NaNs. -/
noncomputable def npQuantile (q : ℝ) (v : List Num) : Num := if v = [] then none else (v.mapM id).map (quantile q)

/-- `np.mean(np.mean(true_cfs_vs_mf_sup, axis=1))`, `/repo/reproduce_paper_plots/plot_benes_bernoulli_errs_and_times.py:87-89`. -/
noncomputable def mfPoint (arr : List (List Num)) : Num := npMean ((rmDivergent arr).1.map npMean)

/-- the two quantiles for the moment filter, `/repo/reproduce_paper_plots/plot_benes_bernoulli_errs_and_times.py:91-92`. -/
noncomputable def mfBand (arr : List (List Num)) : Num × Num :=
  let means := (rmDivergent arr).1.map npMean
  (npQuantile 0.025 means, npQuantile 0.975 means)

/-- `np.mean(true_cfs_vs_ghf_sup)` and the same for the particle filter, `/repo/reproduce_paper_plots/plot_benes_bernoulli_errs_and_times.py:101,109`. -/
noncomputable def otherPoint (arr : List (List Num)) : Num := npMean (rmDivergent arr).1.flatten

/-- the two quantiles for the Gauss--Hermite and the particle filter, `/repo/reproduce_paper_plots/plot_benes_bernoulli_errs_and_times.py:103-108,110-115`. -/
noncomputable def otherBand (arr : List (List Num)) : Num × Num :=
  (npQuantile 0.025 (rmDivergent arr).1.flatten, npQuantile 0.975 (rmDivergent arr).1.flatten)

/-- the curve and the band of the times for one order, `/repo/reproduce_paper_plots/plot_benes_bernoulli_errs_and_times.py:125-151`: the mean and the mean minus and
plus two standard deviations. -/
noncomputable def timeBand (times : List Num) : Num × Num × Num :=
  (npMean times, (npMean times).bind fun m => (npStd times).map fun s => m - 2 * s, (npMean times).bind fun m => (npStd times).map fun s => m + 2 * s)

end Mfs.PlotBands

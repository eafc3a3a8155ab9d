import Verif.Model.RetryLoops
import Mathlib.Analysis.Real.Sqrt

/-!
# The statistics of `/repo/reproduce_paper_plots/plot_prey_predator_errs.py`

The saved errors of a run are a list of `T` rows with two entries; `none` is a NaN.
-/

namespace Mfs.PreyStats

open Mfs.Retry

/-- `np.sum(errs, axis=-1)` for one run. -/
noncomputable def sumAxis (e : List (Fin 2 → Option ℝ)) : List (Option ℝ) := e.map fun x => (x 0).bind fun a => (x 1).map fun b => a + b

/-- `np.mean` of an array of numbers; NaN if it is empty or contains a NaN. -/
noncomputable def npMean (v : List (Option ℝ)) : Option ℝ := if v = [] then none else (v.mapM id).map fun w => w.sum / w.length

/-- `np.std` with the default `ddof=0`. -/
noncomputable def npStd (v : List (Option ℝ)) : Option ℝ :=
  (npMean v).bind fun m => (npMean (v.map fun x => x.map fun a => (a - m) ^ 2)).map Real.sqrt

open _root_.Classical in
/-- `np.count_nonzero(num_nans)`, `/repo/reproduce_paper_plots/plot_prey_predator_errs.py:43-45,72-74`. -/
noncomputable def divergences (errs : List (List (Fin 2 → Option ℝ))) : ℕ := errs.countP fun e => decide (hasNan e)

open _root_.Classical in
/-- `errs[~num_nans]`, `/repo/reproduce_paper_plots/plot_prey_predator_errs.py:43-44,72-73`. -/
noncomputable def kept (errs : List (List (Fin 2 → Option ℝ))) : List (List (Fin 2 → Option ℝ)) := errs.filter fun e => !decide (hasNan e)

/-- the mean and the standard deviation that are printed, `/repo/reproduce_paper_plots/plot_prey_predator_errs.py:46,75`: over all runs and times. -/
noncomputable def printed (errs : List (List (Fin 2 → Option ℝ))) : Option ℝ × Option ℝ :=
  let v := (kept errs).flatMap sumAxis
  (npMean v, npStd v)

/-- `np.mean(np.sum(errs, axis=-1), axis=0)`, `/repo/reproduce_paper_plots/plot_prey_predator_errs.py:61,77`. -/
noncomputable def curve (T : ℕ) (errs : List (List (Fin 2 → Option ℝ))) : List (Option ℝ) :=
  (List.range T).map fun t => npMean ((kept errs).map fun e => (sumAxis e).getD t none)

/-- `v[::zoom]`. -/
def every {α : Type} (zoom : ℕ) (v : List α) : List α := (List.range ((v.length + zoom - 1) / zoom)).filterMap fun i => v[i * zoom]?

/-- the points `(t, error)` of a curve of the plot, `/repo/reproduce_paper_plots/plot_prey_predator_errs.py:61,77`. -/
noncomputable def plotted (zoom : ℕ) (ts : List ℝ) (errs : List (List (Fin 2 → Option ℝ))) : List (ℝ × Option ℝ) :=
  (every zoom ts).zip (every zoom (curve ts.length errs))

end Mfs.PreyStats

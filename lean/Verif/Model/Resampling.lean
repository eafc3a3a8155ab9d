import Verif.Model.Scan
import Mathlib.Analysis.SpecialFunctions.Log.Basic
import Mathlib.Data.List.Sort
import Mathlib.Data.List.Count

/-!
# Model of `mfs/classical_filters_smoothers/resampling.py`

Arrays are lists. The random draws (`jax.random.uniform`) are arguments. `jnp.searchsorted` is a parameter `ss` with the contract
`SearchSorted`.
-/

namespace Mfs.Resampling

/-- `jnp.searchsorted(a, v)` (side `left`) on sorted arrays: the number of entries below `v`. -/
def SearchSorted (ss : List ℝ → ℝ → ℕ) : Prop :=
  ∀ a : List ℝ, a.Pairwise (· ≤ ·) → ∀ v : ℝ, ss a v = a.countP fun x => decide (x < v)

/-- `jnp.cumsum`. -/
def cumsum (l : List ℝ) : List ℝ := (List.range l.length).map fun i => (l.take (i + 1)).sum

/-- `_sorted_uniforms`, `/repo/mfs/classical_filters_smoothers/resampling.py:36-40`; `us` are the `n + 1` draws. -/
noncomputable def sortedUniforms (us : List ℝ) : List ℝ :=
  let z := cumsum (us.map fun u => -Real.log u)
  z.dropLast.map fun x => x / z.getLastD 0

/-- `_systematic_or_stratified`, `/repo/mfs/classical_filters_smoothers/resampling.py:43-51`; `u k` is the draw added to
`arange(n)[k]` (the same one for every `k` when systematic). -/
noncomputable def systematicOrStratified (ss : List ℝ → ℝ → ℕ) (weights : List ℝ) (u : ℕ → ℝ) : List ℕ :=
  let n := weights.length
  (List.range n).map fun (k : ℕ) => min (ss (cumsum weights) (((k : ℝ) + u k) / n)) (n - 1)

/-- `systematic`, `/repo/mfs/classical_filters_smoothers/resampling.py:54-55`. -/
noncomputable def systematic (ss : List ℝ → ℝ → ℕ) (weights : List ℝ) (u : ℝ) : List ℕ :=
  systematicOrStratified ss weights fun _ => u

/-- `stratified`, `/repo/mfs/classical_filters_smoothers/resampling.py:58-59`. -/
noncomputable def stratified (ss : List ℝ → ℝ → ℕ) (weights : List ℝ) (u : ℕ → ℝ) : List ℕ :=
  systematicOrStratified ss weights u

/-- `multinomial`, `/repo/mfs/classical_filters_smoothers/resampling.py:62-66`; `us` are the `n + 1` draws. -/
noncomputable def multinomial (ss : List ℝ → ℝ → ℕ) (weights : List ℝ) (us : List ℝ) : List ℕ :=
  (sortedUniforms us).map fun v => min (ss (cumsum weights) v) (weights.length - 1)

/-- `_avg_n_nplusone`, `/repo/mfs/classical_filters_smoothers/resampling.py:69-73`. -/
noncomputable def avgNNplusone (x : List ℝ) : List ℝ :=
  let hx := x.map fun a => 0.5 * a
  List.zipWith (· + ·) (hx ++ [0]) ([0] ++ hx)

/-- `jnp.argsort` (stable). -/
noncomputable def argsort (l : List ℝ) : List ℕ :=
  (List.range l.length).mergeSort fun i j => decide (l.getD i 0 ≤ l.getD j 0)

/-- `jnp.interp(x, xp, fp)`: piecewise linear, constant outside; JAX treats steps of `xp` of at most `eps` as empty. -/
noncomputable def interp (eps x : ℝ) (xp fp : List ℝ) : ℝ :=
  let n := xp.length
  let i := min (max (xp.countP fun a => decide (a ≤ x)) 1) (n - 1)
  let df := fp.getD i 0 - fp.getD (i - 1) 0
  let dx := xp.getD i 0 - xp.getD (i - 1) 0
  let delta := x - xp.getD (i - 1) 0
  let f := if |dx| ≤ eps then fp.getD (i - 1) 0 else fp.getD (i - 1) 0 + delta / dx * df
  if x > xp.getD (n - 1) 0 then fp.getD (n - 1) 0 else if x < xp.getD 0 0 then fp.getD 0 0 else f

/-- `continuous_resampling`, `/repo/mfs/classical_filters_smoothers/resampling.py:76-110`; `u k` are the draws. -/
noncomputable def continuousResampling (eps : ℝ) (samples weights : List ℝ) (nsamples : ℕ) (u : ℕ → ℝ) : List ℝ :=
  let idx := argsort samples
  let xs := idx.map fun i => samples.getD i 0
  let ws := idx.map fun i => weights.getD i 0
  let cs := (cumsum (avgNNplusone ws)).dropLast
  (List.range nsamples).map fun (k : ℕ) => interp eps ((u k + (k : ℝ)) / nsamples) cs xs

end Mfs.Resampling

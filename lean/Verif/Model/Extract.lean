import Verif.Model.MultiIndex

/-!
# Model of the moment-extraction helpers of `mfs/multi_dims/moments.py`

Here `ms` is one-dimensional; `Model/NdArray` has the version with leading axes. An exception (`IndexError`, `ValueError`) is `none`.
-/

namespace Mfs.MultiIndex

/-- NumPy indexing `ms[i]` with an integer: negative indices count from the end, out of range raises. -/
def npGet {α : Type} (ms : List α) (i : ℤ) : Option α :=
  if 0 ≤ i then ms[i.toNat]?
  else if 0 ≤ i + ms.length then ms[(i + ms.length).toNat]?
  else none

/-- `extract_moments`, `/repo/mfs/multi_dims/moments.py:184-199`. -/
def extractMoments {α : Type} (ms : List α) (multiIndex : List ℕ) : Option α := do
  let i ← gradedLexicoIndexof multiIndex 0
  npGet ms i

/-- `extract_mean`, `/repo/mfs/multi_dims/moments.py:202-225`: the loop over `i` sets entry `i` of a zero row to `1`. -/
def extractMean {α : Type} (rms : List α) (d : ℕ) : Option (List α) :=
  (List.range d).mapM (fun i => extractMoments rms ((List.replicate d 0).set i 1))

/-- `extract_cov`, `/repo/mfs/multi_dims/moments.py:228-254`: `mi[i] = 1; mi[j] += 1`. -/
def extractCov {α : Type} (ms : List α) (d : ℕ) : Option (List (List α)) :=
  (List.range d).mapM (fun i => (List.range d).mapM (fun j =>
    extractMoments ms (((List.replicate d 0).set i 1).modify j (· + 1))))

/-- `marginalise_moments`, `/repo/mfs/multi_dims/moments.py:482-504`: row `k` of the table is zero except for `k` in
column `var_axis` (`0 ≤ var_axis < d`). -/
def marginaliseMoments {α : Type} (ms : List α) (d N varAxis : ℕ) : Option (List α) := do
  let idx ← findIndices ((List.range (2 * N)).map (fun k => (List.replicate d 0).set varAxis k))
  idx.mapM (npGet ms)

end Mfs.MultiIndex

import Verif.Model.Quad1
import Verif.Model.Scan
import Mathlib.Analysis.SpecialFunctions.Log.Basic

/-!
# Model of `mfs/one_dim/filtering.py`

The user's vectorised functions (`state_cond_raw_moments(nodes, orders)` and so on) are modelled by the function they
vectorise, `x ↦ k ↦ value`; the code documents that they broadcast over nodes and orders. `Y` is the type of one
measurement. The warning for an odd highest order has no effect on the outputs and is left out.
-/

namespace Mfs.Filter1

open Mfs.Quad1

variable {Y : Type}

/-- `jnp.dot(f(nodes), weights)` / one column of `einsum('ij,i->j', …)`. -/
noncomputable def wsum {n : ℕ} (r : (Fin n → ℝ) × (Fin n → ℝ)) (f : ℝ → ℝ) : ℝ := ∑ i, r.1 i * f (r.2 i)

/-- `scan_body` of `moment_filter_rms`, `/repo/mfs/one_dim/filtering.py:73-86`. -/
noncomputable def rmsStep (B : Backend) (stable : Bool) (condMoments : ℝ → ℕ → ℝ) (pdf : Y → ℝ → ℝ) (numMoments : ℕ)
    (carry : List ℝ × ℝ) (y : Y) : (List ℝ × ℝ) × List ℝ :=
  let r := momentQuadrature B carry.1 0 1 false stable
  let rms := (List.range numMoments).map fun k => wsum r fun x => condMoments x k
  let r := momentQuadrature B rms 0 1 false stable
  let pdfY := wsum r fun x => pdf y x
  let rms := (List.range numMoments).map fun k => wsum r (fun x => x ^ k * pdf y x) / pdfY
  ((rms, carry.2 - Real.log pdfY), rms)

/-- `moment_filter_rms`, `/repo/mfs/one_dim/filtering.py:32-89`: the stacked moments and the negative log-likelihood. -/
noncomputable def filterRms (B : Backend) (condMoments : ℝ → ℕ → ℝ) (pdf : Y → ℝ → ℝ) (rms0 : List ℝ) (ys : List Y)
    (stable : Bool := false) : List (List ℝ) × ℝ :=
  let r := scan (rmsStep B stable condMoments pdf rms0.length) (rms0, 0) ys
  (r.2, r.1.2)

/-- `scan_body` of `moment_filter_cms`, `/repo/mfs/one_dim/filtering.py:140-158`. The carry is `((cms, mean), nell)`. -/
noncomputable def cmsStep (B : Backend) (stable : Bool) (condMoments : ℝ → ℕ → ℝ → ℝ) (condMean : ℝ → ℝ)
    (pdf : Y → ℝ → ℝ) (numMoments : ℕ) (carry : (List ℝ × ℝ) × ℝ) (y : Y) : ((List ℝ × ℝ) × ℝ) × (List ℝ × ℝ) :=
  let r := momentQuadrature B carry.1.1 carry.1.2 1 false stable
  let mean := wsum r condMean
  let cms := (List.range numMoments).map fun k => wsum r fun x => condMoments x k mean
  let r := momentQuadrature B cms mean 1 false stable
  let pdfY := wsum r fun x => pdf y x
  let mean := wsum r (fun x => (x - 0) ^ 1 * pdf y x) / pdfY
  let cms := (List.range numMoments).map fun k => wsum r (fun x => (x - mean) ^ k * pdf y x) / pdfY
  (((cms, mean), carry.2 - Real.log pdfY), (cms, mean))

/-- `moment_filter_cms`, `/repo/mfs/one_dim/filtering.py:92-161`. -/
noncomputable def filterCms (B : Backend) (condMoments : ℝ → ℕ → ℝ → ℝ) (condMean : ℝ → ℝ) (pdf : Y → ℝ → ℝ)
    (cms0 : List ℝ) (mean0 : ℝ) (ys : List Y) (stable : Bool := false) : List (List ℝ × ℝ) × ℝ :=
  let r := scan (cmsStep B stable condMoments condMean pdf cms0.length) ((cms0, mean0), 0) ys
  (r.2, r.1.2)

/-- `scan_body` of `moment_filter_scms`, `/repo/mfs/one_dim/filtering.py:217-237`. The carry is
`((scms, mean, scale), nell)`. -/
noncomputable def scmsStep (B : Backend) (stable : Bool) (condMoments : ℝ → ℕ → ℝ → ℝ → ℝ) (condMean condVar : ℝ → ℝ)
    (pdf : Y → ℝ → ℝ) (numMoments : ℕ) (carry : (List ℝ × ℝ × ℝ) × ℝ) (y : Y) :
    ((List ℝ × ℝ × ℝ) × ℝ) × (List ℝ × ℝ × ℝ) :=
  let r := momentQuadrature B carry.1.1 carry.1.2.1 carry.1.2.2 false stable
  let mean := wsum r condMean
  let scale := Real.sqrt (wsum r condVar)
  let scms := (List.range numMoments).map fun k => wsum r fun x => condMoments x k mean scale
  let r := momentQuadrature B scms mean scale false stable
  let pdfY := wsum r fun x => pdf y x
  let mean := wsum r (fun x => ((x - 0) / 1) ^ 1 * pdf y x) / pdfY
  let scale := Real.sqrt (wsum r (fun x => ((x - mean) / 1) ^ 2 * pdf y x) / pdfY)
  let scms := (List.range numMoments).map fun k => wsum r (fun x => ((x - mean) / scale) ^ k * pdf y x) / pdfY
  (((scms, mean, scale), carry.2 - Real.log pdfY), (scms, mean, scale))

/-- `moment_filter_scms`, `/repo/mfs/one_dim/filtering.py:164-240`. -/
noncomputable def filterScms (B : Backend) (condMoments : ℝ → ℕ → ℝ → ℝ → ℝ) (condMean condVar : ℝ → ℝ)
    (pdf : Y → ℝ → ℝ) (scms0 : List ℝ) (mean0 scale0 : ℝ) (ys : List Y) (stable : Bool := false) :
    List (List ℝ × ℝ × ℝ) × ℝ :=
  let r := scan (scmsStep B stable condMoments condMean condVar pdf scms0.length) ((scms0, mean0, scale0), 0) ys
  (r.2, r.1.2)

end Mfs.Filter1

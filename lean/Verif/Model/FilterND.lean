import Verif.Model.QuadND
import Verif.Model.Scan
import Mathlib.Analysis.SpecialFunctions.Log.Basic
import Mathlib.Analysis.SpecialFunctions.Pow.Real

/-!
# Model of `mfs/multi_dims/filtering.py`

States, means and scales are lists of `d` reals. As for the one-dimensional filters, the user's vectorised functions are
modelled by the functions they vectorise. A measurement has type `Y`. The argument `moments_partial_order` is the pair
of the table of multi-indices and of the index matrices.
-/

namespace Mfs.FilterND

open Mfs.QuadND

variable {Y : Type}

/-- the pair (function, flag): with flag `'multi-index'` the function takes a multi-index, with any other flag the
position of the multi-index in the table. `Args` collects the remaining arguments. -/
inductive CondMoments (Args : Type)
  | multiIndex (f : List ℝ → List ℕ → Args → ℝ)
  | index (f : List ℝ → ℕ → Args → ℝ)

/-- one row `state_cond_fn(node, state_moments_indices, …)`: lines 166-170, 244-248 and 313-317 of
`/repo/mfs/multi_dims/filtering.py` choose `multi_indices` or `arange(multi_indices.shape[0])`. -/
def CondMoments.row {Args : Type} (P : CondMoments Args) (mis : List (List ℕ)) (a : Args) (x : List ℝ) : List ℝ :=
  match P with
  | .multiIndex f => mis.map fun α => f x α a
  | .index f => (List.range mis.length).map fun i => f x i a

/-- `einsum('i,i', f(nodes), weights)`. -/
noncomputable def wsum (r : List (ℝ × List ℝ)) (f : List ℝ → ℝ) : ℝ := (r.map fun p => p.1 * f p.2).sum

/-- `einsum('ij,i->j', f(nodes), weights)` for a function returning vectors of length `n`. -/
noncomputable def wsumVec (n : ℕ) (r : List (ℝ × List ℝ)) (f : List ℝ → List ℝ) : List ℝ :=
  (List.range n).map fun j => wsum r fun x => (f x).getD j 0

/-- `jnp.prod(x ** multi_index)`. -/
noncomputable def prodPow (x : List ℝ) (α : List ℕ) : ℝ := (List.zipWith (· ^ ·) x α).prod

/-- `_mean_multi_indices = np.eye(d)` as a list of rows, lines 164, 242. -/
def eyeRows (d : ℕ) : List (List ℕ) := (List.range d).map fun j => (List.range d).map fun i => if i = j then 1 else 0

/-- body of `moment_filter_nd_rms`'s scan, `/repo/mfs/multi_dims/filtering.py:326-341`. -/
noncomputable def rmsStep (B : Backend) (stable : Bool) (P : CondMoments Unit) (pdf : Y → List ℝ → ℝ)
    (mis : List (List ℕ)) (inds : List (List (List ℤ))) (carry : List ℝ × ℝ) (y : Y) : (List ℝ × ℝ) × List ℝ :=
  let r := momentQuadratureND B carry.1 inds none none false stable
  let rms := wsumVec mis.length r (P.row mis ())
  let r := momentQuadratureND B rms inds none none false stable
  let pdfY := wsum r (pdf y)
  let rms := mis.map fun α => wsum r (fun x => prodPow x α * pdf y x) / pdfY
  ((rms, carry.2 - Real.log pdfY), rms)

/-- `moment_filter_nd_rms`, `/repo/mfs/multi_dims/filtering.py:283-344`. -/
noncomputable def filterRms (B : Backend) (P : CondMoments Unit) (pdf : Y → List ℝ → ℝ) (ys : List Y)
    (order : List (List ℕ) × List (List (List ℤ))) (rms0 : List ℝ) (stable : Bool := false) :
    Except String (List (List ℝ) × ℝ) :=
  let mis := order.1
  let inds := order.2
  if mis.length ≠ rms0.length then .error "ValueError"
  else
    let r := scan (rmsStep B stable P pdf mis inds) (rms0, 0) ys
    .ok (r.2, r.1.2)

/-- body of `moment_filter_nd_cms`'s scan, `/repo/mfs/multi_dims/filtering.py:258-277`; `d` is
`multi_indices.shape[-1]`. -/
noncomputable def cmsStep (B : Backend) (stable : Bool) (P : CondMoments (List ℝ)) (condMean : List ℝ → List ℝ)
    (pdf : Y → List ℝ → ℝ) (d : ℕ) (mis : List (List ℕ)) (inds : List (List (List ℤ)))
    (carry : (List ℝ × List ℝ) × ℝ) (y : Y) : ((List ℝ × List ℝ) × ℝ) × (List ℝ × List ℝ) :=
  let r := momentQuadratureND B carry.1.1 inds (some carry.1.2) none false stable
  let mean := wsumVec d r condMean
  let cms := wsumVec mis.length r (P.row mis mean)
  let r := momentQuadratureND B cms inds (some mean) none false stable
  let pdfY := wsum r (pdf y)
  let mean := (eyeRows d).map fun α => wsum r (fun x => prodPow (x.map (· - 0)) α * pdf y x) / pdfY
  let cms := mis.map fun α => wsum r (fun x => prodPow (List.zipWith (· - ·) x mean) α * pdf y x) / pdfY
  (((cms, mean), carry.2 - Real.log pdfY), (cms, mean))

/-- `moment_filter_nd_cms`, `/repo/mfs/multi_dims/filtering.py:210-280`. -/
noncomputable def filterCms (B : Backend) (P : CondMoments (List ℝ)) (condMean : List ℝ → List ℝ)
    (pdf : Y → List ℝ → ℝ) (ys : List Y) (order : List (List ℕ) × List (List (List ℤ))) (cms0 mean0 : List ℝ)
    (stable : Bool := false) : Except String (List (List ℝ × List ℝ) × ℝ) :=
  let mis := order.1
  let inds := order.2
  if mis.length ≠ cms0.length then .error "ValueError"
  else
    let d := (mis.headD []).length
    let r := scan (cmsStep B stable P condMean pdf d mis inds) ((cms0, mean0), 0) ys
    .ok (r.2, r.1.2)

/-- body of `moment_filter_nd_scms`'s scan, `/repo/mfs/multi_dims/filtering.py:180-204`. -/
noncomputable def scmsStep (B : Backend) (stable : Bool) (P : CondMoments (List ℝ × List ℝ))
    (condMeanVars : List ℝ → List ℝ × List ℝ) (pdf : Y → List ℝ → ℝ) (d : ℕ) (mis : List (List ℕ))
    (inds : List (List (List ℤ))) (carry : (List ℝ × List ℝ × List ℝ) × ℝ) (y : Y) :
    ((List ℝ × List ℝ × List ℝ) × ℝ) × (List ℝ × List ℝ × List ℝ) :=
  let r := momentQuadratureND B carry.1.1 inds (some carry.1.2.1) (some carry.1.2.2) false stable
  let mean := wsumVec d r fun x => (condMeanVars x).1
  let scale := (wsumVec d r fun x => (condMeanVars x).2).map Real.sqrt
  let scms := wsumVec mis.length r (P.row mis (mean, scale))
  let r := momentQuadratureND B scms inds (some mean) (some scale) false stable
  let pdfY := wsum r (pdf y)
  let mean := (eyeRows d).map fun α => wsum r (fun x => prodPow (x.map fun t => (t - 0) / 1) α * pdf y x) / pdfY
  let scale := ((eyeRows d).map fun α => Real.sqrt
    (wsum r (fun x => prodPow (List.zipWith (fun t m => (t - m) / 1) x mean) (α.map (· * 2)) * pdf y x) / pdfY))
  let scms := mis.map fun α =>
    wsum r (fun x => prodPow (List.zipWith (· / ·) (List.zipWith (· - ·) x mean) scale) α * pdf y x) / pdfY
  (((scms, mean, scale), carry.2 - Real.log pdfY), (scms, mean, scale))

/-- `moment_filter_nd_scms`, `/repo/mfs/multi_dims/filtering.py:33-207`. -/
noncomputable def filterScms (B : Backend) (P : CondMoments (List ℝ × List ℝ))
    (condMeanVars : List ℝ → List ℝ × List ℝ) (pdf : Y → List ℝ → ℝ) (ys : List Y)
    (order : List (List ℕ) × List (List (List ℤ))) (scms0 mean0 scale0 : List ℝ) (stable : Bool := false) :
    Except String (List (List ℝ × List ℝ × List ℝ) × ℝ) :=
  let mis := order.1
  let inds := order.2
  if mis.length ≠ scms0.length then .error "ValueError"
  else
    let d := (mis.headD []).length
    let r := scan (scmsStep B stable P condMeanVars pdf d mis inds) ((scms0, mean0, scale0), 0) ys
    .ok (r.2, r.1.2)

end Mfs.FilterND

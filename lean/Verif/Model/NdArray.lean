import Verif.Model.Extract
import Verif.Model.QuadND

/-!
# Arrays with any number of axes: the extraction helpers on batches, and `nd_cartesian_prod` with its shapes

`Model/Extract` and `Model/QuadND` take the arguments of these functions apart into lists of rows. Here they are arrays with a shape, and the
NumPy operations of the code (`...`-indexing, `transpose`, gathering, `diagonal`) are modelled one by one.
-/

namespace Mfs.NdArray

open Mfs.MultiIndex

/-- an array: its shape and its entries by index. Entries at indices outside of the shape carry no meaning. -/
structure Arr (α : Type) where
  shape : List ℕ
  get : List ℕ → α

/-- position meant by an integer index on an axis of length `z`: negative ones count from the end, others raise `IndexError` (`none`). -/
def npIdx (z : ℕ) (i : ℤ) : Option ℕ :=
  if 0 ≤ i then (if i < z then some i.toNat else none) else if 0 ≤ i + z then some (i + z).toNat else none

/-- `ms[..., i]` for an integer `i`. -/
def Arr.atLast {α : Type} (ms : Arr α) (i : ℤ) : Option (Arr α) := do
  let z ← ms.shape.getLast?
  let j ← npIdx z i
  return ⟨ms.shape.dropLast, fun b => ms.get (b ++ [j])⟩

/-- `ms[..., idx]` for a vector `idx` of integers. -/
def Arr.takeLast {α : Type} (ms : Arr α) (idx : List ℤ) : Option (Arr α) := do
  let z ← ms.shape.getLast?
  let js ← idx.mapM (npIdx z)
  return ⟨ms.shape.dropLast ++ [idx.length], fun b => ms.get (b.dropLast ++ [js.getD (b.getLastD 0) 0])⟩

/-- `np.zeros(shape)`. -/
def Arr.zeros {α : Type} [Zero α] (shape : List ℕ) : Arr α := ⟨shape, fun _ => 0⟩

/-- `a[..., i] = v`. -/
def Arr.setLast {α : Type} (a : Arr α) (i : ℕ) (v : Arr α) : Arr α :=
  ⟨a.shape, fun b => if b.getLast? = some i then v.get b.dropLast else a.get b⟩

/-- `a[..., i, j] = v`. -/
def Arr.setLast2 {α : Type} (a : Arr α) (i j : ℕ) (v : Arr α) : Arr α :=
  ⟨a.shape, fun b => if b.getLast? = some j ∧ b.dropLast.getLast? = some i then v.get b.dropLast.dropLast else a.get b⟩

/-- `extract_moments`, `/repo/mfs/multi_dims/moments.py:184-199`, with leading axes. -/
def extractMomentsB {α : Type} (ms : Arr α) (multiIndex : List ℕ) : Option (Arr α) := do
  let i ← gradedLexicoIndexof multiIndex 0
  ms.atLast i

/-- `extract_mean`, `/repo/mfs/multi_dims/moments.py:202-225`, with leading axes: the loop fills `mean[..., i]`. For `ndim ≤ 1` lines 216-219 give
the same shape `(d, )`, since then there are no leading axes. -/
def extractMeanB {α : Type} [Zero α] (rms : Arr α) (d : ℕ) : Option (Arr α) :=
  (List.range d).foldlM (fun mean i => do
    let v ← extractMomentsB rms ((List.replicate d 0).set i 1)
    return mean.setLast i v) (Arr.zeros (rms.shape.dropLast ++ [d]))

/-- `extract_cov`, `/repo/mfs/multi_dims/moments.py:228-254`, with leading axes. -/
def extractCovB {α : Type} [Zero α] (ms : Arr α) (d : ℕ) : Option (Arr α) :=
  (List.range d).foldlM (fun cov i => (List.range d).foldlM (fun cov j => do
    let v ← extractMomentsB ms (((List.replicate d 0).set i 1).modify j (· + 1))
    return cov.setLast2 i j v) cov) (Arr.zeros (ms.shape.dropLast ++ [d, d]))

/-- `marginalise_moments`, `/repo/mfs/multi_dims/moments.py:482-504`, with leading axes. -/
def marginaliseMomentsB {α : Type} (ms : Arr α) (d N varAxis : ℕ) : Option (Arr α) := do
  let idx ← findIndices ((List.range (2 * N)).map (fun k => (List.replicate d 0).set varAxis k))
  ms.takeLast idx

/-! ### `nd_cartesian_prod` -/

/-- `jnp.transpose(x, perm)`: axis `p` of the result is axis `perm[p]` of `x`. -/
def Arr.transpose {α : Type} (perm : List ℕ) (x : Arr α) : Arr α :=
  ⟨perm.map fun p => x.shape.getD p 0, fun b => x.get ((List.range perm.length).map fun j => b.getD (perm.idxOf j) 0)⟩

/-- `x[inds]` for an array of integer indices into the first axis. `fix n i` is the position used for index `i` on an axis of length `n`; JAX
clamps, all that is used below is `fix n i = i` for `i < n`. -/
def Arr.gather {α : Type} (fix : ℕ → ℕ → ℕ) (x : Arr α) (inds : Arr ℕ) : Arr α :=
  ⟨inds.shape ++ x.shape.tail, fun b => x.get (fix (x.shape.headD 0) (inds.get (b.take inds.shape.length)) :: b.drop inds.shape.length)⟩

/-- `jnp.diagonal(z, axis1=1, axis2=2)`: the two axes are removed and the diagonal is appended as the last axis. -/
def Arr.diagonal12 {α : Type} (z : Arr α) : Arr α :=
  ⟨(z.shape.take 1 ++ z.shape.drop 3) ++ [min (z.shape.getD 1 0) (z.shape.getD 2 0)],
    fun b => z.get (b.headD 0 :: b.getLastD 0 :: b.getLastD 0 :: b.tail.dropLast)⟩

/-- what `nd_cartesian_prod` can raise. -/
inductive CartErr
  | valueError
  | notImplemented
  deriving DecidableEq

/-- the matrix returned by `nd_cartesian_prod_indices`, as an array. -/
def cartInds (d n : ℕ) : Arr ℕ :=
  ⟨[n ^ d, d], fun b => match (QuadND.ndCartesianProdIndices d n)[b.getD 0 0]? with
    | some row => match row[b.getD 1 0]? with
      | some i => i
      | none => 0
    | none => 0⟩

/-- `nd_cartesian_prod`, `/repo/mfs/multi_dims/quadratures.py:51-87`. -/
def ndCartProd {α : Type} (fix : ℕ → ℕ → ℕ) (x : Arr α) (inds : Option (Arr ℕ)) : Except CartErr (Arr α) := do
  let inds ← match inds with
    | some i => .ok i
    | none => match x.shape with
      | d :: n :: _ => .ok (cartInds d n)
      | _ => .error .valueError
  match x.shape with
  | [_, _] => .ok ((x.transpose [1, 0]).gather fix inds).diagonal12
  | [_, _, _] => .ok ((x.transpose [2, 0, 1]).gather fix inds).diagonal12
  | _ => .error .notImplemented

end Mfs.NdArray

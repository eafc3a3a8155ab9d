import Mathlib.Data.Nat.Choose.Basic
import Mathlib.Data.List.Basic

/-!
# Model of `mfs/multi_dims/multi_indices.py`

Integer code, modelled exactly. A multi-index is a `List ℕ` (a row of an `int64` array; wrap-around of
`int64` is not modelled). `ValueError`s of `math.comb` are `none`; other exceptions are `Except.error`.
-/

namespace Mfs.MultiIndex

/-- `math.comb`, which raises `ValueError` on negative arguments (used throughout `multi_indices.py`). -/
def pyComb (n k : ℤ) : Option ℤ :=
  if n < 0 ∨ k < 0 then none else some ((n.toNat.choose k.toNat : ℕ) : ℤ)

/-- `sizeof_multi_indices`, `/repo/mfs/multi_dims/multi_indices.py:25-58`. -/
def sizeofMultiIndices (d upper lower : ℤ) : Option ℤ :=
  if upper = lower then
    pyComb (upper + d - 1) upper
  else if upper < lower then
    some 0
  else if lower = 0 then
    pyComb (upper + d) upper
  else do
    let a ← pyComb (upper + d) upper
    let b ← pyComb (lower - 1 + d) (lower - 1)
    return a - b

/-- The `for i in range(d)` loop of `graded_lexico_indexof_multi_index`,
`/repo/mfs/multi_dims/multi_indices.py:97-107`. The list is the not yet visited part of the multi-index, so its
length after dropping the head is `d - (i + 1)`. -/
def indexLoop : List ℕ → (pos subSum : ℤ) → Option ℤ
  | [], pos, _ => some pos
  | ith :: rest, pos, subSum => do
    let pos ←
      if ith ≥ 1 then do
        let l := subSum - (ith : ℤ) + 1
        let u := subSum
        let s ← sizeofMultiIndices (rest.length : ℤ) u l
        pure (pos + s)
      else pure pos
    indexLoop rest pos (subSum - (ith : ℤ))

/-- `graded_lexico_indexof_multi_index`, `/repo/mfs/multi_dims/multi_indices.py:61-112`. -/
def gradedLexicoIndexof (multiIndex : List ℕ) (lowerSum : ℤ := 0) : Option ℤ := do
  let d : ℤ := multiIndex.length
  let totalSum : ℤ := (multiIndex.sum : ℕ)
  let basePos ← sizeofMultiIndices d (totalSum - 1) 0
  let pos ← indexLoop multiIndex basePos totalSum
  if lowerSum ≠ 0 then do
    let s ← sizeofMultiIndices d (lowerSum - 1) 0
    return pos - s
  else
    return pos

/-- `np.max(np.nonzero(multi_index))`: position of the last non-zero entry
(`/repo/mfs/multi_dims/multi_indices.py:126`); on an all-zero row NumPy would raise, but the caller
excludes it. -/
def lastNonzeroInd (mi : List ℕ) : ℕ :=
  mi.length - 1 - mi.reverse.findIdx (fun a => a ≠ 0)

/-- `_next_graded_lexico_multi_index`, `/repo/mfs/multi_dims/multi_indices.py:115-136`. Index `-1` is `d - 1`
and `-2` is `d - 2`; in-place updates are `List.set`/`List.modify`. -/
def nextMultiIndex (mi : List ℕ) : List ℕ :=
  let d := mi.length
  let totalSum := mi.sum
  if mi.tail.any (fun a => a ≠ 0) = false then
    (List.replicate d 0).set (d - 1) (totalSum + 1)
  else
    let p := lastNonzeroInd mi
    if p = d - 1 then
      (mi.modify (d - 1) (fun a => a - 1)).modify (d - 2) (fun a => a + 1)
    else
      ((mi.set p 0).modify (p - 1) (fun a => a + 1)).modify (d - 1) (fun a => a + (mi.getD p 0 - 1))

/-- `generate_graded_lexico_multi_indices`, `/repo/mfs/multi_dims/multi_indices.py:139-177`.
For `d ≥ 2` and `lower > upper` the array has no row `0`, so the assignment at line 172 raises `IndexError`.
The `d = 1` branch is `np.arange(lower, upper + 1)` as a column (for `lower > upper` NumPy returns an empty array
or refuses the reshape; both are recorded as an error here). The count `z` is taken from
`sizeof_multi_indices`, whose failure is `none`. -/
def generateMultiIndices (d upper lower : ℕ) : Except String (List (List ℕ)) :=
  if d = 1 then
    if upper < lower then .error "empty range"
    else .ok ((List.range' lower (upper + 1 - lower)).map (fun a => [a]))
  else
    match sizeofMultiIndices d upper lower with
    | none => .error "ValueError"
    | some z =>
      if z ≤ 0 then .error "IndexError"
      else .ok (List.iterate nextMultiIndex ((List.replicate d 0).set (d - 1) lower) z.toNat)

/-- `find_indices`, `/repo/mfs/multi_dims/multi_indices.py:180-182` (vectorised over a list of rows). -/
def findIndices (mis : List (List ℕ)) : Option (List ℤ) :=
  mis.mapM (fun mi => gradedLexicoIndexof mi 0)

/-- Elementwise sum of two rows (NumPy broadcasting `+`), and `row[i] += 1`. -/
def addRows (x y : List ℕ) : List ℕ := List.zipWith (· + ·) x y

/-- `gram_and_hankel_indices_graded_lexico`, `/repo/mfs/multi_dims/multi_indices.py:185-229`.
Result: the list of the `d + 1` index matrices. The in-place `+= 1` … `-= 1` on column `i` (lines 225-227) is
modelled by a modified copy. -/
def gramAndHankelIndices (N d : ℕ) : Except String (List (List (List ℤ))) :=
  match generateMultiIndices d (N - 1) 0 with
  | .error e => .error e
  | .ok basis =>
    let gram : List (List (List ℕ)) := basis.map (fun a => basis.map (fun b => addRows a b))
    let bump (i : ℕ) : List (List (List ℕ)) := gram.map (fun row => row.map (fun mi => mi.modify i (· + 1)))
    let mats := gram :: (List.range d).map bump
    match mats.mapM (fun m => m.mapM (fun row => findIndices row)) with
    | none => .error "ValueError"
    | some r => .ok r

end Mfs.MultiIndex

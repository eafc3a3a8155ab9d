import Verif.Model.Quad1
import Mathlib.Data.List.FinRange

/-!
# Model of `mfs/multi_dims/quadratures.py`
-/

namespace Mfs.QuadND

open Matrix Mfs.Spec

/-- `itertools.product(*ls)`: last factor varies fastest (used at `/repo/mfs/multi_dims/quadratures.py:48`). -/
def cartesianProd {α : Type} : List (List α) → List (List α)
  | [] => [[]]
  | l :: ls => l.flatMap fun a => (cartesianProd ls).map (a :: ·)

/-- `nd_cartesian_prod_indices`, `/repo/mfs/multi_dims/quadratures.py:29-48`. Entries are in `range(n)`, i.e. `Fin n`. -/
def ndCartesianProdIndices (d n : ℕ) : List (List (Fin n)) :=
  cartesianProd (List.replicate d (List.finRange n))

/-- `nd_cartesian_prod` for two-dimensional (`β = ℝ`) or three-dimensional (`β` a column) input,
`/repo/mfs/multi_dims/quadratures.py:51-87`: row `r`, column `a` of the result is `x[a, inds[r, a]]`
(`diagonal(x.T[inds])`). The input is the list of its `d` rows. -/
def ndCartesianProd {n : ℕ} {β : Type} (x : List (Fin n → β)) (inds : List (List (Fin n))) : List (List β) :=
  inds.map fun idx => List.zipWith (fun row i => row i) x idx

/-- groups of `d` consecutive entries: `reshape(-1, d)` of a flat array. -/
def chunks {α : Type} (d : ℕ) : ℕ → List α → List (List α)
  | 0, _ => []
  | k + 1, l => l.take d :: chunks d k (l.drop d)

/-- index used by array `j` of `meshgrid(*x)` with the default `indexing='xy'`: the first two axes are swapped
(for `d ≥ 2`). -/
def xyAxis (d j : ℕ) : ℕ := if d < 2 then j else if j = 0 then 1 else if j = 1 then 0 else j

/-- `nd_cartesian_prod_2`, `/repo/mfs/multi_dims/quadratures.py:90-113`: `array(meshgrid(*x)).reshape(-1, d)`. The
`d` grids (each flattened in row-major order) are concatenated and cut into rows of `d`. -/
def ndCartesianProd2 {n : ℕ} {β : Type} [Inhabited β] (x : List (Fin n → β)) : List (List β) :=
  let d := x.length
  let grids : List (List β) := (List.range d).map fun j =>
    (ndCartesianProdIndices d n).map fun idx =>
      match x[j]?, idx[xyAxis d j]? with
      | some row, some i => row i
      | _, _ => default
  chunks d (n ^ d) grids.flatten

/-- `ms[inds]` for a matrix of integer indices given as a list of rows. -/
noncomputable def gatherL (ms : List ℝ) (z : ℕ) (M : List (List ℤ)) : Matrix (Fin z) (Fin z) ℝ :=
  Matrix.of fun i j => jget ms ((M.getD i []).getD j 0).toNat

/-- `∏ einsum('ijk,ijk->ik', V[:, :, :-1], V[:, :, 1:])` for one row: the product of the inner products of
consecutive columns (`/repo/mfs/multi_dims/quadratures.py:169`). -/
def chain {z : ℕ} (V : List (Fin z → ℝ)) : ℝ := (List.zipWith (· ⬝ᵥ ·) V.dropLast V.tail).prod

/-- one weight, `/repo/mfs/multi_dims/quadratures.py:169-170`: the chain times the first entries of the first and of
the last column. -/
def weight {z : ℕ} (h : 0 < z) (V : List (Fin z → ℝ)) : ℝ :=
  chain V * (V.headD 0) ⟨0, h⟩ * (V.getLastD 0) ⟨0, h⟩

/-- the affine change of variable at the end of `moment_quadrature_nd`, lines 172-178 (`scale` is ignored when
`mean` is `None`). -/
def affineNode (mean scale : Option (List ℝ)) (x : List ℝ) : List ℝ :=
  match mean with
  | none => x
  | some mu =>
    match scale with
    | none => List.zipWith (· + ·) x mu
    | some s => List.zipWith (· + ·) (List.zipWith (· * ·) x s) mu

/-- body of `moment_quadrature_nd` after gathering the matrices, `/repo/mfs/multi_dims/quadratures.py:154-178`; `z` is
`n = inds.shape[1]`. The result is the list of (weight, node) pairs (for `z = 0` it is empty). -/
noncomputable def quadCore (B : Backend) (z d : ℕ) (G : Matrix (Fin z) (Fin z) ℝ) (Hs : List (Matrix (Fin z) (Fin z) ℝ))
    (mean scale : Option (List ℝ)) (sortNodes ldl : Bool) : List (ℝ × List ℝ) :=
  let R := if ldl then Ldl.ldlChol G else B.chol (symmetrize G)
  let es := Hs.map fun H => B.eigh sortNodes (symmetrize (Quad1.orthonormalise R H))
  let combs := ndCartesianProdIndices d z
  let combsVals := ndCartesianProd (es.map fun e => e.2) combs
  let combsVecs := ndCartesianProd (es.map fun e => fun i k => e.1 k i) combs
  if h : 0 < z then
    List.zipWith (fun V x => (weight h V, affineNode mean scale x)) combsVecs combsVals
  else []

/-- `moment_quadrature_nd`, `/repo/mfs/multi_dims/quadratures.py:120-178`. `inds` is the list of the `d + 1` index
matrices, as returned by `gram_and_hankel_indices_graded_lexico`. -/
noncomputable def momentQuadratureND (B : Backend) (ms : List ℝ) (inds : List (List (List ℤ)))
    (mean : Option (List ℝ) := none) (scale : Option (List ℝ) := none) (sortNodes : Bool := false)
    (ldl : Bool := false) : List (ℝ × List ℝ) :=
  let d := inds.length - 1
  let z := (inds.getD 0 []).length
  quadCore B z d (gatherL ms z (inds.getD 0 [])) (inds.tail.map fun M => gatherL ms z M) mean scale sortNodes ldl

end Mfs.QuadND

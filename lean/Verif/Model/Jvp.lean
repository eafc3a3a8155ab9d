import Verif.Model.QuadND

/-!
# Forward-mode derivatives of the two quadrature rules

`jax.jvp`/`jax.grad` of `moment_quadrature` and `moment_quadrature_nd` differentiate the body of these functions line by line; for
the linear-algebra routines JAX has its own rules, which are written out here (they are part of JAX, not of /repo, and are taken from
its documentation; reverse mode is the transposed computation and gives the same numbers). A tangent that is not a finite number is
modelled by `none`. Only the option `ldl=False` is modelled.
-/

namespace Mfs.Jvp

open Matrix Mfs.Quad1 Mfs.QuadND

variable {n : ℕ}

/-- `phi` of JAX's rule for `cholesky`: the lower triangle, with the diagonal halved. -/
noncomputable def phi (X : Matrix (Fin n) (Fin n) ℝ) : Matrix (Fin n) (Fin n) ℝ :=
  Matrix.of fun i j => lowerPart X i j / (1 + if i = j then 1 else 0)

/-- JAX's rule for `cholesky`: `L phi(L⁻¹ dA L⁻ᵀ)`. -/
noncomputable def cholJvp (L dA : Matrix (Fin n) (Fin n) ℝ) : Matrix (Fin n) (Fin n) ℝ :=
  L * phi (triSolveLeft L (triSolveRightT L dA))

/-- JAX's rule for `triangular_solve(a, b, left_side=True, lower=True)`. -/
noncomputable def triSolveLeftJvp (a da b db : Matrix (Fin n) (Fin n) ℝ) : Matrix (Fin n) (Fin n) ℝ :=
  triSolveLeft a db + triSolveLeft a (-lowerPart da) * triSolveLeft a b

/-- JAX's rule for `triangular_solve(a, b, left_side=False, lower=True, transpose_a=True)`. -/
noncomputable def triSolveRightTJvp (a da b db : Matrix (Fin n) (Fin n) ℝ) : Matrix (Fin n) (Fin n) ℝ :=
  triSolveRightT a db + triSolveRightT a b * triSolveRightT a (-(lowerPart da)ᵀ)

/-- the matrix of reciprocal differences in JAX's rule for `eigh`: `1 / (eye + w[None, :] - w[:, None]) - eye`. -/
noncomputable def fmat (w : Fin n → ℝ) : Matrix (Fin n) (Fin n) ℝ :=
  Matrix.of fun i j => 1 / ((if i = j then 1 else 0) + w j - w i) - if i = j then 1 else 0

open Classical in
/-- JAX's rule for `eigh`: tangents of the eigenvectors and of the eigenvalues. If two eigenvalues agree, the reciprocal of zero
enters every entry of a column of the tangent of the eigenvectors, which is then infinite or not a number. -/
noncomputable def eighJvp (e : Matrix (Fin n) (Fin n) ℝ × (Fin n → ℝ)) (dA : Matrix (Fin n) (Fin n) ℝ) :
    Option (Matrix (Fin n) (Fin n) ℝ × (Fin n → ℝ)) :=
  if Function.Injective e.2 then
    let M := e.1ᵀ * dA * e.1
    some (e.1 * Matrix.of (fun i j => fmat e.2 i j * M i j), fun i => M i i)
  else none

/-- tangent of lines 127-129 of `/repo/mfs/one_dim/quadtures.py` (the same as lines 158-165 of `/repo/mfs/multi_dims/quadratures.py`). -/
noncomputable def orthonormaliseJvp (R dR H dH : Matrix (Fin n) (Fin n) ℝ) : Matrix (Fin n) (Fin n) ℝ :=
  triSolveRightTJvp R dR (triSolveLeft R H) (triSolveLeftJvp R dR H dH)

/-- tangents of weights and nodes returned by `moment_quadrature`, `/repo/mfs/one_dim/quadtures.py:122-133`, for tangents `dms`,
`dmean`, `dscale` of its arguments. -/
noncomputable def momentQuadratureJvp (B : Backend) (ms dms : List ℝ) (dmean scale dscale : ℝ) (sortNodes : Bool) :
    Option ((Fin (ms.length / 2) → ℝ) × (Fin (ms.length / 2) → ℝ)) :=
  let n := ms.length / 2
  let G : Matrix (Fin n) (Fin n) ℝ := gather ms (hankelIndices n).1
  let H : Matrix (Fin n) (Fin n) ℝ := gather ms (hankelIndices n).2
  let dG : Matrix (Fin n) (Fin n) ℝ := gather dms (hankelIndices n).1
  let dH : Matrix (Fin n) (Fin n) ℝ := gather dms (hankelIndices n).2
  let R := B.chol (symmetrize G)
  let dR := cholJvp R (symmetrize dG)
  let K := orthonormalise R H
  let dK := orthonormaliseJvp R dR H dH
  let e := B.eigh sortNodes (symmetrize K)
  (eighJvp e (symmetrize dK)).map fun de =>
    (fun i => 2 * e.1 ⟨0, i.pos⟩ i * de.1 ⟨0, i.pos⟩ i, fun i => dscale * e.2 i + scale * de.2 i + dmean)

/-- tangent of a product of numbers, by the product rule. -/
def prodJvp : List (ℝ × ℝ) → ℝ
  | [] => 0
  | p :: ps => p.2 * (ps.map Prod.fst).prod + p.1 * prodJvp ps

/-- tangent of one weight, `/repo/mfs/multi_dims/quadratures.py:169-170`; the entries of the list are columns and their tangents. -/
def weightJvp {z : ℕ} (h : 0 < z) (V : List ((Fin z → ℝ) × (Fin z → ℝ))) : ℝ :=
  prodJvp (List.zipWith (fun u v => (u.1 ⬝ᵥ v.1, u.2 ⬝ᵥ v.1 + u.1 ⬝ᵥ v.2)) V.dropLast V.tail
    ++ [((V.headD 0).1 ⟨0, h⟩, (V.headD 0).2 ⟨0, h⟩), ((V.getLastD 0).1 ⟨0, h⟩, (V.getLastD 0).2 ⟨0, h⟩)])

/-- tangent of the node, lines 172-178. -/
def affineNodeJvp (mean dmean scale dscale : Option (List ℝ)) (x dx : List ℝ) : List ℝ :=
  match mean with
  | none => dx
  | some _ =>
    match scale with
    | none => List.zipWith (· + ·) dx (dmean.getD [])
    | some s => List.zipWith (· + ·)
        (List.zipWith (· + ·) (List.zipWith (· * ·) dx s) (List.zipWith (· * ·) x (dscale.getD []))) (dmean.getD [])

/-- tangents of weights and nodes returned by `moment_quadrature_nd`, `/repo/mfs/multi_dims/quadratures.py:149-178`, in the order of
the weights and nodes. -/
noncomputable def momentQuadratureNDJvp (B : Backend) (ms dms : List ℝ) (inds : List (List (List ℤ)))
    (mean dmean scale dscale : Option (List ℝ)) (sortNodes : Bool) : Option (List (ℝ × List ℝ)) :=
  let d := inds.length - 1
  let z := (inds.getD 0 []).length
  let R := B.chol (symmetrize (gatherL ms z (inds.getD 0 [])))
  let dR := cholJvp R (symmetrize (gatherL dms z (inds.getD 0 [])))
  let es := inds.tail.map fun M => B.eigh sortNodes (symmetrize (orthonormalise R (gatherL ms z M)))
  let des := (inds.tail.map fun M => eighJvp (B.eigh sortNodes (symmetrize (orthonormalise R (gatherL ms z M))))
    (symmetrize (orthonormaliseJvp R dR (gatherL ms z M) (gatherL dms z M)))).allSome
  des.map fun des =>
    let combs := ndCartesianProdIndices d z
    let vals := ndCartesianProd (es.map fun e => e.2) combs
    let dvals := ndCartesianProd (des.map fun e => e.2) combs
    let vecs := ndCartesianProd ((es.zip des).map fun e => fun i => ((fun k => e.1.1 k i), (fun k => e.2.1 k i))) combs
    if h : 0 < z then
      List.zipWith (fun V x => (weightJvp h V, affineNodeJvp mean dmean scale dscale x.1 x.2)) vecs (vals.zip dvals)
    else []

end Mfs.Jvp

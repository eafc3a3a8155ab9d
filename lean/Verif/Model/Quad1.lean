import Verif.Model.Backend
import Mathlib.Analysis.Calculus.IteratedDeriv.Defs

/-!
# Model of `mfs/one_dim/quadtures.py`
-/

namespace Mfs.Quad1

open Matrix Mfs.Spec

/-- `hankel_indices`, `/repo/mfs/one_dim/quadtures.py:29-60`. -/
def hankelIndices (n : ℕ) : (Fin n → Fin n → ℕ) × (Fin n → Fin n → ℕ) :=
  (fun i j => i + j, fun i j => i + j + 1)

/-- `ms[inds]` for an integer matrix `inds` (JAX fancy indexing). -/
def gather {n : ℕ} (ms : List ℝ) (inds : Fin n → Fin n → ℕ) : Matrix (Fin n) (Fin n) ℝ :=
  Matrix.of fun i j => jget ms (inds i j)

/-- lines 127-129 of `/repo/mfs/one_dim/quadtures.py`: `R` and then `K = R⁻¹ H R⁻ᵀ` by two triangular solves. -/
noncomputable def orthonormalise {n : ℕ} (R H : Matrix (Fin n) (Fin n) ℝ) : Matrix (Fin n) (Fin n) ℝ :=
  triSolveRightT R (triSolveLeft R H)

/-- `moment_quadrature`, `/repo/mfs/one_dim/quadtures.py:83-133`. Weights and nodes are indexed by
`Fin (len(ms) // 2)`. -/
noncomputable def momentQuadrature (B : Backend) (ms : List ℝ) (mean : ℝ := 0) (scale : ℝ := 1)
    (sortNodes : Bool := false) (ldl : Bool := false) :
    (Fin (ms.length / 2) → ℝ) × (Fin (ms.length / 2) → ℝ) :=
  let n := ms.length / 2
  let G : Matrix (Fin n) (Fin n) ℝ := gather ms (hankelIndices n).1
  let H : Matrix (Fin n) (Fin n) ℝ := gather ms (hankelIndices n).2
  let R := if ldl then Ldl.ldlChol G else B.chol (symmetrize G)
  let K := orthonormalise R H
  let e := B.eigh sortNodes (symmetrize K)
  (fun i => e.1 ⟨0, i.pos⟩ i ^ 2, fun i => scale * e.2 i + mean)

/-- entry of the transposed (upper triangular) Cholesky factor by natural indices, for
`_gauss_quadrature_golub_welsch`. -/
def uget {n : ℕ} (R : Matrix (Fin n) (Fin n) ℝ) (i j : ℕ) : ℝ := Ldl.mget Rᵀ i j

/-- The tridiagonal matrix of `_gauss_quadrature_golub_welsch`, `/repo/mfs/one_dim/quadtures.py:72-76`, of size
`n - 1`: `_r` is the diagonal of the upper factor `R`, `betas = _r[1:-1] / _r[:-2]`,
`alphas = [R[0,1]/R[0,0], diag(R,1)[1:]/_r[1:-1] - diag(R,1)[:-1]/_r[:-2]]`,
`K = diag(alphas) + diag(betas, -1) + diag(betas, 1)`. -/
noncomputable def golubWelschK {n : ℕ} (R : Matrix (Fin n) (Fin n) ℝ) : Matrix (Fin (n - 1)) (Fin (n - 1)) ℝ :=
  let r : ℕ → ℝ := fun i => uget R i i
  let u : ℕ → ℝ := fun i => uget R i (i + 1)
  let beta : ℕ → ℝ := fun i => r (i + 1) / r i
  let alpha : ℕ → ℝ := fun i => if i = 0 then uget R 0 1 / uget R 0 0 else u i / r i - u (i - 1) / r (i - 1)
  Matrix.of fun i j =>
    (if (i : ℕ) = j then alpha i else 0) + (if (i : ℕ) = j + 1 then beta j else 0)
      + (if (i : ℕ) + 1 = j then beta i else 0)

/-- `_gauss_quadrature_golub_welsch`, `/repo/mfs/one_dim/quadtures.py:63-80` (for at least four moments, so that
`n - 1 ≥ 1`). The factor stored here is lower triangular, the code transposes it. -/
noncomputable def golubWelsch (B : Backend) (sms : List ℝ) (mean : ℝ := 0) (scale : ℝ := 1) (sortNodes : Bool := false) :
    (Fin (sms.length / 2 - 1) → ℝ) × (Fin (sms.length / 2 - 1) → ℝ) :=
  let n := sms.length / 2
  let G : Matrix (Fin n) (Fin n) ℝ := gather sms (hankelIndices n).1
  let R := B.chol (symmetrize G)
  let e := B.eigh sortNodes (symmetrize (golubWelschK R))
  (fun i => e.1 ⟨0, i.pos⟩ i ^ 2, fun i => scale * e.2 i + mean)

/-- `make_derivatives`, `/repo/mfs/one_dim/quadtures.py:136-148`: the list `[f, f', …, f^(order)]`. `jax.grad` is
`deriv`, exact for the differentiable functions used here. -/
noncomputable def makeDerivatives (f : ℝ → ℝ) (order : ℕ) : List (ℝ → ℝ) :=
  List.iterate deriv f (order + 1)

/-- `taylor_quadrature`, `/repo/mfs/one_dim/quadtures.py:151-183` (`*operands` are part of the closure `f`). -/
noncomputable def taylorQuadrature (f : ℝ → ℝ) (cms : List ℝ) (mean : ℝ) (order : ℕ) : ℝ :=
  let ds := makeDerivatives f order
  (List.range' 1 order).foldl
    (fun result r => result + (ds.getD r 0) mean * jget cms r / (r.factorial : ℝ)) ((ds.getD 0 0) mean)

end Mfs.Quad1

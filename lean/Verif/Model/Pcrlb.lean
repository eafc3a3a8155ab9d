import Verif.Model.Scan
import Mathlib.Analysis.Calculus.FDeriv.Basic
import Mathlib.LinearAlgebra.Matrix.NonsingularInverse

/-!
# Model of `posterior_cramer_rao` in `mfs/utils.py`

Automatic differentiation is differentiation. `jnp.linalg.solve(a, b)` is `a⁻¹ b`.
-/

namespace Mfs.Pcrlb

open Matrix

variable {dx dy N : ℕ}

/-- the `i`-th component of `jax.jacrev(f)` / `jax.jacfwd(f)` at `x` for a scalar function. -/
noncomputable def pd {d : ℕ} (f : (Fin d → ℝ) → ℝ) (x : Fin d → ℝ) (i : Fin d) : ℝ := fderiv ℝ f x (Pi.single i 1)

/-- `jax.hessian(f)(x)`, i.e. `jacfwd(jacrev(f))`: entry `i, j` is the derivative along `j` of the derivative along `i`. -/
noncomputable def hess {d : ℕ} (f : (Fin d → ℝ) → ℝ) (x : Fin d → ℝ) : Matrix (Fin d) (Fin d) ℝ :=
  Matrix.of fun i j => pd (fun u => pd f u i) x j

/-- `jax.jacfwd(jax.jacrev(f, argnums=1), argnums=0)(t, s)`: rows belong to the second argument. -/
noncomputable def hessTS {d : ℕ} (f : (Fin d → ℝ) → (Fin d → ℝ) → ℝ) (t s : Fin d → ℝ) : Matrix (Fin d) (Fin d) ℝ :=
  Matrix.of fun i j => pd (fun t' => pd (fun s' => f t' s') s i) t j

/-- `jnp.mean(..., axis=0)`. -/
noncomputable def mean (M : Fin N → Matrix (Fin dx) (Fin dx) ℝ) : Matrix (Fin dx) (Fin dx) ℝ := (N : ℝ)⁻¹ • ∑ i, M i

/-- the scan body, `/repo/mfs/utils.py:480-489`. -/
noncomputable def step (logT : (Fin dx → ℝ) → (Fin dx → ℝ) → ℝ) (logL : (Fin dy → ℝ) → (Fin dx → ℝ) → ℝ)
    (j : Matrix (Fin dx) (Fin dx) ℝ) (elem : (Fin N → Fin dy → ℝ) × (Fin N → Fin dx → ℝ) × (Fin N → Fin dx → ℝ)) :
    Matrix (Fin dx) (Fin dx) ℝ :=
  let yt := elem.1
  let xt := elem.2.1
  let xs := elem.2.2
  let d11 := -mean fun i => hess (fun s => logT (xt i) s) (xs i)
  let d12 := -mean fun i => hessTS logT (xt i) (xs i)
  let d22 := -mean fun i => hess (fun t => logT t (xs i)) (xt i) + hess (fun x => logL (yt i) x) (xt i)
  d22 - d12ᵀ * ((j + d11)⁻¹ * d12)

/-- `posterior_cramer_rao`, `/repo/mfs/utils.py:431-492`. `jax.lax.scan` raises when the leading axes differ. -/
noncomputable def posteriorCramerRao (traj : List (Fin N → Fin dx → ℝ)) (ys : List (Fin N → Fin dy → ℝ))
    (j0 : Matrix (Fin dx) (Fin dx) ℝ) (logT : (Fin dx → ℝ) → (Fin dx → ℝ) → ℝ) (logL : (Fin dy → ℝ) → (Fin dx → ℝ) → ℝ) :
    Option (List (Matrix (Fin dx) (Fin dx) ℝ)) :=
  if traj.tail.length = ys.length ∧ traj.dropLast.length = ys.length then
    some (scan (fun j e => let j' := step logT logL j e; (j', j')) j0 (ys.zip (traj.tail.zip traj.dropLast))).2
  else none

end Mfs.Pcrlb

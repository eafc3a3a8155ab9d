import Verif.Model.Backend
import Verif.Model.Scan
import Mathlib.Analysis.SpecialFunctions.Gamma.Basic
import Mathlib.Analysis.Normed.Algebra.MatrixExponential
import Mathlib.LinearAlgebra.Matrix.NonsingularInverse
import Mathlib.Data.Matrix.ColumnRowPartitioned
import Mathlib.Data.Matrix.Block

/-!
# Model of the remaining functions of `mfs/utils.py`
-/

namespace Mfs.Utils

open Matrix

/-- `gamma`, `/repo/mfs/utils.py:27-28`; `jax.lax.lgamma` is `log |Γ|`. -/
noncomputable def gamma (x : ℝ) : ℝ := Real.exp (Real.log |Real.Gamma x|)

/-- `factorial`, `/repo/mfs/utils.py:31-32`. -/
noncomputable def factorial (n : ℝ) : ℝ := gamma (n + 1)

/-- `binom`, `/repo/mfs/utils.py:35-36`. -/
noncomputable def binom (n k : ℝ) : ℝ := factorial n / (factorial k * factorial (n - k))

/-- `phi` of `discretise_lti_sde`, `/repo/mfs/utils.py:164`. -/
def ltiPhi {n w : ℕ} (A : Matrix (Fin n) (Fin n) ℝ) (B : Matrix (Fin n) (Fin w) ℝ) : Matrix (Fin n ⊕ Fin n) (Fin n ⊕ Fin n) ℝ :=
  fromBlocks A (B * Bᵀ) 0 (-Aᵀ)

/-- `discretise_lti_sde`, `/repo/mfs/utils.py:128-167`; `expm` is the matrix exponential and the `2d` rows are indexed by
`Fin d ⊕ Fin d`. -/
noncomputable def discretiseLtiSde {n w : ℕ} (A : Matrix (Fin n) (Fin n) ℝ) (B : Matrix (Fin n) (Fin w) ℝ) (dt : ℝ) :
    Matrix (Fin n) (Fin n) ℝ × Matrix (Fin n) (Fin n) ℝ :=
  let F := NormedSpace.exp (dt • A)
  let AB : Matrix (Fin n ⊕ Fin n) (Fin n) ℝ := NormedSpace.exp (dt • ltiPhi A B) * fromRows 0 1
  (F, AB.toRows₁ * Fᵀ)

/-- `jax.lax.switch`: the index is clamped. -/
def laxSwitch {X Y : Type} (ind : ℕ) (funcs : List (X → Y)) (x : X) : Option Y :=
  funcs[min ind (funcs.length - 1)]?.map fun f => f x

/-- `vmap_list_of_funcs`, `/repo/mfs/utils.py:170-187`. -/
def vmapListOfFuncs {X Y : Type} (funcs : List (X → Y)) (x : X) : List (Option Y) :=
  (List.range funcs.length).map fun ind => laxSwitch ind funcs x

/-- `integration_body` of `simulate_sde`, `/repo/mfs/utils.py:229-239`. -/
noncomputable def integrationBody (B : Backend) {d : ℕ} (mAndCov : (Fin d → ℝ) → ℝ → (Fin d → ℝ) × Matrix (Fin d) (Fin d) ℝ) (ddt : ℝ)
    (diagonalCov : Bool) (x normalInc : Fin d → ℝ) : Fin d → ℝ :=
  let r := mAndCov x ddt
  if diagonalCov then r.1 + (r.2.map Real.sqrt) *ᵥ normalInc else r.1 + (B.chol (symmetrize r.2)) *ᵥ normalInc

/-- `simulate_sde`, `/repo/mfs/utils.py:190-249`; the array of normal increments (`T × integration_steps × d`) is an input. -/
noncomputable def simulateSde (B : Backend) {d : ℕ} (mAndCov : (Fin d → ℝ) → ℝ → (Fin d → ℝ) × Matrix (Fin d) (Fin d) ℝ)
    (x0 : Fin d → ℝ) (dt : ℝ) (normalIncrements : List (List (Fin d → ℝ))) (diagonalCov : Bool := false)
    (integrationSteps : ℕ := 1) : List (Fin d → ℝ) :=
  let ddt := dt / integrationSteps
  (scan (fun x normalInc =>
    let x' := (scan (fun x inc => (integrationBody B mAndCov ddt diagonalCov x inc, ())) x normalInc).1
    (x', x')) x0 normalIncrements).2

/-- `scan_body` of `lanczos`, `/repo/mfs/utils.py:373-382`. -/
noncomputable def lanczosBody {n : ℕ} (a : Matrix (Fin n) (Fin n) ℝ) (carry : (Fin n → ℝ) × (Fin n → ℝ)) (_ : ℕ) :
    ((Fin n → ℝ) × (Fin n → ℝ)) × ((Fin n → ℝ) × ℝ × ℝ) :=
  let beta := Real.sqrt (∑ i, carry.2 i ^ 2)
  let v := fun i => carry.2 i / beta
  let wp := a *ᵥ v
  let alpha := wp ⬝ᵥ v
  let w := wp - alpha • v - beta • carry.1
  ((v, w), (v, alpha, beta))

/-- `lanczos`, `/repo/mfs/utils.py:340-389`: the columns of `V`, the diagonal and the off-diagonal. -/
noncomputable def lanczos {n : ℕ} (a : Matrix (Fin n) (Fin n) ℝ) (v0 : Fin n → ℝ) (m : ℕ) :
    List (Fin n → ℝ) × List ℝ × List ℝ :=
  let wp0 := a *ᵥ v0
  let alpha0 := wp0 ⬝ᵥ v0
  let w0 := wp0 - alpha0 • v0
  let out := (scan (lanczosBody a) (v0, w0) (List.range (m - 1))).2
  (v0 :: out.map (·.1), alpha0 :: out.map (·.2.1), out.map (·.2.2))

/-- `jnp.diag(alphas) + jnp.diag(betas, k=-1) + jnp.diag(betas, k=1)`, `/repo/mfs/utils.py:426`. -/
def tridiag (alphas betas : List ℝ) (m : ℕ) : Matrix (Fin m) (Fin m) ℝ :=
  Matrix.of fun i j => (if i = j then alphas.getD i 0 else 0) + (if (i : ℕ) = j + 1 then betas.getD j 0 else 0)
    + (if (j : ℕ) = i + 1 then betas.getD i 0 else 0)

/-- `lanczos_ritz`, `/repo/mfs/utils.py:392-428`; `none` is the `NotImplementedError`. The result is the matrix of Ritz
vectors (columns) and the Ritz values. -/
noncomputable def lanczosRitz (B : Backend) {n : ℕ} (a : Matrix (Fin n) (Fin n) ℝ) (v0 : Fin n → ℝ) (m : ℕ) [NeZero m]
    (eighTridiagonal : Bool := false) (sort : Bool := true) : Option (Matrix (Fin n) (Fin m) ℝ × (Fin m → ℝ)) :=
  if eighTridiagonal then none else
    let norm := Real.sqrt (∑ i, v0 i ^ 2)
    let r := lanczos a (fun i => v0 i / norm) m
    let T := tridiag r.2.1 r.2.2 m
    let e := B.eigh sort (symmetrize T)
    some (Matrix.of fun i j => ∑ k : Fin m, (r.1.getD k 0) i * e.1 k j * (e.1 0 j * norm), e.2)

end Mfs.Utils

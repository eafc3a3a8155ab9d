import Verif.Model.SigmaPoints
import Mathlib.Analysis.SpecialFunctions.Pow.Real
import Mathlib.Data.Fintype.Pi
import Mathlib.Data.Nat.Choose.Basic
import Mathlib.Analysis.Calculus.FDeriv.Basic
import Mathlib.Analysis.SpecialFunctions.Exp

/-!
# Model of `mfs/multi_dims/moments.py` (moments and transition moments) and of `GaussianSumND` in `mfs/utils.py`

A vector `(d,)` is a function `Fin d → ℝ`, a multi-index a function `Fin d → ℕ`. The rows of
`itertools.product(*ranges)` are enumerated by the finite set of functions `v` with `v i < s_i + 1`; they are only summed over,
so their order is immaterial. `jax.vmap` is not modelled: the functions are the mapped ones.
-/

namespace Mfs.MomentsND

open Matrix Finset

variable {d dw : ℕ}

/-- the rows of `vs = itertools.product(*[range(sn + 1) for sn in multi_index])`,
`/repo/mfs/multi_dims/moments.py:93-95, 137-140`. -/
def kanRows (mi : Fin d → ℕ) : Finset (Fin d → ℕ) := Fintype.piFinset fun i => range (mi i + 1)

/-- a row of `hs = multi_index / 2 - vs`, `/repo/mfs/multi_dims/moments.py:96, 141`. -/
noncomputable def kanH (mi v : Fin d → ℕ) : Fin d → ℝ := fun i => (mi i : ℝ) / 2 - v i

/-- an entry of `signs * combs`, `/repo/mfs/multi_dims/moments.py:98-99, 143-144`. -/
def kanSignComb (mi v : Fin d → ℕ) : ℝ := (-1) ^ (∑ i, v i) * ∏ i, ((mi i).choose (v i) : ℝ)

/-- `central_moments_mvn_kan`, `/repo/mfs/multi_dims/moments.py:66-108`; the power `** (s / 2)` has a float exponent. -/
noncomputable def centralMomentsMvnKan (cov : Matrix (Fin d) (Fin d) ℝ) (mi : Fin d → ℕ) : ℝ :=
  let s := ∑ i, mi i
  if s % 2 = 0 then
    (∑ v ∈ kanRows mi, kanSignComb mi v * (kanH mi v ⬝ᵥ cov *ᵥ kanH mi v / 2) ^ ((s : ℝ) / 2)) / ((s / 2).factorial : ℝ)
  else 0

/-- `raw_moments_mvn_kan`, `/repo/mfs/multi_dims/moments.py:111-154`. The rows of `vs_and_r` are the pairs of a row of `vs` and
of `r < int(s / 2) + 1`. -/
noncomputable def rawMomentsMvnKan (mean : Fin d → ℝ) (cov : Matrix (Fin d) (Fin d) ℝ) (mi : Fin d → ℕ) : ℝ :=
  let s := ∑ i, mi i
  ∑ v ∈ kanRows mi, ∑ r ∈ range (s / 2 + 1), kanSignComb mi v *
    ((kanH mi v ⬝ᵥ cov *ᵥ kanH mi v / 2) ^ r * (kanH mi v ⬝ᵥ mean) ^ (s - 2 * r) / ((r.factorial : ℝ) * ((s - 2 * r).factorial : ℝ)))

/-- `_gradient_wrt_multi_index`, `/repo/mfs/multi_dims/moments.py:33-49`: for `k = 0, …, d - 1`, component `k` of `jax.grad`
is taken `multi_index[k]` times; `jax.grad(f)(x)[k]` is the derivative of `f` at `x` in the direction `e_k`. -/
noncomputable def gradientWrtMultiIndex (func : (Fin d → ℝ) → ℝ) (mi : Fin d → ℕ) : (Fin d → ℝ) → ℝ :=
  (List.finRange d).foldl (fun f k => (fun g : (Fin d → ℝ) → ℝ => fun x => fderiv ℝ g x (Pi.single k 1))^[mi k] f) func

/-- `raw_moments_mvn_mgf`, `/repo/mfs/multi_dims/moments.py:52-63`. -/
noncomputable def rawMomentsMvnMgf (mean : Fin d → ℝ) (cov : Matrix (Fin d) (Fin d) ℝ) (mi : Fin d → ℕ) : ℝ :=
  gradientWrtMultiIndex (fun z => Real.exp (z ⬝ᵥ mean + 0.5 * (z ⬝ᵥ cov *ᵥ z))) mi 0

/-- `moments_nd_uniform`, `/repo/mfs/multi_dims/moments.py:157-181`; `zip` stops at the shortest of the three sequences. -/
noncomputable def momentsNdUniform (bounds : List (ℝ × ℝ)) (mi : List ℕ) (means : Option (List ℝ) := none) : ℝ :=
  let means := means.getD (List.replicate bounds.length 0)
  ((mi.zip (bounds.zip means)).map fun (power, bound, mean) =>
    ((bound.2 - mean) ^ (power + 1) - (bound.1 - mean) ^ (power + 1)) / ((power : ℝ) + 1) / (bound.2 - bound.1)).prod

/-- the functions returned by the `sde_cond_moments_*` constructors; `I` is the type of the index argument: a position in
the table of multi-indices, or a multi-index. -/
structure CondFns (d : ℕ) (I : Type) where
  raw : (Fin d → ℝ) → I → ℝ
  central : (Fin d → ℝ) → I → (Fin d → ℝ) → ℝ
  scaled : (Fin d → ℝ) → I → (Fin d → ℝ) → (Fin d → ℝ) → ℝ
  mean : (Fin d → ℝ) → Fin d → ℝ
  meanVar : (Fin d → ℝ) → (Fin d → ℝ) × (Fin d → ℝ)

/-- `ms[index]` for a JAX array: a position past the end is clamped to the last one. -/
def jgetRow {α : Type} [Inhabited α] (ms : List α) (index : ℕ) : α := ms.getD (min index (ms.length - 1)) default

/-- `sde_cond_moments_euler_maruyama`, `/repo/mfs/multi_dims/moments.py:257-337`. -/
noncomputable def sdeCondMomentsEulerMaruyama (drift : (Fin d → ℝ) → Fin d → ℝ) (dispersion : (Fin d → ℝ) → Matrix (Fin d) (Fin dw) ℝ)
    (dt : ℝ) (multiIndices : List (Fin d → ℕ)) : CondFns d ℕ where
  raw x index :=
    jgetRow (multiIndices.map fun mi => rawMomentsMvnKan (x + dt • drift x) (dt • (dispersion x * (dispersion x)ᵀ)) mi) index
  central x index mean :=
    jgetRow (multiIndices.map fun mi => rawMomentsMvnKan (x + dt • drift x - mean) (dt • (dispersion x * (dispersion x)ᵀ)) mi) index
  scaled x index mean scale :=
    jgetRow (multiIndices.map fun mi => rawMomentsMvnKan (x + dt • drift x - mean) (dt • (dispersion x * (dispersion x)ᵀ)) mi) index
      / ∏ i, scale i ^ (jgetRow multiIndices index) i
  mean x := x + dt • drift x
  meanVar x := (x + dt • drift x, fun i => (dispersion x * (dispersion x)ᵀ) i i * dt)

/-- `sde_cond_moments_tme_normal`, `/repo/mfs/multi_dims/moments.py:340-411`. The routines of the package `tme` for the given
SDE, step and order are parameters: `expect phi x` is `tme.expectation(phi, x, …)`, `meanCov x` is `tme.mean_and_cov(x, …)`. -/
noncomputable def sdeCondMomentsTmeNormal (expect : {V : Type} → ((Fin d → ℝ) → V) → (Fin d → ℝ) → V)
    (meanCov : (Fin d → ℝ) → (Fin d → ℝ) × Matrix (Fin d) (Fin d) ℝ) (multiIndices : List (Fin d → ℕ)) : CondFns d ℕ where
  raw x index := jgetRow (multiIndices.map fun mi => rawMomentsMvnKan (meanCov x).1 (meanCov x).2 mi) index
  central x index mean := jgetRow (multiIndices.map fun mi => rawMomentsMvnKan ((meanCov x).1 - mean) (meanCov x).2 mi) index
  scaled x index mean scale :=
    jgetRow (multiIndices.map fun mi => rawMomentsMvnKan ((meanCov x).1 - mean) (meanCov x).2 mi) index
      / ∏ i, scale i ^ (jgetRow multiIndices index) i
  mean x := expect id x
  meanVar x := ((meanCov x).1, fun i => (meanCov x).2 i i)

/-- `sde_cond_moments_tme`, `/repo/mfs/multi_dims/moments.py:414-479`. -/
noncomputable def sdeCondMomentsTme (expect : {V : Type} → ((Fin d → ℝ) → V) → (Fin d → ℝ) → V)
    (meanCov : (Fin d → ℝ) → (Fin d → ℝ) × Matrix (Fin d) (Fin d) ℝ) : CondFns d (Fin d → ℕ) where
  raw x mi := expect (fun u => ∏ i, u i ^ mi i) x
  central x mi mean := expect (fun u => ∏ i, (u i - mean i) ^ mi i) x
  scaled x mi mean scale := expect (fun u => ∏ i, ((u i - mean i) / scale i) ^ mi i) x
  mean x := expect id x
  meanVar x := ((meanCov x).1, fun i => (meanCov x).2 i i)

/-- one component `(mean, cov, weight)` of a Gaussian sum. -/
structure Component (d : ℕ) where
  mean : Fin d → ℝ
  cov : Matrix (Fin d) (Fin d) ℝ
  weight : ℝ

/-- the computed fields of `GaussianSumND`, `/repo/mfs/utils.py:77-88`. -/
structure GaussianSumND (d : ℕ) where
  mean : Fin d → ℝ
  cov : Matrix (Fin d) (Fin d) ℝ
  rms : List ℝ
  cms : List ℝ

/-- `GaussianSumND.new`, `/repo/mfs/utils.py:106-125`. -/
noncomputable def GaussianSumND.new (comps : List (Component d)) (multiIndices : List (Fin d → ℕ)) : GaussianSumND d :=
  let centre : Fin d → ℝ := fun i => (comps.map fun c => c.mean i * c.weight).sum
  { mean := centre
    cov := (comps.map fun c => c.weight • (c.cov + vecMulVec c.mean c.mean)).sum - vecMulVec centre centre
    rms := multiIndices.map fun mi => (comps.map fun c => rawMomentsMvnKan c.mean c.cov mi * c.weight).sum
    cms := multiIndices.map fun mi => (comps.map fun c => rawMomentsMvnKan (c.mean - centre) c.cov mi * c.weight).sum }

end Mfs.MomentsND

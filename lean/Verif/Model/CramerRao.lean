import Verif.Model.Pcrlb
import Verif.Model.GaussianSum
import Verif.Model.SsModels

/-!
# Model of `dardel/prey_predator/cramer_rao.py`

The moments of `tme.mean_and_cov` are a parameter (the script ignores the argument `_dt` of `m_and_cov` and always uses the step `dt`, which is also the only
value that it passes). `jax.hessian` is the matrix of second derivatives as in `Model/Pcrlb`. The simulated trajectories are arbitrary. File input and output are left out.
-/

namespace Mfs.Pcrlb

open Matrix Mfs.GaussianSum

variable {d n : ℕ}

/-- `init_cond.logpdf`, `/repo/mfs/utils.py:94-99`; `mx x` is the maximum that `logsumexp` subtracts at `x`. -/
noncomputable def initLogpdf (B : Backend) (mx : (Fin d → ℝ) → ℝ) (comps : List (MomentsND.Component d)) (x : Fin d → ℝ) : ℝ :=
  logpdfND B (mx x) comps x

/-- `init_fisher`, `/repo/dardel/prey_predator/cramer_rao.py:45-47`. -/
noncomputable def initFisher (B : Backend) (mx : (Fin d → ℝ) → ℝ) (comps : List (MomentsND.Component d)) (x : Fin d → ℝ) :
    Matrix (Fin d) (Fin d) ℝ := hess (initLogpdf B mx comps) x

/-- `j0`, `/repo/dardel/prey_predator/cramer_rao.py:50`. -/
noncomputable def crJ0 (B : Backend) (mx : (Fin d → ℝ) → ℝ) (comps : List (MomentsND.Component d)) (x0s : Fin n → Fin d → ℝ) :
    Matrix (Fin d) (Fin d) ℝ := -mean fun i => initFisher B mx comps (x0s i)

/-- `logpdf_transition`, `/repo/dardel/prey_predator/cramer_rao.py:28-30`. -/
noncomputable def crLogT (B : Backend) (mAndCov : (Fin d → ℝ) → (Fin d → ℝ) × Matrix (Fin d) (Fin d) ℝ) (xt xs : Fin d → ℝ) : ℝ :=
  mvnLogpdf B xt (mAndCov xs).1 (mAndCov xs).2

/-- `logpdf_likelihood`, `/repo/dardel/prey_predator/cramer_rao.py:33-34`, for a measurement which is zero or one: `bernoulli.logpmf(y, p)` is
`y log p + (1 - y) log (1 - p)`. -/
noncomputable def crLogL (yt : Fin 1 → ℝ) (xt : Fin 2 → ℝ) : ℝ :=
  yt 0 * Real.log (SsModels.preyEmission (xt 0)) + (1 - yt 0) * Real.log (1 - SsModels.preyEmission (xt 0))

/-- `js` and `crlbs`, `/repo/dardel/prey_predator/cramer_rao.py:50-52`; `traj` has the initial states in front, as in line 39. -/
noncomputable def crlbs (B : Backend) (mx : (Fin 2 → ℝ) → ℝ) (comps : List (MomentsND.Component 2))
    (mAndCov : (Fin 2 → ℝ) → (Fin 2 → ℝ) × Matrix (Fin 2) (Fin 2) ℝ) (x0s : Fin n → Fin 2 → ℝ) (xss : List (Fin n → Fin 2 → ℝ)) (yss : List (Fin n → Fin 1 → ℝ)) :
    Option (List (Matrix (Fin 2) (Fin 2) ℝ)) :=
  (posteriorCramerRao (x0s :: xss) yss (crJ0 B mx comps x0s) (crLogT B mAndCov) crLogL).map fun js => js.map fun j => j⁻¹

end Mfs.Pcrlb

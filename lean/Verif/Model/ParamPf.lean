import Verif.Model.Prng
import Verif.Model.FilterJvp

/-!
# Model of the objective of `dardel/parameter_estimation/pf.py`
-/

namespace Mfs.Prng

open Mfs.SsModels Mfs.Jvp

variable {K : Type}

/-- `obj_func` with the option `--euler`, `/repo/dardel/parameter_estimation/pf.py:38-67`, with the particles `proposal_sampler` of lines 57-59;
`cr` is the option `--cr`, `eps` the tolerance of `jnp.interp`. The components are those of `init_cond` in `well_poisson`. -/
noncomputable def objWellPf {n : ℕ} [NeZero n] (G : Gen K) (ss : List ℝ → ℝ → ℕ) (eps : ℝ) (cr : Bool) (ys : List ℕ) (key : K) (params : ℝ × ℝ) : ℝ :=
  (bootstrapFilter G (n := n) (scriptTransition G (fun x => x + wellDrift x (softplus params.1) * dt1) fun x => dispersion1 x ^ 2 * dt1)
    (fun y s i => wellPmf y (s i) (softplus params.2)) ys (sampler1 G ss [⟨-0.5, 0.05, 0.5⟩, ⟨0.5, 0.05, 0.5⟩]) key
    (if cr then Smc.resampleConti eps fun k => G.uniform k n else Smc.resampleIdx (systematicOrStratified G ss false))).2

end Mfs.Prng

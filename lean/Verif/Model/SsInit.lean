import Verif.Model.SsModels
import Verif.Model.Moments1
import Verif.Model.MomentsND

/-!
# Constants of the state-space models: initial conditions, noise and step sizes
-/

namespace Mfs.SsModels

open Matrix

/-- `init_cond` of `benes_bernoulli` and of `well_poisson`, `/repo/mfs/one_dim/ss_models.py:32-35,66-69`. -/
noncomputable def init1 (N : ℕ) : Moments1.GaussianSum1D := Moments1.GaussianSum1D.new [⟨-0.5, 0.05, 0.5⟩, ⟨0.5, 0.05, 0.5⟩] N

/-- `dt` of `benes_bernoulli` and of `well_poisson`, `/repo/mfs/one_dim/ss_models.py:28,62`. -/
noncomputable def dt1 : ℝ := 1e-2

/-- `dispersion` of `benes_bernoulli` and of `well_poisson`, `/repo/mfs/one_dim/ss_models.py:40-41,77-78`. -/
noncomputable def dispersion1 (_ : ℝ) : ℝ := 1

/-- a measurement of `benes_bernoulli` as returned by `jax.random.bernoulli`, a Boolean, in `measurement_cond_pmf`,
`/repo/mfs/one_dim/ss_models.py:46-47`. -/
noncomputable def benesBool (y : Bool) (x : ℝ) : ℝ := benesPmf (if y then 1 else 0) x

end Mfs.SsModels

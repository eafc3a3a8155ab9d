import Verif.Model.Utils
import Verif.Model.Tme
import Verif.Model.SsInit
import Verif.Model.Prng

/-!
# Model of `simulate_trajectory` of the one-dimensional state-space models
-/

namespace Mfs.SsModels

open Matrix Mfs.Utils

/-- `simulate_sde(m_and_cov, x0, dt, T, key, False, integration_steps)[:, 0]` for a scalar state, `/repo/mfs/utils.py:190-249`: `m` and `v` are the conditional mean and
variance, and `incs` the array of normal increments. -/
noncomputable def trajectory1 (B : Backend) (m v : ℝ → ℝ → ℝ) (x0 dt : ℝ) (incs : List (List ℝ)) (integrationSteps : ℕ) : List ℝ :=
  (simulateSde B (fun x h => ((fun _ => m (x 0) h : Fin 1 → ℝ), Matrix.of fun _ _ => v (x 0) h)) (fun _ => x0) dt (incs.map (·.map fun z _ => z)) false
    integrationSteps).map (· 0)

/-- `simulate_trajectory` of `benes_bernoulli`, `/repo/mfs/one_dim/ss_models.py:49-54`, where `dt` is 0.01, `order` 3 and `integration_steps` 100. -/
noncomputable def benesTrajectory (B : Backend) (x0 dt : ℝ) (order : ℕ) (incs : List (List ℝ)) (integrationSteps : ℕ) : List ℝ :=
  trajectory1 B (fun x h => (Tme.meanCov benesDrift dispersion1 h order x).1) (fun x h => (Tme.meanCov benesDrift dispersion1 h order x).2) x0 dt incs integrationSteps

/-- `simulate_trajectory(x0, key)` of `benes_bernoulli`, `/repo/mfs/one_dim/ss_models.py:49-54`, with its key. -/
noncomputable def benesTrajectoryKey {K : Type} (G : Prng.Gen K) (B : Backend) (x0 dt : ℝ) (order T : ℕ) (key : K) (integrationSteps : ℕ) : List ℝ :=
  (Prng.simulateSde G B (fun x h => ((fun _ => (Tme.meanCov benesDrift dispersion1 h order (x 0)).1 : Fin 1 → ℝ),
    Matrix.of fun _ _ => (Tme.meanCov benesDrift dispersion1 h order (x 0)).2)) (fun _ => x0) dt T key false integrationSteps).map (· 0)

end Mfs.SsModels

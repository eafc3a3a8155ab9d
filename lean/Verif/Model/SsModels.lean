import Mathlib.Analysis.SpecialFunctions.Log.Basic
import Mathlib.Analysis.SpecialFunctions.Trigonometric.Basic
import Mathlib.Analysis.SpecialFunctions.Trigonometric.DerivHyp
import Mathlib.Data.Nat.Factorial.Basic
import Mathlib.Data.Fin.VecNotation

/-!
# Model of the state-space models in `mfs/one_dim/ss_models.py` and `mfs/multi_dims/ss_models.py`

Only the drift, dispersion, emission and measurement functions are modelled; the initial Gaussian sums are those of C47 and C66.
-/

namespace Mfs.SsModels

/-- `jax.scipy.stats.bernoulli.pmf(y, p)`. -/
noncomputable def bernoulliPmf (y : ℤ) (p : ℝ) : ℝ := if y = 0 then 1 - p else if y = 1 then p else 0

/-- `jax.scipy.stats.poisson.pmf(y, mu)`. -/
noncomputable def poissonPmf (y : ℕ) (mu : ℝ) : ℝ := Real.exp (y * Real.log mu - mu - Real.log (y.factorial : ℝ))

/-- `benes_bernoulli`, `drift`, `/repo/mfs/one_dim/ss_models.py:37-38`. -/
noncomputable def benesDrift (x : ℝ) : ℝ := Real.tanh x

/-- `benes_bernoulli`, `logistic`, `/repo/mfs/one_dim/ss_models.py:43-44`. -/
noncomputable def logistic (x : ℝ) : ℝ := 1 / (1 + Real.exp (-x ^ 3 / 5))

/-- `benes_bernoulli`, `measurement_cond_pmf`, `/repo/mfs/one_dim/ss_models.py:46-47`. -/
noncomputable def benesPmf (y : ℤ) (x : ℝ) : ℝ := bernoulliPmf y (logistic x)

/-- `well_poisson`, `drift`, `/repo/mfs/one_dim/ss_models.py:71-72`. -/
noncomputable def wellDrift (x p : ℝ) : ℝ := x * (1 - p * x ^ 2)

/-- `well_poisson`, `emission`, `/repo/mfs/one_dim/ss_models.py:80-81`. -/
noncomputable def wellEmission (x p : ℝ) : ℝ := Real.log (1 + Real.exp (p * x))

/-- `well_poisson`, `measurement_cond_pmf`, `/repo/mfs/one_dim/ss_models.py:83-84`. -/
noncomputable def wellPmf (y : ℕ) (x p : ℝ) : ℝ := poissonPmf y (wellEmission x p)

/-- `prey_predator`, `drift`, `/repo/mfs/multi_dims/ss_models.py:57-58`, with the constants of line 45 as arguments. -/
noncomputable def preyDrift (alp beta delta gamma : ℝ) (x : Fin 2 → ℝ) : Fin 2 → ℝ := fun i =>
  x i * (x (1 - i) * ![-beta, delta] i + ![alp, -gamma] i)

/-- `prey_predator`, `dispersion`, `/repo/mfs/multi_dims/ss_models.py:60-61`. -/
noncomputable def preyDispersion (sigma : ℝ) (x : Fin 2 → ℝ) : Fin 2 → Fin 2 → ℝ := fun i j => if i = j then sigma * x i else 0

/-- `prey_predator`, `emission`, `/repo/mfs/multi_dims/ss_models.py:63-64`. -/
noncomputable def preyEmission (x : ℝ) : ℝ := 1 / (1 + Real.exp (-x ^ 3 + 1))

/-- `prey_predator`, `measurement_cond_pmf`, `/repo/mfs/multi_dims/ss_models.py:66-67`. -/
noncomputable def preyPmf (y : ℤ) (x : Fin 2 → ℝ) : ℝ := bernoulliPmf y (preyEmission (x 0))

/-- `prey_predator`, `integration_milstein`, `/repo/mfs/multi_dims/ss_models.py:76-81`. -/
noncomputable def preyMilstein (alp beta delta gamma sigma ddt : ℝ) (x ddw : Fin 2 → ℝ) : Fin 2 → ℝ := fun i =>
  x i + preyDrift alp beta delta gamma x i * ddt + sigma * x i * ddw i + 0.5 * sigma ^ 2 * x i * (ddw i ^ 2 - ddt)

/-- `satellite_orbital_stability`, `drift`, `/repo/mfs/multi_dims/ss_models.py:29-31`. -/
noncomputable def satelliteDrift (b c : ℝ) (x : Fin 2 → ℝ) : Fin 2 → ℝ :=
  ![x 1, -b * x 1 - Real.sin (x 0) - c * Real.sin (2 * x 0)]

/-- `satellite_orbital_stability`, `dispersion`, `/repo/mfs/multi_dims/ss_models.py:33-35`. -/
noncomputable def satelliteDispersion (a b : ℝ) (x : Fin 2 → ℝ) : Fin 2 → Fin 2 → ℝ :=
  ![![0, 0], ![0, -a * b * x 1 - b * Real.sin (x 0)]]

end Mfs.SsModels

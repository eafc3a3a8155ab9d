import Verif.Model.Gaussian
import Verif.Model.Tme
import Verif.Model.SsInit

/-!
# Model of the functions that `dardel/benes_bernoulli/ghf.py` hands to the Gaussian filters

`dardel/time_profile/ghf.py` uses the same functions. Arrays of shape `(1, )` and `(1, 1)` are functions on `Fin 1`.
-/

namespace Mfs.Experiments

open Matrix Mfs.Classical Mfs.SsModels

/-- `state_cond_m_cov`, `/repo/dardel/benes_bernoulli/ghf.py:31-32`. -/
noncomputable def ghfState (order : ℕ) (x : Fin 1 → ℝ) (dt : ℝ) : Belief 1 :=
  let r := Tme.meanCov benesDrift dispersion1 dt order (x 0)
  (fun _ => r.1, Matrix.of fun _ _ => r.2)

/-- `measurement_cond_m_cov`, `/repo/dardel/benes_bernoulli/ghf.py:35-37`. -/
noncomputable def ghfMeas (x : Fin 1 → ℝ) : (Fin 1 → ℝ) × Matrix (Fin 1) (Fin 1) ℝ :=
  let p := logistic (x 0)
  (fun _ => p, Matrix.of fun _ _ => p * (1 - p))

/-- the measurements `_ys[:, None]` handed to the filters, `/repo/dardel/benes_bernoulli/ghf.py:48,69`; `True` is `1`. -/
def ghfYs (ys : List Bool) : List (Fin 1 → ℝ) := ys.map fun y _ => if y then 1 else 0

end Mfs.Experiments

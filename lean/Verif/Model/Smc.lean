import Verif.Model.Scan
import Verif.Model.Resampling
import Mathlib.Data.Fintype.BigOperators
import Mathlib.Data.Fin.Basic

/-!
# Model of `mfs/classical_filters_smoothers/smc.py`

A particle cloud is a function `Fin n → X` with `n = nsamples` non-zero. Keys are an arbitrary type; `splitFst key` is
`jax.random.split(key)[0]` and `splitN key T` is `jax.random.split(key, num=T)`, both arbitrary functions.
-/

namespace Mfs.Smc

variable {X Y K : Type} {n : ℕ} [NeZero n]

/-- `samples[idx, ...]`: JAX clamps indices that are too large. -/
def gather (samples : Fin n → X) (idx : Fin n → ℕ) : Fin n → X := fun j => samples (Fin.ofNat n (min (idx j) (n - 1)))

/-- `samples[resampling(weights, _key), ...]`, `/repo/mfs/classical_filters_smoothers/smc.py:76` and `:136`. -/
def resampleIdx (resampling : (Fin n → ℝ) → K → Fin n → ℕ) (samples : Fin n → X) (weights : Fin n → ℝ) (key : K) : Fin n → X :=
  gather samples (resampling weights key)

/-- `continuous_resampling(samples, weights, nsamples, _key)`, `/repo/mfs/classical_filters_smoothers/smc.py:74`; `draw key` are the
uniform draws. -/
noncomputable def resampleConti (eps : ℝ) (draw : K → ℕ → ℝ) (samples weights : Fin n → ℝ) (key : K) : Fin n → ℝ := fun j =>
  (Resampling.continuousResampling eps (List.ofFn samples) (List.ofFn weights) n (draw key)).getD j 0

/-- the scan body, `/repo/mfs/classical_filters_smoothers/smc.py:62-78`; `resample` is `resampleIdx` or `resampleConti`. -/
noncomputable def bootstrapBody (transition : (Fin n → X) → K → Fin n → X) (pdf : Y → (Fin n → X) → Fin n → ℝ)
    (resample : (Fin n → X) → (Fin n → ℝ) → K → Fin n → X) (splitFst : K → K) (carry : (Fin n → X) × ℝ) (elem : Y × K) :
    ((Fin n → X) × ℝ) × (Fin n → X) :=
  let samples := transition carry.1 elem.2
  let weights := pdf elem.1 samples
  let nell := carry.2 - Real.log ((∑ i, weights i) / n)
  let weights := fun i => weights i / ∑ i, weights i
  let samples := resample samples weights (splitFst elem.2)
  ((samples, nell), samples)

/-- `bootstrap_filter`, `/repo/mfs/classical_filters_smoothers/smc.py:26-84`. -/
noncomputable def bootstrapFilter (transition : (Fin n → X) → K → Fin n → X) (pdf : Y → (Fin n → X) → Fin n → ℝ) (ys : List Y)
    (init : K → Fin n → X) (key : K) (resample : (Fin n → X) → (Fin n → ℝ) → K → Fin n → X) (splitFst : K → K)
    (splitN : K → ℕ → List K) : List (Fin n → X) × ℝ :=
  let r := scan (bootstrapBody transition pdf resample splitFst) (init key, 0) (ys.zip (splitN key ys.length))
  (r.2, r.1.2)

/-- the scan body, `/repo/mfs/classical_filters_smoothers/smc.py:126-137`. -/
noncomputable def particleBody (proposal : (Fin n → X) → Y → K → Fin n → X) (proposalDensity : (Fin n → X) → (Fin n → X) → Y → Fin n → ℝ)
    (transitionDensity : (Fin n → X) → (Fin n → X) → Fin n → ℝ) (pdf : Y → (Fin n → X) → Fin n → ℝ)
    (resampling : (Fin n → ℝ) → K → Fin n → ℕ) (splitFst : K → K) (ancestors : Fin n → X) (elem : Y × K) :
    (Fin n → X) × (Fin n → X) :=
  let samples := proposal ancestors elem.1 elem.2
  let weights := fun i => pdf elem.1 samples i * transitionDensity samples ancestors i / proposalDensity samples ancestors elem.1 i
  let weights := fun i => weights i / ∑ i, weights i
  let samples := gather samples (resampling weights (splitFst elem.2))
  (samples, samples)

/-- `particle_filter`, `/repo/mfs/classical_filters_smoothers/smc.py:87-141`. -/
noncomputable def particleFilter (proposal : (Fin n → X) → Y → K → Fin n → X)
    (proposalDensity : (Fin n → X) → (Fin n → X) → Y → Fin n → ℝ)
    (transitionDensity : (Fin n → X) → (Fin n → X) → Fin n → ℝ) (pdf : Y → (Fin n → X) → Fin n → ℝ) (ys : List Y)
    (init : K → Fin n → X) (key : K) (resampling : (Fin n → ℝ) → K → Fin n → ℕ) (splitFst : K → K)
    (splitN : K → ℕ → List K) : List (Fin n → X) :=
  (scan (particleBody proposal proposalDensity transitionDensity pdf resampling splitFst) (init key)
    (ys.zip (splitN key ys.length))).2

end Mfs.Smc

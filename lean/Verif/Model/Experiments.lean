import Verif.Model.Scan
import Verif.Model.Backend
import Verif.Model.Moments1
import Verif.Model.Smc
import Verif.Model.Extract
import Mathlib.Analysis.SpecialFunctions.Exp
import Mathlib.Analysis.SpecialFunctions.Log.Basic
import Mathlib.Analysis.Complex.Basic

/-!
# The formulas of the experiment scripts

The scripts under `/repo/dardel` and `/repo/examples` call the library; this file models the formulas that they contain
themselves. Constants such as `ell`, `sigma`, `dt` are parameters. `convergence_mf.py` and `convergence_pf.py` contain the same
model and the same Kalman filter; line numbers refer to `convergence_pf.py` unless said otherwise.
-/

namespace Mfs.Experiments

open Matrix

/-- `F`, `/repo/dardel/convergence/convergence_pf.py:49`. -/
noncomputable def ouF (ell dt : ℝ) : ℝ := Real.exp (-dt / ell)

/-- `Sigma`, `/repo/dardel/convergence/convergence_pf.py:49`. -/
noncomputable def ouSigma (ell sigma dt : ℝ) : ℝ := sigma ^ 2 * (1 - Real.exp (-2 * dt / ell))

/-- `drift`, `/repo/dardel/convergence/convergence_pf.py:40-41`. -/
noncomputable def ouDrift (ell x : ℝ) : ℝ := -1 / ell * x

/-- `dispersion`, `/repo/dardel/convergence/convergence_pf.py:44-45`. -/
noncomputable def ouDispersion (ell sigma : ℝ) : ℝ := Real.sqrt 2 * sigma / Real.sqrt ell

/-- `jnp.linspace(a, b, n)`. -/
noncomputable def linspace (a b : ℝ) (n : ℕ) : Fin n → ℝ := fun i => a + i * ((b - a) / (n - 1))

/-- `matern12`, `/repo/dardel/convergence/convergence_pf.py:52-53`. -/
noncomputable def matern12 {T T' : ℕ} (ell sigma : ℝ) (t1 : Fin T → ℝ) (t2 : Fin T' → ℝ) : Matrix (Fin T') (Fin T) ℝ :=
  Matrix.of fun i j => Real.exp (-|t1 j - t2 i| / ell) * sigma ^ 2

/-- the simulated states `xs` as a function of the standard normal draws,
`/repo/dardel/convergence/convergence_pf.py:32,121`. -/
noncomputable def ouSimulate (B : Backend) (ell sigma dt : ℝ) {T : ℕ} (z : Fin T → ℝ) : Fin T → ℝ :=
  let ts := linspace dt (dt * T) T
  B.chol (symmetrize (matern12 ell sigma ts ts)) *ᵥ z

/-- `jax.scipy.stats.norm.logpdf(x, loc, scale)`. -/
noncomputable def normLogpdf (x loc scale : ℝ) : ℝ := -(Real.log (2 * Real.pi * scale ^ 2) + (x - loc) ^ 2 / scale ^ 2) / 2

/-- `jax.scipy.stats.norm.pdf(x, loc, scale)`. -/
noncomputable def normPdf (x loc scale : ℝ) : ℝ := Real.exp (normLogpdf x loc scale)

/-- `scan_body` of the script's Kalman filter, `/repo/dardel/convergence/convergence_pf.py:63-75`. -/
noncomputable def kfBody (F Sigma R : ℝ) (carry : ℝ × ℝ × ℝ) (y : ℝ) : (ℝ × ℝ × ℝ) × (ℝ × ℝ) :=
  let mp := F * carry.1
  let vp := F * carry.2.1 * F + Sigma
  let s := vp + R
  let k := vp / s
  let mf := mp + k * (y - mp)
  let vf := vp - vp * k
  ((mf, vf, carry.2.2 - normLogpdf y mp (Real.sqrt s)), (mf, vf))

/-- the script's Kalman filter: filtering means and variances, and the final negative log-likelihood,
`/repo/dardel/convergence/convergence_pf.py:62-78`. -/
noncomputable def kf (F Sigma R mean0 var0 : ℝ) (ys : List ℝ) : List (ℝ × ℝ) × ℝ :=
  let r := scan (kfBody F Sigma R) (mean0, var0, 0) ys
  (r.2, r.1.2.2)

/-- `errs_kls`, `/repo/dardel/convergence/convergence_pf.py:135-136` and `convergence_mf.py:164-165`. -/
noncomputable def errKl (m v trueM trueV : ℝ) : ℝ :=
  0.5 * (Real.exp (Real.log v - Real.log trueV) - 1 + (trueM - m) ^ 2 / trueV + Real.log trueV - Real.log v)

/-- `K`, `m` and `cov` of the proposal, `/repo/dardel/convergence/convergence_pf.py:84-85,90-91`. -/
noncomputable def proposalMeanVar (F Sigma R ancestor y : ℝ) : ℝ × ℝ :=
  let K := Sigma / (Sigma + R)
  (F * ancestor + K * (y - F * ancestor), Sigma - K * Sigma)

/-- `proposal_sampler`, `/repo/dardel/convergence/convergence_pf.py:81-86`; `draw` is `jax.random.normal`. -/
noncomputable def proposalSampler {n : ℕ} {κ : Type} (F Sigma R : ℝ) (draw : κ → Fin n → ℝ) (ancestors : Fin n → ℝ) (y : ℝ) (key : κ) :
    Fin n → ℝ := fun i =>
  (proposalMeanVar F Sigma R (ancestors i) y).1 + Real.sqrt (proposalMeanVar F Sigma R (ancestors i) y).2 * draw key i

/-- `proposal_density`, `/repo/dardel/convergence/convergence_pf.py:89-92`. -/
noncomputable def proposalDensity {n : ℕ} (F Sigma R : ℝ) (x ancestors : Fin n → ℝ) (y : ℝ) : Fin n → ℝ := fun i =>
  normPdf (x i) (proposalMeanVar F Sigma R (ancestors i) y).1 (Real.sqrt (proposalMeanVar F Sigma R (ancestors i) y).2)

/-- `transition_density`, `/repo/dardel/convergence/convergence_pf.py:95-96`. -/
noncomputable def transitionDensity {n : ℕ} (F Sigma : ℝ) (x ancestors : Fin n → ℝ) : Fin n → ℝ := fun i =>
  normPdf (x i) (F * ancestors i) (Real.sqrt Sigma)

/-- `measurement_cond_pdf`, `/repo/dardel/convergence/convergence_pf.py:56-59`. -/
noncomputable def measurementPdf {n : ℕ} (R : ℝ) (y : ℝ) (x : Fin n → ℝ) : Fin n → ℝ := fun i => normPdf y (x i) (Real.sqrt R)

/-- the map from unconstrained to positive parameters, `/repo/dardel/parameter_estimation/mf.py:39,73`
(also in `ghf_ekf.py:41,94,103` and `pf.py:41,86`). -/
noncomputable def positive (p : ℝ) : ℝ := Real.log (Real.exp p + 1)

/-- `init_params`, `/repo/dardel/parameter_estimation/mf.py:70`. -/
noncomputable def unconstrained (p : ℝ) : ℝ := Real.log (Real.exp p - 1)

/-- the two estimates written by `/repo/dardel/parameter_estimation/ghf_ekf.py:90-107`, the first to `gh_….npz`, the second to
`ekf….npz`. `minimise f x` is the optimiser started at `x`. -/
noncomputable def estimate {P : Type} (minimise : (P → ℝ) → P → P) (_objGhf objEkf : P → ℝ) (pos : P → P) (init : P) : P × P :=
  (pos (minimise objEkf init), pos (minimise objEkf init))

/-- `ghf_filtering_cfs`, `/repo/dardel/benes_bernoulli/compute_errs.py:54-55`. -/
noncomputable def ghfCf (z m v : ℝ) : ℂ := Complex.exp (1 * Complex.I * z * m - 0.5 * z ^ 2 * v)

/-- `pf_filtering_cfs`, `/repo/dardel/benes_bernoulli/pf.py:70-71`. -/
noncomputable def pfCf {n : ℕ} (z : ℝ) (samples : Fin n → ℝ) : ℂ := (∑ i, Complex.exp (1 * Complex.I * z * samples i)) / n

/-- `np.trapz(y, x)`. -/
noncomputable def trapz {m : ℕ} (y x : Fin (m + 1) → ℝ) : ℝ :=
  ∑ i : Fin m, (x i.succ - x i.castSucc) * (y i.succ + y i.castSucc) / 2

/-- `*_l1`, `/repo/dardel/benes_bernoulli/compute_errs.py:103,107,111`. -/
noncomputable def errL1 {m : ℕ} (zs : Fin (m + 1) → ℝ) (f g : Fin (m + 1) → ℂ) : ℝ := trapz (fun i => ‖f i - g i‖) zs

/-- `*_l2`, `/repo/dardel/benes_bernoulli/compute_errs.py:104,108,112`. -/
noncomputable def errL2 {m : ℕ} (zs : Fin (m + 1) → ℝ) (f g : Fin (m + 1) → ℂ) : ℝ :=
  Real.sqrt (trapz (fun i => ‖f i - g i‖ ^ 2) zs)

/-- `*_sup`, `/repo/dardel/benes_bernoulli/compute_errs.py:105,109,113`. -/
noncomputable def errSup {m : ℕ} (f g : Fin (m + 1) → ℂ) : ℝ := Finset.univ.sup' Finset.univ_nonempty fun i => ‖f i - g i‖

/-- `state_cond_raw_moments_euler_maruyama` of `/repo/examples/benes_bernoulli.ipynb` (cell 6): the conditional variance is
`dispersion(x) ** 2`. -/
noncomputable def notebookEuler (drift dispersion : ℝ → ℝ) (dt : ℝ) (N : ℕ) (x : ℝ) (n : ℕ) : ℝ :=
  jget ((List.range (2 * N)).map fun p => Moments1.rawMomentOfNormal (x + drift x * dt) (dispersion x ^ 2) p) n

/-- `mf_filtering_means[k]`, `mf_filtering_cfs[k]`, mode `raw`, `/repo/dardel/benes_bernoulli/post_processing_mf.py:47-50`. -/
noncomputable def postRaw (B : Backend) {m : ℕ} (zs : Fin m → ℝ) (rmss : List (List ℝ)) : List (ℝ × (Fin m → ℂ)) :=
  rmss.map fun rms => (jget rms 1, fun i => Moments1.characteristicFn B (zs i) rms)

/-- the same, mode `central`, `/repo/dardel/benes_bernoulli/post_processing_mf.py:52-55`. -/
noncomputable def postCentral (B : Backend) {m : ℕ} (zs : Fin m → ℝ) (out : List (List ℝ × ℝ)) : List (ℝ × (Fin m → ℂ)) :=
  out.map fun o => (o.2, fun i => Moments1.characteristicFn B (zs i) o.1 o.2)

/-- the same, mode `scaled`, `/repo/dardel/benes_bernoulli/post_processing_mf.py:57-60`. -/
noncomputable def postScaled (B : Backend) {m : ℕ} (zs : Fin m → ℝ) (out : List (List ℝ × ℝ × ℝ)) : List (ℝ × (Fin m → ℂ)) :=
  out.map fun o => (o.2.1, fun i => Moments1.characteristicFn B (zs i) o.1 o.2.1 o.2.2)

/-- `means` of one step in mode `raw`, `/repo/dardel/prey_predator/mf.py:84-86`. -/
def preyMeansRaw (rms : List ℝ) : Option (List ℝ) := do
  let a ← MultiIndex.npGet rms 2
  let b ← MultiIndex.npGet rms 1
  return [a, b]

end Mfs.Experiments

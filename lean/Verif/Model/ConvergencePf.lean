import Verif.Model.Prng
import Verif.Model.Experiments
import Mathlib.Analysis.SpecialFunctions.Log.ERealExp
import Mathlib.Analysis.SpecialFunctions.Log.ENNRealLog

/-!
# The script `/repo/dardel/convergence/convergence_pf.py` from its key

The trailing axis of length one of the particles is dropped.
-/

namespace Mfs.Prng

open Mfs.Experiments

variable {K : Type}

/-- `init_sampler`, `/repo/dardel/convergence/convergence_pf.py:99-100`. -/
noncomputable def pfInit (G : Gen K) (mean0 var0 : ℝ) {n : ℕ} (key : K) : Fin n → ℝ := fun i => mean0 + Real.sqrt var0 * G.normal key n i

/-- `samples`, `/repo/dardel/convergence/convergence_pf.py:106-111`: the particles at all times. -/
noncomputable def pfSamples (G : Gen K) (ss : List ℝ → ℝ → ℕ) (F Sigma R mean0 var0 : ℝ) (n : ℕ) [NeZero n] (ys : List ℝ) (key : K) :
    List (Fin n → ℝ) :=
  Smc.particleFilter (proposalSampler F Sigma R fun k i => G.normal k n i) (proposalDensity F Sigma R) (transitionDensity F Sigma)
    (measurementPdf R) ys (pfInit G mean0 var0) key (systematicOrStratified G ss false) G.fst G.split

/-- `jnp.mean(samples, axis=1)` and `jnp.var(samples, axis=1)` at one time. -/
noncomputable def sampleMeanVar {n : ℕ} (s : Fin n → ℝ) : ℝ × ℝ :=
  let m := (∑ i, s i) / n
  (m, (∑ i, (s i - m) ^ 2) / n)

/-- `pf`, `/repo/dardel/convergence/convergence_pf.py:104-112`: means and variances. -/
noncomputable def pf (G : Gen K) (ss : List ℝ → ℝ → ℕ) (F Sigma R mean0 var0 : ℝ) (n : ℕ) [NeZero n] (ys : List ℝ) (key : K) : List (ℝ × ℝ) :=
  (pfSamples G ss F Sigma R mean0 var0 n ys key).map sampleMeanVar

/-- `ys`, `/repo/dardel/convergence/convergence_pf.py:116,121-122`. -/
noncomputable def pfData (G : Gen K) (B : Backend) (ell sigma dt R : ℝ) (T : ℕ) (key : K) : List ℝ :=
  let keyXs := G.key key 2 0
  let keyYs := G.key key 2 1
  let xs := ouSimulate B ell sigma dt fun i : Fin T => G.normal keyXs T i
  List.ofFn fun i => xs i + Real.sqrt R * G.normal keyYs T i

/-- `errs_means`, `errs_variances` and `errs_kls` for given measurements, `/repo/dardel/convergence/convergence_pf.py:125,129,132-136`. -/
noncomputable def pfErrors (G : Gen K) (ss : List ℝ → ℝ → ℕ) (F Sigma R mean0 var0 : ℝ) (n : ℕ) [NeZero n] (ys : List ℝ) (keyPf : K) :
    List (ℝ × ℝ × ℝ) :=
  List.zipWith (fun o tm => (|o.1 - tm.1|, |o.2 - tm.2|, errKl o.1 o.2 tm.1 tm.2)) (pf G ss F Sigma R mean0 var0 n ys keyPf)
    (kf F Sigma R mean0 var0 ys).1

/-- the script, `/repo/dardel/convergence/convergence_pf.py:115-136`, from its key. -/
noncomputable def pfScript (G : Gen K) (ss : List ℝ → ℝ → ℕ) (B : Backend) (ell sigma dt R mean0 var0 : ℝ) (n : ℕ) [NeZero n] (T : ℕ) (key : K) :
    List (ℝ × ℝ × ℝ) :=
  let keyYs := G.key key 2 1
  let ys := pfData G B ell sigma dt R T key
  let keyPf := G.fst keyYs
  pfErrors G ss (ouF ell dt) (ouSigma ell sigma dt) R mean0 var0 n ys keyPf

/-- `errs_kls` as floating point computes it when a variance is zero (`log 0 = -inf`, `exp (-inf) = 0`), `/repo/dardel/convergence/convergence_pf.py:135-136`;
`v` is not negative. Rounding is not modelled. -/
noncomputable def errKlIeee (m v trueM trueV : ℝ) : EReal :=
  let log := fun x : ℝ => ENNReal.log (ENNReal.ofReal x)
  ((0.5 : ℝ) : EReal) * ((EReal.exp (log v - log trueV) : EReal) - 1 + ((trueM - m) ^ 2 / trueV : ℝ) + log trueV - log v)

/-- `errs_kls` for given measurements. -/
noncomputable def pfKls (G : Gen K) (ss : List ℝ → ℝ → ℕ) (F Sigma R mean0 var0 : ℝ) (n : ℕ) [NeZero n] (ys : List ℝ) (keyPf : K) : List EReal :=
  List.zipWith (fun o tm => errKlIeee o.1 o.2 tm.1 tm.2) (pf G ss F Sigma R mean0 var0 n ys keyPf) (kf F Sigma R mean0 var0 ys).1

/-- `errs_kls` of the script, `/repo/dardel/convergence/convergence_pf.py:115-136`, from its key. -/
noncomputable def pfScriptKls (G : Gen K) (ss : List ℝ → ℝ → ℕ) (B : Backend) (ell sigma dt R mean0 var0 : ℝ) (n : ℕ) [NeZero n] (T : ℕ) (key : K) :
    List EReal :=
  pfKls G ss (ouF ell dt) (ouSigma ell sigma dt) R mean0 var0 n (pfData G B ell sigma dt R T key) (G.fst (G.key key 2 1))

/-- the sum over Monte Carlo runs (down the first axis of `errs_kls` as packed by `/repo/dardel/convergence/convergence_pf_post_processing.py:12-23`) at time `t`:
run `k` starts from the `k`-th key of `/repo/dardel/generate_rng_key.py:9-12`. -/
noncomputable def pfSumKl (G : Gen K) (ss : List ℝ → ℝ → ℕ) (B : Backend) (ell sigma dt R mean0 var0 : ℝ) (n : ℕ) [NeZero n] (T t runs maxMcs : ℕ) (main : K) :
    EReal :=
  ∑ k ∈ Finset.range runs, (pfScriptKls G ss B ell sigma dt R mean0 var0 n T (G.key main maxMcs k)).getD t 0

/-- the dotted curves of `/repo/reproduce_paper_plots/plot_convergence.py:64-71` at time `t`: `np.mean(errs_means_pf, axis=0)` and `np.mean(errs_variances_pf, axis=0)`
over the Monte Carlo runs packed by `/repo/dardel/convergence/convergence_pf_post_processing.py:12-27`. -/
noncomputable def pfCurves (G : Gen K) (ss : List ℝ → ℝ → ℕ) (B : Backend) (ell sigma dt R mean0 var0 : ℝ) (n : ℕ) [NeZero n] (T t runs maxMcs : ℕ) (main : K) :
    ℝ × ℝ :=
  let errs := fun k => (pfScript G ss B ell sigma dt R mean0 var0 n T (G.key main maxMcs k)).getD t (0, 0, 0)
  ((∑ k ∈ Finset.range runs, (errs k).1) / runs, (∑ k ∈ Finset.range runs, (errs k).2.1) / runs)

end Mfs.Prng

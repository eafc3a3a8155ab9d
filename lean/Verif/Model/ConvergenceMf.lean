import Verif.Model.Experiments
import Verif.Model.Filter1

/-!
# The moment filters of `/repo/dardel/convergence/convergence_mf.py`

`F`, `Sigma`, `R` (`measurement_noise_var`), `mean0`, `var0` are the constants of the script; the number of moments is `2 * N` (line 83).
-/

namespace Mfs.Experiments

/-- `state_cond_raw_moments`, `/repo/dardel/convergence/convergence_mf.py:86-93` (pointwise, without `vmap`). -/
noncomputable def condRaw (F Sigma : ℝ) (N : ℕ) (x : ℝ) (n : ℕ) : ℝ :=
  jget ((List.range (2 * N)).map fun p => Moments1.rawMomentOfNormal (F * x) Sigma p) n

/-- `state_cond_central_moments`, `/repo/dardel/convergence/convergence_mf.py:96-103`. -/
noncomputable def condCentral (F Sigma : ℝ) (N : ℕ) (x : ℝ) (n : ℕ) (mean : ℝ) : ℝ :=
  jget ((List.range (2 * N)).map fun p => Moments1.rawMomentOfNormal (F * x - mean) Sigma p) n

/-- `state_cond_mean`, `/repo/dardel/convergence/convergence_mf.py:106-107`. -/
def condMean (F x : ℝ) : ℝ := F * x

/-- `measurement_cond_pdf`, `/repo/dardel/convergence/convergence_mf.py:58-61`. -/
noncomputable def condPdf (R y x : ℝ) : ℝ := normPdf y x (Real.sqrt R)

/-- `rms0`, `/repo/dardel/convergence/convergence_mf.py:111`. -/
noncomputable def mfRms0 (mean0 var0 : ℝ) (N : ℕ) : List ℝ := (List.range (2 * N)).map fun p => Moments1.rawMomentOfNormal mean0 var0 p

/-- `cms0`, `/repo/dardel/convergence/convergence_mf.py:112`. -/
noncomputable def mfCms0 (df : ℤ → ℕ) (var0 : ℝ) (N : ℕ) : List ℝ := (List.range (2 * N)).map fun p => Moments1.centralMomentOfNormal df var0 p

/-- the wrapper `moment_filter_rms`, `/repo/dardel/convergence/convergence_mf.py:116-122`: means and variances. The wrapper has the
name of the library function that it means to call, which is the one modelled here. -/
noncomputable def mfRaw (B : Backend) (F Sigma R mean0 var0 : ℝ) (N : ℕ) (ys : List ℝ) : List (ℝ × ℝ) :=
  (Filter1.filterRms B (condRaw F Sigma N) (condPdf R) (mfRms0 mean0 var0 N) ys).1.map fun rms => (jget rms 1, jget rms 2 - jget rms 1 ^ 2)

/-- the wrapper `moment_filter_cms`, `/repo/dardel/convergence/convergence_mf.py:125-132`; see `mfRaw` for the name. -/
noncomputable def mfCentral (B : Backend) (df : ℤ → ℕ) (F Sigma R mean0 var0 : ℝ) (N : ℕ) (ys : List ℝ) : List (ℝ × ℝ) :=
  (Filter1.filterCms B (condCentral F Sigma N) (condMean F) (condPdf R) (mfCms0 df var0 N) mean0 ys).1.map fun o => (o.2, jget o.1 2)

end Mfs.Experiments

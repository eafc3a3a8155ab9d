import Verif.Model.Moments1
import Verif.Model.MomentsND
import Verif.Model.Backend

/-!
# Model of the densities and samplers of `GaussianSum1D` and `GaussianSumND` in `mfs/utils.py`

The random draws are arguments: `cs` are the results of `jax.random.choice(key, n_components, ..., p=weights)` and `zs` those of
`jax.random.normal`. (The code draws `cs` from `key` and `zs` from a key split off the same `key`.)
-/

namespace Mfs.GaussianSum

open Matrix

/-- `jax.scipy.stats.norm.pdf(x, loc, scale)`: the exponential of `-(log(2 π scale²) + (x - loc)² / scale²) / 2`. -/
noncomputable def normPdf (x loc scale : ℝ) : ℝ :=
  Real.exp (-(Real.log (2 * Real.pi * scale ^ 2) + (x - loc) ^ 2 / scale ^ 2) / 2)

/-- `GaussianSum1D.pdf`, `/repo/mfs/utils.py:51-53`. -/
noncomputable def pdf1 (comps : List Moments1.Component) (xs : List ℝ) : List ℝ :=
  xs.map fun x => (comps.map fun c => normPdf x c.mean (Real.sqrt c.variance) * c.weight).sum

/-- `GaussianSum1D.sampler`, `/repo/mfs/utils.py:55-58`. -/
noncomputable def sampler1 {n : ℕ} (comps : List Moments1.Component) (cs : Fin n → Fin comps.length) (zs : Fin n → ℝ) : Fin n → ℝ :=
  fun i => comps[cs i].mean + Real.sqrt comps[cs i].variance * zs i

variable {d : ℕ}

/-- `jax.scipy.stats.multivariate_normal.logpdf(x, mean, cov)`: with `L` the Cholesky factor and `y` the solution of `L y = x - mean`,
`-y·y/2 - n/2 log(2π) - Σ log L_ii`. -/
noncomputable def mvnLogpdf (B : Backend) (x mean : Fin d → ℝ) (cov : Matrix (Fin d) (Fin d) ℝ) : ℝ :=
  let L := B.chol (symmetrize cov)
  let y := (lowerPart L)⁻¹ *ᵥ (x - mean);
  -(1 / 2) * (y ⬝ᵥ y) - d / 2 * Real.log (2 * Real.pi) - ∑ i, Real.log (L i i)

/-- `GaussianSumND.pdf`, `/repo/mfs/utils.py:89-92`. -/
noncomputable def pdfND (B : Backend) (comps : List (MomentsND.Component d)) (x : Fin d → ℝ) : ℝ :=
  (comps.map fun c => Real.exp (mvnLogpdf B x c.mean c.cov) * c.weight).sum

/-- `jax.scipy.special.logsumexp(a, b=b)`: `m + log Σ b exp(a - m)` where `m` is the maximum of `a` (a parameter here: the value
does not depend on it). -/
noncomputable def logsumexp (m : ℝ) (ab : List (ℝ × ℝ)) : ℝ :=
  m + Real.log (ab.map fun p => p.2 * Real.exp (p.1 - m)).sum

/-- `GaussianSumND.logpdf`, `/repo/mfs/utils.py:94-99`; `mx` is the maximum used inside `logsumexp`. -/
noncomputable def logpdfND (B : Backend) (mx : ℝ) (comps : List (MomentsND.Component d)) (x : Fin d → ℝ) : ℝ :=
  logsumexp mx (comps.map fun c => (mvnLogpdf B x c.mean c.cov, c.weight))

/-- `GaussianSumND.sampler`, `/repo/mfs/utils.py:101-105`. -/
noncomputable def samplerND (B : Backend) {n : ℕ} (comps : List (MomentsND.Component d)) (cs : Fin n → Fin comps.length)
    (zs : Fin n → Fin d → ℝ) : Fin n → Fin d → ℝ :=
  fun i => comps[cs i].mean + B.chol (symmetrize comps[cs i].cov) *ᵥ zs i

end Mfs.GaussianSum

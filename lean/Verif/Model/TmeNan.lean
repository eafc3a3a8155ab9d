import Verif.Model.Tme
import Verif.Model.Moments1
import Verif.Model.Filter1
import Verif.Model.FilterJvp

/-!
# Conditional moments that can be NaN

`sde_cond_moments_tme_normal`, `/repo/mfs/one_dim/moments.py:182-219`, hands the variance of a truncated expansion to `raw_moment_of_normal`,
`/repo/mfs/one_dim/moments.py:70-74`, which takes the powers `variance ** ((p - m) / 2)`. The expansion can be negative, and then these powers are NaN
for odd `p - m`. In this file NaN is `none`.
-/

namespace Mfs.TmeNan

open Mfs.Quad1 Mfs.Filter1 Mfs.Moments1 Mfs.SsModels Mfs.Jvp

/-- `v ** e` for floats: NaN for a negative base and an exponent that is not an integer. -/
noncomputable def floatPow (v e : ℝ) : Option ℝ := open _root_.Classical in if v < 0 ∧ ∀ k : ℤ, e ≠ k then none else some (v ^ e)

/-- `raw_moment_of_normal`, `/repo/mfs/one_dim/moments.py:70-74`: a sum with a NaN is NaN, also if the NaN has the factor zero. -/
noncomputable def rawMoment (mean variance : ℝ) (p : ℕ) : Option ℝ :=
  ((List.range (p + 1)).mapM fun m => (floatPow variance (((p - m : ℕ) : ℝ) / 2)).map fun w =>
    (p.choose m : ℝ) * mean ^ m * w * rawMomentOfStandardNormal (p - m)).map List.sum

/-- `sde_cond_central_moments` of `sde_cond_moments_tme_normal`, `/repo/mfs/one_dim/moments.py:196-201`, for the orders the filters ask for (below `2 N`). -/
noncomputable def central (a b : ℝ → ℝ) (dt : ℝ) (order : ℕ) (x : ℝ) (n : ℕ) (mean : ℝ) : Option ℝ :=
  rawMoment ((Tme.meanCov a b dt order x).1 - mean) (Tme.meanCov a b dt order x).2 n

variable {Y : Type}

/-- `scan_body` of `moment_filter_cms`, `/repo/mfs/one_dim/filtering.py:140-158`, where the conditional moments can be NaN. A NaN at one node makes the sum
over the nodes, hence an entry of the Hankel matrix, its Cholesky factor, nodes and weights, the predictive likelihood and all that follow NaN. -/
noncomputable def cmsStep (B : Backend) (condMoments : ℝ → ℕ → ℝ → Option ℝ) (condMean : ℝ → ℝ) (pdf : Y → ℝ → ℝ) (numMoments : ℕ)
    (carry : (List ℝ × ℝ) × ℝ) (y : Y) : Option ((List ℝ × ℝ) × ℝ) :=
  let r := momentQuadrature B carry.1.1 carry.1.2 1 false false
  open _root_.Classical in
  if ∀ i, ∀ k < numMoments, (condMoments (r.2 i) k (wsum r condMean)).isSome then
    some (Filter1.cmsStep B false (fun x k m => (condMoments x k m).getD 0) condMean pdf numMoments carry y).1
  else none

/-- the negative log-likelihood of `moment_filter_cms`, `/repo/mfs/one_dim/filtering.py:92-161`. -/
noncomputable def nellCms (B : Backend) (condMoments : ℝ → ℕ → ℝ → Option ℝ) (condMean : ℝ → ℝ) (pdf : Y → ℝ → ℝ) (cms0 : List ℝ) (mean0 : ℝ) (ys : List Y) :
    Option ℝ :=
  (ys.foldlM (cmsStep B condMoments condMean pdf cms0.length) ((cms0, mean0), 0)).map fun c => c.2

/-- `obj_func` without the option `--euler`, `/repo/dardel/parameter_estimation/mf.py:37-54`; the expansion has order two. -/
noncomputable def objWell (B : Backend) (N : ℕ) (ys : List ℕ) (params : ℝ × ℝ) : Option ℝ :=
  let drift := fun x => wellDrift x (softplus params.1)
  nellCms B (central drift dispersion1 dt1 2) (Tme.expectation drift dispersion1 dt1 2 fun u => u)
    (fun y x => wellPmf y x (softplus params.2)) (init1 N).cms (init1 N).mean ys

/-- `jax.jvp` of `obj_func` at `params` in the direction `v`. The derivative rule of the power `variance ** 0.5` divides by a power of the variance, so that the
tangents are NaN when the variance at a node is not positive; else the tangents of the functions handed to the filter are their exact derivatives along the
line `params + u v` at `u = 0`. -/
noncomputable def objWellJvp (B : Backend) (N : ℕ) (ys : List ℕ) (params v : ℝ × ℝ) : Option ℝ :=
  let drift (u x : ℝ) := wellDrift x (softplus (params.1 + u * v.1))
  let F (u : ℝ) := sdeCondMomentsTmeNormal (Tme.expectation (drift u) dispersion1 dt1 2) (Tme.meanCov (drift u) dispersion1 dt1 2) N
  let pmf (u : ℝ) (y : ℕ) (x : ℝ) := wellPmf y x (softplus (params.2 + u * v.2))
  let step := Filter1.cmsStep B false (F 0).central (F 0).mean (pmf 0) (init1 N).cms.length
  let states := ((init1 N).cms, (init1 N).mean) :: (scan step (((init1 N).cms, (init1 N).mean), 0) ys).2
  open _root_.Classical in
  if ∀ s ∈ states.take ys.length, ∀ i, 0 < (Tme.meanCov (drift 0) dispersion1 dt1 2 ((momentQuadrature B s.1 s.2 1 false false).2 i)).2 then
    (filterCmsJvp B (F 0).central (fun x k m dx dm => fderiv ℝ (fun p : ℝ × ℝ × ℝ => (F p.1).central p.2.1 k p.2.2) (0, x, m) (1, dx, dm))
      (F 0).mean (fun x dx => fderiv ℝ (fun p : ℝ × ℝ => (F p.1).mean p.2) (0, x) (1, dx))
      (pmf 0) (fun y x dx => fderiv ℝ (fun p : ℝ × ℝ => pmf p.1 y p.2) (0, x) (1, dx))
      (init1 N).cms (List.replicate (init1 N).cms.length 0) (init1 N).mean 0 ys).map fun r => r.2
  else none

end Mfs.TmeNan

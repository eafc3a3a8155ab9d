import Verif.Model.Jvp
import Verif.Model.Filter1
import Verif.Model.SsInit
import Mathlib.Analysis.Calculus.FDeriv.Basic

/-!
# Forward-mode derivatives of the one-dimensional filters

Tangents of the steps of `mfs/one_dim/filtering.py` with `stable=False`, as `jax.jvp` computes them. The user's functions come with their
tangents; for instance `dP x k m dx dm` is the tangent of the conditional moment `P x k m` for tangents `dx`, `dm` of node and mean, with the
direction of differentiation of the parameters already inserted.
-/

namespace Mfs.Jvp

open Mfs.Quad1 Mfs.Filter1

variable {Y : Type}

/-- tangent of a product. -/
def mulJvp (a da b db : ℝ) : ℝ := da * b + a * db

/-- tangent of a quotient. -/
noncomputable def divJvp (a da b db : ℝ) : ℝ := da / b - db * a / b ^ 2

/-- tangent of a power with a natural exponent. -/
def powJvp (x dx : ℝ) (k : ℕ) : ℝ := dx * (k * x ^ (k - 1))

/-- tangent of a square root. -/
noncomputable def sqrtJvp (a da : ℝ) : ℝ := da * (1 / 2 / Real.sqrt a)

/-- tangent of `jnp.dot(f(nodes), weights)`. -/
noncomputable def wsumJvp {n : ℕ} (r d : (Fin n → ℝ) × (Fin n → ℝ)) (f : ℝ → ℝ) (df : ℝ → ℝ → ℝ) : ℝ :=
  ∑ i, (d.1 i * f (r.2 i) + r.1 i * df (r.2 i) (d.2 i))

/-- tangent of `scan_body` of `moment_filter_rms`, `/repo/mfs/one_dim/filtering.py:73-86`: tangents of the carry. -/
noncomputable def rmsStepJvp (B : Backend) (P : ℝ → ℕ → ℝ) (dP : ℝ → ℕ → ℝ → ℝ) (pdf : Y → ℝ → ℝ) (dpdf : Y → ℝ → ℝ → ℝ) (num : ℕ)
    (carry tan : List ℝ × ℝ) (y : Y) : Option (List ℝ × ℝ) :=
  let r := momentQuadrature B carry.1 0 1 false false
  (momentQuadratureJvp B carry.1 tan.1 0 1 0 false).bind fun d =>
    let rms := (List.range num).map fun k => wsum r fun x => P x k
    let drms := (List.range num).map fun k => wsumJvp r d (fun x => P x k) fun x dx => dP x k dx
    let r := momentQuadrature B rms 0 1 false false
    (momentQuadratureJvp B rms drms 0 1 0 false).bind fun d =>
      let pdfY := wsum r fun x => pdf y x
      let dpdfY := wsumJvp r d (fun x => pdf y x) fun x dx => dpdf y x dx
      let drms := (List.range num).map fun k => divJvp (wsum r fun x => x ^ k * pdf y x)
        (wsumJvp r d (fun x => x ^ k * pdf y x) fun x dx => mulJvp (x ^ k) (powJvp x dx k) (pdf y x) (dpdf y x dx)) pdfY dpdfY
      some (drms, tan.2 - dpdfY / pdfY)

/-- tangent of `scan_body` of `moment_filter_cms`, `/repo/mfs/one_dim/filtering.py:140-158`. -/
noncomputable def cmsStepJvp (B : Backend) (P : ℝ → ℕ → ℝ → ℝ) (dP : ℝ → ℕ → ℝ → ℝ → ℝ → ℝ) (cm : ℝ → ℝ) (dcm : ℝ → ℝ → ℝ)
    (pdf : Y → ℝ → ℝ) (dpdf : Y → ℝ → ℝ → ℝ) (num : ℕ) (carry tan : (List ℝ × ℝ) × ℝ) (y : Y) : Option ((List ℝ × ℝ) × ℝ) :=
  let r := momentQuadrature B carry.1.1 carry.1.2 1 false false
  (momentQuadratureJvp B carry.1.1 tan.1.1 tan.1.2 1 0 false).bind fun d =>
    let mean := wsum r cm
    let dmean := wsumJvp r d cm dcm
    let cms := (List.range num).map fun k => wsum r fun x => P x k mean
    let dcms := (List.range num).map fun k => wsumJvp r d (fun x => P x k mean) fun x dx => dP x k mean dx dmean
    let r := momentQuadrature B cms mean 1 false false
    (momentQuadratureJvp B cms dcms dmean 1 0 false).bind fun d =>
      let pdfY := wsum r fun x => pdf y x
      let dpdfY := wsumJvp r d (fun x => pdf y x) fun x dx => dpdf y x dx
      let mean := wsum r (fun x => (x - 0) ^ 1 * pdf y x) / pdfY
      let dmean := divJvp (wsum r fun x => (x - 0) ^ 1 * pdf y x)
        (wsumJvp r d (fun x => (x - 0) ^ 1 * pdf y x) fun x dx => mulJvp ((x - 0) ^ 1) (powJvp (x - 0) (dx - 0) 1) (pdf y x) (dpdf y x dx)) pdfY dpdfY
      let dcms := (List.range num).map fun k => divJvp (wsum r fun x => (x - mean) ^ k * pdf y x)
        (wsumJvp r d (fun x => (x - mean) ^ k * pdf y x)
          fun x dx => mulJvp ((x - mean) ^ k) (powJvp (x - mean) (dx - dmean) k) (pdf y x) (dpdf y x dx)) pdfY dpdfY
      some ((dcms, dmean), tan.2 - dpdfY / pdfY)

/-- tangent of `scan_body` of `moment_filter_scms`, `/repo/mfs/one_dim/filtering.py:217-237`. -/
noncomputable def scmsStepJvp (B : Backend) (P : ℝ → ℕ → ℝ → ℝ → ℝ) (dP : ℝ → ℕ → ℝ → ℝ → ℝ → ℝ → ℝ → ℝ) (cm cv : ℝ → ℝ) (dcm dcv : ℝ → ℝ → ℝ)
    (pdf : Y → ℝ → ℝ) (dpdf : Y → ℝ → ℝ → ℝ) (num : ℕ) (carry tan : (List ℝ × ℝ × ℝ) × ℝ) (y : Y) : Option ((List ℝ × ℝ × ℝ) × ℝ) :=
  let r := momentQuadrature B carry.1.1 carry.1.2.1 carry.1.2.2 false false
  (momentQuadratureJvp B carry.1.1 tan.1.1 tan.1.2.1 carry.1.2.2 tan.1.2.2 false).bind fun d =>
    let mean := wsum r cm
    let dmean := wsumJvp r d cm dcm
    let scale := Real.sqrt (wsum r cv)
    let dscale := sqrtJvp (wsum r cv) (wsumJvp r d cv dcv)
    let scms := (List.range num).map fun k => wsum r fun x => P x k mean scale
    let dscms := (List.range num).map fun k => wsumJvp r d (fun x => P x k mean scale) fun x dx => dP x k mean scale dx dmean dscale
    let r := momentQuadrature B scms mean scale false false
    (momentQuadratureJvp B scms dscms dmean scale dscale false).bind fun d =>
      let pdfY := wsum r fun x => pdf y x
      let dpdfY := wsumJvp r d (fun x => pdf y x) fun x dx => dpdf y x dx
      let term (m dm c dc : ℝ) (k : ℕ) : ℝ := divJvp (wsum r fun x => ((x - m) / c) ^ k * pdf y x)
        (wsumJvp r d (fun x => ((x - m) / c) ^ k * pdf y x)
          fun x dx => mulJvp (((x - m) / c) ^ k) (powJvp ((x - m) / c) (divJvp (x - m) (dx - dm) c dc) k) (pdf y x) (dpdf y x dx)) pdfY dpdfY
      let mean := wsum r (fun x => ((x - 0) / 1) ^ 1 * pdf y x) / pdfY
      let dmean := term 0 0 1 0 1
      let scale := Real.sqrt (wsum r (fun x => ((x - mean) / 1) ^ 2 * pdf y x) / pdfY)
      let dscale := sqrtJvp (wsum r (fun x => ((x - mean) / 1) ^ 2 * pdf y x) / pdfY) (term mean dmean 1 0 2)
      let dscms := (List.range num).map fun k => term mean dmean scale dscale k
      some ((dscms, dmean, dscale), tan.2 - dpdfY / pdfY)

/-- tangents through `jax.lax.scan`: tangents of the final carry and of the stacked outputs (the outputs are the first part of the carry). -/
def scanJvp {S D : Type} (step : S × ℝ → Y → (S × ℝ) × S) (stepJvp : S × ℝ → D × ℝ → Y → Option (D × ℝ)) :
    S × ℝ → D × ℝ → List Y → Option ((D × ℝ) × List D)
  | _, t, [] => some (t, [])
  | c, t, y :: ys => (stepJvp c t y).bind fun t' => (scanJvp step stepJvp (step c y).1 t' ys).map fun r => (r.1, t'.1 :: r.2)

/-- tangents of the outputs of `moment_filter_rms`, `/repo/mfs/one_dim/filtering.py:32-89`: stacked moments and negative log-likelihood. -/
noncomputable def filterRmsJvp (B : Backend) (P : ℝ → ℕ → ℝ) (dP : ℝ → ℕ → ℝ → ℝ) (pdf : Y → ℝ → ℝ) (dpdf : Y → ℝ → ℝ → ℝ)
    (rms0 drms0 : List ℝ) (ys : List Y) : Option (List (List ℝ) × ℝ) :=
  (scanJvp (rmsStep B false P pdf rms0.length) (rmsStepJvp B P dP pdf dpdf rms0.length) (rms0, 0) (drms0, 0) ys).map fun r => (r.2, r.1.2)

/-- tangents of the outputs of `moment_filter_cms`, `/repo/mfs/one_dim/filtering.py:92-161`. -/
noncomputable def filterCmsJvp (B : Backend) (P : ℝ → ℕ → ℝ → ℝ) (dP : ℝ → ℕ → ℝ → ℝ → ℝ → ℝ) (cm : ℝ → ℝ) (dcm : ℝ → ℝ → ℝ)
    (pdf : Y → ℝ → ℝ) (dpdf : Y → ℝ → ℝ → ℝ) (cms0 dcms0 : List ℝ) (mean0 dmean0 : ℝ) (ys : List Y) : Option (List (List ℝ × ℝ) × ℝ) :=
  (scanJvp (cmsStep B false P cm pdf cms0.length) (cmsStepJvp B P dP cm dcm pdf dpdf cms0.length) ((cms0, mean0), 0) ((dcms0, dmean0), 0) ys).map
    fun r => (r.2, r.1.2)

/-- tangents of the outputs of `moment_filter_scms`, `/repo/mfs/one_dim/filtering.py:164-240`. -/
noncomputable def filterScmsJvp (B : Backend) (P : ℝ → ℕ → ℝ → ℝ → ℝ) (dP : ℝ → ℕ → ℝ → ℝ → ℝ → ℝ → ℝ → ℝ) (cm cv : ℝ → ℝ) (dcm dcv : ℝ → ℝ → ℝ)
    (pdf : Y → ℝ → ℝ) (dpdf : Y → ℝ → ℝ → ℝ) (scms0 dscms0 : List ℝ) (mean0 dmean0 scale0 dscale0 : ℝ) (ys : List Y) :
    Option (List (List ℝ × ℝ × ℝ) × ℝ) :=
  (scanJvp (scmsStep B false P cm cv pdf scms0.length) (scmsStepJvp B P dP cm cv dcm dcv pdf dpdf scms0.length) ((scms0, mean0, scale0), 0)
    ((dscms0, dmean0, dscale0), 0) ys).map fun r => (r.2, r.1.2)

open Mfs.Moments1 Mfs.SsModels

/-- `params = jnp.log(jnp.exp(params) + 1.)`, `/repo/dardel/parameter_estimation/mf.py:39`. -/
noncomputable def softplus (p : ℝ) : ℝ := Real.log (Real.exp p + 1)

/-- `obj_func` with the option `--euler`, `/repo/dardel/parameter_estimation/mf.py:37-54`. -/
noncomputable def objWell (B : Backend) (N : ℕ) (ys : List ℕ) (params : ℝ × ℝ) : ℝ :=
  let F := sdeCondMomentsEuler (fun x => wellDrift x (softplus params.1)) dispersion1 dt1 N
  (filterCms B F.central F.mean (fun y x => wellPmf y x (softplus params.2)) (init1 N).cms (init1 N).mean ys).2

/-- `jax.jvp` of `obj_func` at `params` in the direction `v`; the tangents of the functions handed to the filter are their exact derivatives
along the line `params + u v` at `u = 0`. The initial moments do not depend on the parameters. -/
noncomputable def objWellJvp (B : Backend) (N : ℕ) (ys : List ℕ) (params v : ℝ × ℝ) : Option ℝ :=
  let F (u : ℝ) := sdeCondMomentsEuler (fun x => wellDrift x (softplus (params.1 + u * v.1))) dispersion1 dt1 N
  let pmf (u : ℝ) (y : ℕ) (x : ℝ) := wellPmf y x (softplus (params.2 + u * v.2))
  (filterCmsJvp B (F 0).central (fun x k m dx dm => fderiv ℝ (fun p : ℝ × ℝ × ℝ => (F p.1).central p.2.1 k p.2.2) (0, x, m) (1, dx, dm))
    (F 0).mean (fun x dx => fderiv ℝ (fun p : ℝ × ℝ => (F p.1).mean p.2) (0, x) (1, dx))
    (pmf 0) (fun y x dx => fderiv ℝ (fun p : ℝ × ℝ => pmf p.1 y p.2) (0, x) (1, dx))
    (init1 N).cms (List.replicate (init1 N).cms.length 0) (init1 N).mean 0 ys).map fun r => r.2

end Mfs.Jvp

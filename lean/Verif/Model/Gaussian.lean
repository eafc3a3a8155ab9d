import Verif.Model.Scan
import Verif.Model.Backend
import Verif.Model.SigmaPoints
import Mathlib.Analysis.SpecialFunctions.Log.Basic
import Mathlib.Analysis.Calculus.FDeriv.Basic

/-!
# Model of `mfs/classical_filters_smoothers/gfs.py`

Arrays are functions on `Fin`, floats are reals, `jax.lax.scan` is `Mfs.scan`, `jax.lax.linalg.cholesky` is a `Backend`
routine. `jax.lax.linalg.triangular_solve(a, b)` is called in this file with its defaults `left_side=False, lower=False`, so
it solves `x a = b` and reads only the upper triangle of `a`. Shape errors are `none`.
-/

namespace Mfs.Classical

open Matrix

variable {dx dy dw : ℕ}

/-- a Gaussian belief. -/
abbrev Belief (d : ℕ) := (Fin d → ℝ) × Matrix (Fin d) (Fin d) ℝ

/-- the upper triangle of a matrix, which is all that `triangular_solve(..., lower=False)` reads. -/
def upperPart {n : ℕ} (a : Matrix (Fin n) (Fin n) ℝ) : Matrix (Fin n) (Fin n) ℝ :=
  Matrix.of fun i j => if i ≤ j then a i j else 0

/-- `jax.lax.linalg.triangular_solve(a, b)` with default flags: the solution of `x upper(a) = b`. -/
noncomputable def triSolveDefault {k n : ℕ} (a : Matrix (Fin n) (Fin n) ℝ) (b : Matrix (Fin k) (Fin n) ℝ) : Matrix (Fin k) (Fin n) ℝ :=
  b * (upperPart a)⁻¹

/-- the same for a one-dimensional right-hand side, which is treated as a row. -/
noncomputable def triSolveDefaultVec {n : ℕ} (a : Matrix (Fin n) (Fin n) ℝ) (b : Fin n → ℝ) : Fin n → ℝ :=
  b ᵥ* (upperPart a)⁻¹

/-- `jax.scipy.linalg.cho_solve((chol, lower=True), b)`: forward and backward substitution with the lower triangle. -/
noncomputable def choSolve {n k : ℕ} (chol : Matrix (Fin n) (Fin n) ℝ) (b : Matrix (Fin n) (Fin k) ℝ) : Matrix (Fin n) (Fin k) ℝ :=
  ((lowerPart chol)ᵀ)⁻¹ * ((lowerPart chol)⁻¹ * b)

/-- `_log_normal_pdf`, `/repo/mfs/classical_filters_smoothers/gfs.py:45-46`; `norm.logpdf(x, loc, scale)` is
`-(x - loc)² / (2 scale²) - log(√(2π) scale)`. -/
noncomputable def logNormalPdf (x mu variance : ℝ) : ℝ :=
  -((x - mu) ^ 2 / Real.sqrt variance ^ 2 + Real.log (2 * Real.pi * Real.sqrt variance ^ 2)) / 2

/-- `_log_mvn_pdf`, `/repo/mfs/classical_filters_smoothers/gfs.py:49-51`. -/
noncomputable def logMvnPdf {n : ℕ} (x mu : Fin n → ℝ) (chol : Matrix (Fin n) (Fin n) ℝ) : ℝ :=
  let z := triSolveDefaultVec chol (x - mu);
  -0.5 * (z ⬝ᵥ z + 2 * ∑ i, Real.log (Real.sqrt (2 * Real.pi) * chol i i))

/-- `_linear_predict`, `/repo/mfs/classical_filters_smoothers/gfs.py:54-58`. -/
def linearPredict (F Sigma : Matrix (Fin dx) (Fin dx) ℝ) (b : Belief dx) : Belief dx :=
  (F *ᵥ b.1, F * b.2 * Fᵀ + Sigma)

/-- the shapes accepted by `_linear_update`: with a vector measurement `triangular_solve(chol, H @ vp)` requires that
`H @ vp` has `dy` columns. -/
def UpdateShapeOk (dx dy : ℕ) : Prop := dy = 1 ∨ dx = dy

instance : Decidable (UpdateShapeOk dx dy) := inferInstanceAs (Decidable (dy = 1 ∨ dx = dy))

/-- the gain `K` of `_linear_update`, `/repo/mfs/classical_filters_smoothers/gfs.py:73-78`. -/
noncomputable def linearGain (B : Backend) (ok : UpdateShapeOk dx dy) (vp : Matrix (Fin dx) (Fin dx) ℝ)
    (H : Matrix (Fin dy) (Fin dx) ℝ) (S : Matrix (Fin dy) (Fin dy) ℝ) : Matrix (Fin dx) (Fin dy) ℝ :=
  if h : dy = 1 then Matrix.of fun i j => (vp * Hᵀ) i j / S ⟨0, by omega⟩ ⟨0, by omega⟩
  else
    let e : dx = dy := ok.resolve_left h
    let rhs : Matrix (Fin dy) (Fin dy) ℝ := (H * vp).submatrix id (Fin.cast e.symm)
    (triSolveDefault (B.chol (symmetrize S)) rhs)ᵀ.submatrix (Fin.cast e) id

/-- the negative log-likelihood of `_linear_update`, `/repo/mfs/classical_filters_smoothers/gfs.py:75,79`. -/
noncomputable def linearNell (B : Backend) (predY : Fin dy → ℝ) (S : Matrix (Fin dy) (Fin dy) ℝ) (y : Fin dy → ℝ) : ℝ :=
  if h : dy = 1 then -logNormalPdf (y ⟨0, by omega⟩) (predY ⟨0, by omega⟩) (S ⟨0, by omega⟩ ⟨0, by omega⟩)
  else -logMvnPdf y predY (B.chol (symmetrize S))

/-- `_linear_update`, `/repo/mfs/classical_filters_smoothers/gfs.py:61-80`. -/
noncomputable def linearUpdate (B : Backend) (ok : UpdateShapeOk dx dy) (p : Belief dx) (H : Matrix (Fin dy) (Fin dx) ℝ)
    (predY : Fin dy → ℝ) (Xi : Matrix (Fin dy) (Fin dy) ℝ) (y : Fin dy → ℝ) : Belief dx × ℝ :=
  let S := H * p.2 * Hᵀ + Xi
  let K := linearGain B ok p.2 H S
  ((p.1 + K *ᵥ (y - predY), p.2 - K * S * Kᵀ), linearNell B predY S y)

/-- `_gaussian_smoother_shared`, `/repo/mfs/classical_filters_smoothers/gfs.py:83-97`. `cho_factor` returns the factor in one
triangle only and `cho_solve` reads that triangle, so the pair is a solve with `vp`. -/
noncomputable def gaussianSmootherShared (B : Backend) (DT : Matrix (Fin dx) (Fin dx) ℝ) (f p s : Belief dx) : Belief dx :=
  let G := (choSolve (B.chol p.2) DT)ᵀ
  (f.1 + G *ᵥ (s.1 - p.1), f.2 + G * (s.2 - p.2) * Gᵀ)

/-- the scan body shared by the filters: predict, update and accumulate the negative log-likelihood, e.g.
`/repo/mfs/classical_filters_smoothers/gfs.py:269-276`. -/
noncomputable def filterBody {Y : Type} (predict : Belief dx → Belief dx) (update : Belief dx → Y → Belief dx × ℝ)
    (carry : Belief dx × ℝ) (y : Y) : (Belief dx × ℝ) × (Belief dx × ℝ) :=
  let u := update (predict carry.1) y
  let c := (u.1, carry.2 + u.2)
  (c, c)

/-- `kf`, `/repo/mfs/classical_filters_smoothers/gfs.py:240-279`: filtering beliefs and accumulated negative
log-likelihoods. -/
noncomputable def kf (B : Backend) (F Sigma : Matrix (Fin dx) (Fin dx) ℝ) (H : Matrix (Fin dy) (Fin dx) ℝ)
    (Xi : Matrix (Fin dy) (Fin dy) ℝ) (m0 : Fin dx → ℝ) (v0 : Matrix (Fin dx) (Fin dx) ℝ) (ys : List (Fin dy → ℝ)) :
    Option (List (Belief dx × ℝ)) :=
  if ok : UpdateShapeOk dx dy then
    some (scan (filterBody (linearPredict F Sigma) fun p y => linearUpdate B ok p H (H *ᵥ p.1) Xi y) ((m0, v0), 0) ys).2
  else none

/-- the reverse scan of the smoothers and `_stack_smoothing_results`,
`/repo/mfs/classical_filters_smoothers/gfs.py:235-237,313-314`. `none` when there is no filtering result (`mfs[-1]` raises). -/
noncomputable def smoothWith (step : Belief dx → Belief dx → Belief dx) (fs : List (Belief dx)) : Option (List (Belief dx)) :=
  match fs.getLast? with
  | none => none
  | some last =>
    some ((scan (fun s f => let s' := step f s; (s', s')) last fs.dropLast.reverse).2.reverse ++ [last])

/-- `rts`, `/repo/mfs/classical_filters_smoothers/gfs.py:282-314`. -/
noncomputable def rts (B : Backend) (F Sigma : Matrix (Fin dx) (Fin dx) ℝ) (fs : List (Belief dx)) : Option (List (Belief dx)) :=
  smoothWith (fun f s => gaussianSmootherShared B (F * f.2) f (linearPredict F Sigma f) s) fs

/-- `jax.jacfwd(f)(x)` and `jax.jacrev(f)(x)` (the two modes return the same derivative). -/
noncomputable def jac {a b : ℕ} (f : (Fin a → ℝ) → Fin b → ℝ) (x : Fin a → ℝ) : Matrix (Fin b) (Fin a) ℝ :=
  Matrix.of fun i j => fderiv ℝ f x (Pi.single j 1) i

/-- `_ekf_update`, `/repo/mfs/classical_filters_smoothers/gfs.py:186-216`. -/
noncomputable def ekfUpdate (B : Backend) (ok : UpdateShapeOk dx dy)
    (meas : (Fin dx → ℝ) → (Fin dy → ℝ) × Matrix (Fin dy) (Fin dy) ℝ) (p : Belief dx) (y : Fin dy → ℝ) : Belief dx × ℝ :=
  linearUpdate B ok p (jac (fun u => (meas u).1) p.1) (meas p.1).1 (meas p.1).2 y

/-- the prediction of `ekf` and `eks`, `/repo/mfs/classical_filters_smoothers/gfs.py:353-355,392-394`. -/
noncomputable def ekfPredict (state : (Fin dx → ℝ) → ℝ → Belief dx) (dt : ℝ) (f : Belief dx) : Belief dx :=
  let J := jac (fun u => (state u dt).1) f.1
  ((state f.1 dt).1, J * f.2 * Jᵀ + (state f.1 dt).2)

/-- `ekf`, `/repo/mfs/classical_filters_smoothers/gfs.py:317-362`. -/
noncomputable def ekf (B : Backend) (state : (Fin dx → ℝ) → ℝ → Belief dx)
    (meas : (Fin dx → ℝ) → (Fin dy → ℝ) × Matrix (Fin dy) (Fin dy) ℝ) (m0 : Fin dx → ℝ) (v0 : Matrix (Fin dx) (Fin dx) ℝ)
    (dt : ℝ) (ys : List (Fin dy → ℝ)) : Option (List (Belief dx × ℝ)) :=
  if ok : UpdateShapeOk dx dy then
    some (scan (filterBody (ekfPredict state dt) fun p y => ekfUpdate B ok meas p y) ((m0, v0), 0) ys).2
  else none

/-- `eks`, `/repo/mfs/classical_filters_smoothers/gfs.py:365-399`. -/
noncomputable def eks (B : Backend) (state : (Fin dx → ℝ) → ℝ → Belief dx) (fs : List (Belief dx)) (dt : ℝ) :
    Option (List (Belief dx)) :=
  smoothWith (fun f s =>
    gaussianSmootherShared B (jac (fun u => (state u dt).1) f.1 * f.2) f (ekfPredict state dt f) s) fs

/-- the moment equations of `cd_ekf`, `/repo/mfs/classical_filters_smoothers/gfs.py:440-441`. -/
noncomputable def cdEkfOdes (drift : (Fin dx → ℝ) → Fin dx → ℝ) (dispersion : (Fin dx → ℝ) → Matrix (Fin dx) (Fin dw) ℝ)
    (m : Fin dx → ℝ) (v : Matrix (Fin dx) (Fin dx) ℝ) : Belief dx :=
  (drift m, v * (jac drift m)ᵀ + jac drift m * v + dispersion m * (dispersion m)ᵀ)

/-- `cd_ekf`, `/repo/mfs/classical_filters_smoothers/gfs.py:402-453`. -/
noncomputable def cdEkf (B : Backend) (drift : (Fin dx → ℝ) → Fin dx → ℝ)
    (dispersion : (Fin dx → ℝ) → Matrix (Fin dx) (Fin dw) ℝ) (meas : (Fin dx → ℝ) → (Fin dy → ℝ) × Matrix (Fin dy) (Fin dy) ℝ)
    (m0 : Fin dx → ℝ) (v0 : Matrix (Fin dx) (Fin dx) ℝ) (dt : ℝ) (ys : List (Fin dy → ℝ)) : Option (List (Belief dx × ℝ)) :=
  if ok : UpdateShapeOk dx dy then
    some (scan (filterBody (fun f => rk4MCov (cdEkfOdes drift dispersion) f.1 f.2 dt) fun p y => ekfUpdate B ok meas p y)
      ((m0, v0), 0) ys).2
  else none

/-- the backward moment equations of `cd_eks`, `/repo/mfs/classical_filters_smoothers/gfs.py:484-489`. -/
noncomputable def cdEksOdes (B : Backend) (drift : (Fin dx → ℝ) → Fin dx → ℝ)
    (dispersion : (Fin dx → ℝ) → Matrix (Fin dx) (Fin dw) ℝ)
    (m : Fin dx → ℝ) (v : Matrix (Fin dx) (Fin dx) ℝ) (mf : Fin dx → ℝ) (vf : Matrix (Fin dx) (Fin dx) ℝ) : Belief dx :=
  let gamma := dispersion m * (dispersion m)ᵀ
  let c := B.chol vf
  let A := jac drift m + (choSolve c gammaᵀ)ᵀ
  (drift m + gamma *ᵥ (fun i => choSolve c (Matrix.of fun (i : Fin dx) (_ : Fin 1) => m i - mf i) i 0), A * v + v * Aᵀ - gamma)

/-- `cd_eks`, `/repo/mfs/classical_filters_smoothers/gfs.py:456-500`. -/
noncomputable def cdEks (B : Backend) (drift : (Fin dx → ℝ) → Fin dx → ℝ)
    (dispersion : (Fin dx → ℝ) → Matrix (Fin dx) (Fin dw) ℝ) (fs : List (Belief dx)) (dt : ℝ) : Option (List (Belief dx)) :=
  smoothWith (fun f s => rk4MCovBackward (cdEksOdes B drift dispersion) s.1 s.2 f.1 f.2 (-dt)) fs

/-- `_sgp_prediction`, `/repo/mfs/classical_filters_smoothers/gfs.py:100-135`: belief, sigma points and propagated points. -/
noncomputable def sgpPrediction (B : Backend) (sgps : SigmaPoints dx) (state : (Fin dx → ℝ) → ℝ → Belief dx) (dt : ℝ)
    (f : Belief dx) : Belief dx × (Fin sgps.nPoints → Fin dx → ℝ) × (Fin sgps.nPoints → Fin dx → ℝ) :=
  let chi := sgps.genSigmaPoints f.1 (B.chol (symmetrize f.2))
  let em := fun i => (state (chi i) dt).1
  let ec := fun i => (state (chi i) dt).2
  let mp := sgps.expectation em
  ((mp, sgps.expectation (fun i => vecMulVec (em i) (em i) + ec i) - vecMulVec mp mp), chi, em)

/-- `_sgp_update`, `/repo/mfs/classical_filters_smoothers/gfs.py:138-183`. `evals_Xi[0]` needs at least one point. -/
noncomputable def sgpUpdate (B : Backend) (sgps : SigmaPoints dx)
    (meas : (Fin dx → ℝ) → (Fin dy → ℝ) × Matrix (Fin dy) (Fin dy) ℝ) (p : Belief dx) (y : Fin dy → ℝ) (constCov : Bool) :
    Belief dx × ℝ :=
  let chi := sgps.genSigmaPoints p.1 (B.chol (symmetrize p.2))
  let em := fun i => (meas (chi i)).1
  let ex := fun i => (meas (chi i)).2
  let pred := sgps.expectation em
  let S : Matrix (Fin dy) (Fin dy) ℝ := if constCov then
      sgps.expectation (fun i => vecMulVec (em i) (em i)) - vecMulVec pred pred
        + (if h : 0 < sgps.nPoints then ex ⟨0, h⟩ else 0)
    else sgps.expectation (fun i => vecMulVec (em i) (em i) + ex i) - vecMulVec pred pred
  let C : Matrix (Fin dx) (Fin dy) ℝ := sgps.expectation (fun i => vecMulVec (chi i) (em i)) - vecMulVec p.1 (sgps.expectation em)
  let chol := B.chol (symmetrize S)
  let K := (choSolve chol Cᵀ)ᵀ
  ((p.1 + K *ᵥ (y - pred), p.2 - K * S * Kᵀ), -logMvnPdf y pred chol)

/-- `sgp_filter`, `/repo/mfs/classical_filters_smoothers/gfs.py:503-551`. -/
noncomputable def sgpFilter (B : Backend) (state : (Fin dx → ℝ) → ℝ → Belief dx)
    (meas : (Fin dx → ℝ) → (Fin dy → ℝ) × Matrix (Fin dy) (Fin dy) ℝ) (sgps : SigmaPoints dx) (m0 : Fin dx → ℝ)
    (v0 : Matrix (Fin dx) (Fin dx) ℝ) (dt : ℝ) (ys : List (Fin dy → ℝ)) (constCov : Bool := false) : List (Belief dx × ℝ) :=
  (scan (filterBody (fun f => (sgpPrediction B sgps state dt f).1) fun p y => sgpUpdate B sgps meas p y constCov)
    ((m0, v0), 0) ys).2

/-- `sgp_smoother`, `/repo/mfs/classical_filters_smoothers/gfs.py:554-593`. -/
noncomputable def sgpSmoother (B : Backend) (state : (Fin dx → ℝ) → ℝ → Belief dx) (sgps : SigmaPoints dx)
    (fs : List (Belief dx)) (dt : ℝ) : Option (List (Belief dx)) :=
  smoothWith (fun f s =>
    let r := sgpPrediction B sgps state dt f
    let D : Matrix (Fin dx) (Fin dx) ℝ := sgps.expectation (fun i => vecMulVec (r.2.1 i) (r.2.2 i)) - vecMulVec f.1 r.1.1
    gaussianSmootherShared B Dᵀ f r.1 s) fs

/-- `_cd_sgp_shared`, `/repo/mfs/classical_filters_smoothers/gfs.py:219-232`. -/
noncomputable def cdSgpShared (B : Backend) (sgps : SigmaPoints dx) (drift : (Fin dx → ℝ) → Fin dx → ℝ)
    (dispersion : Matrix (Fin dx) (Fin dw) ℝ) (m : Fin dx → ℝ) (P : Matrix (Fin dx) (Fin dx) ℝ) : Belief dx :=
  let chi := sgps.genSigmaPoints m (B.chol (symmetrize P))
  let ed := fun i => drift (chi i)
  let vp : Matrix (Fin dx) (Fin dx) ℝ := sgps.expectation fun i => vecMulVec (chi i - m) (ed i)
  (sgps.expectation ed, vp + vpᵀ + dispersion * dispersionᵀ)

/-- `cd_sgp_filter`, `/repo/mfs/classical_filters_smoothers/gfs.py:596-650`. -/
noncomputable def cdSgpFilter (B : Backend) (drift : (Fin dx → ℝ) → Fin dx → ℝ) (dispersion : Matrix (Fin dx) (Fin dw) ℝ)
    (meas : (Fin dx → ℝ) → (Fin dy → ℝ) × Matrix (Fin dy) (Fin dy) ℝ) (sgps : SigmaPoints dx) (m0 : Fin dx → ℝ)
    (v0 : Matrix (Fin dx) (Fin dx) ℝ) (dt : ℝ) (ys : List (Fin dy → ℝ)) (constCov : Bool := false) : List (Belief dx × ℝ) :=
  (scan (filterBody (fun f => rk4MCov (cdSgpShared B sgps drift dispersion) f.1 f.2 dt)
    fun p y => sgpUpdate B sgps meas p y constCov) ((m0, v0), 0) ys).2

/-- the backward moment equations of `cd_sgp_smoother`, `/repo/mfs/classical_filters_smoothers/gfs.py:685-691`. -/
noncomputable def cdSgpOdes (B : Backend) (sgps : SigmaPoints dx) (drift : (Fin dx → ℝ) → Fin dx → ℝ)
    (dispersion : Matrix (Fin dx) (Fin dw) ℝ)
    (m : Fin dx → ℝ) (v : Matrix (Fin dx) (Fin dx) ℝ) (mf : Fin dx → ℝ) (vf : Matrix (Fin dx) (Fin dx) ℝ) : Belief dx :=
  let gamma := dispersion * dispersionᵀ
  let G := choSolve (B.chol vf) gamma
  let r := cdSgpShared B sgps drift dispersion m v
  (r.1 + Gᵀ *ᵥ (m - mf), r.2 + Gᵀ * v + v * G - (2 : ℝ) • gamma)

/-- `cd_sgp_smoother`, `/repo/mfs/classical_filters_smoothers/gfs.py:653-702`. -/
noncomputable def cdSgpSmoother (B : Backend) (drift : (Fin dx → ℝ) → Fin dx → ℝ) (dispersion : Matrix (Fin dx) (Fin dw) ℝ)
    (sgps : SigmaPoints dx) (fs : List (Belief dx)) (dt : ℝ) : Option (List (Belief dx)) :=
  smoothWith (fun f s => rk4MCovBackward (cdSgpOdes B sgps drift dispersion) s.1 s.2 f.1 f.2 (-dt)) fs

end Mfs.Classical

import Verif.Model.Scan
import Mathlib.Analysis.SpecialFunctions.Log.Basic
import Mathlib.Analysis.SpecialFunctions.Trigonometric.Basic
import Mathlib.Analysis.Calculus.Deriv.Basic
import Mathlib.Data.List.Infix
import Mathlib.Data.Fintype.BigOperators

/-!
# Model of `mfs/classical_filters_smoothers/brute_force.py`

The grid has `N + 2` points (`xs[1] - xs[0]` needs two). `drift` and `dispersion` act pointwise. `tme.mean_and_cov` (for fixed drift and
dispersion) and Python's `int` are parameters. Errors are values. The body of `jax.lax.scan` is traced even when `ys` is empty, so the
errors raised there do not depend on `ys`.
-/

namespace Mfs.BruteForce

/-- the exceptions. -/
inductive Err
  | notImplemented
  | valueError
  | nameError
deriving DecidableEq

variable {N : ℕ}

/-- `jnp.trapz(ps, xs)`. -/
noncomputable def trapz (ps xs : Fin (N + 2) → ℝ) : ℝ :=
  ∑ i : Fin (N + 1), (xs i.succ - xs i.castSucc) * (ps i.succ + ps i.castSucc) / 2

/-- `jnp.gradient(f, h)`. -/
noncomputable def gradient (f : Fin (N + 2) → ℝ) (h : ℝ) : Fin (N + 2) → ℝ := fun i =>
  if (i : ℕ) = 0 then (f 1 - f 0) / h
  else if hi : (i : ℕ) = N + 1 then (f i - f ⟨i - 1, by omega⟩) / h
  else (f ⟨i + 1, by omega⟩ - f ⟨i - 1, by omega⟩) / (2 * h)

/-- `jax.scipy.stats.norm.pdf(x, m, scale)`. -/
noncomputable def normPdf (x m scale : ℝ) : ℝ :=
  Real.exp (-(Real.log (2 * Real.pi * scale ^ 2) + (x - m) ^ 2 / scale ^ 2) / 2)

/-- `kolmogorov_fwd_opt`, `/repo/mfs/classical_filters_smoothers/brute_force.py:92-101`. -/
noncomputable def kolmogorovFwdOpt (drift dispersion : ℝ → ℝ) (xs ps : Fin (N + 2) → ℝ) : Fin (N + 2) → ℝ := fun i =>
  let dx := xs 1 - xs 0
  let gamma := fun x => dispersion x ^ 2
  let dps := gradient ps dx
  let ddps := gradient (gradient ps dx) dx
  let part1 := -(deriv drift (xs i) * ps i + drift (xs i) * dps i)
  part1 + 0.5 * (deriv (deriv gamma) (xs i) * ps i + 2 * deriv gamma (xs i) * dps i + gamma (xs i) * ddps i)

/-- `pred_kolmogorov`, `/repo/mfs/classical_filters_smoothers/brute_force.py:103-112`. -/
noncomputable def predKolmogorov (drift dispersion : ℝ → ℝ) (xs : Fin (N + 2) → ℝ) (ddt : ℝ) (steps : ℕ) (ps : Fin (N + 2) → ℝ) :
    Fin (N + 2) → ℝ :=
  (fun ps => ps + ddt • kolmogorovFwdOpt drift dispersion xs ps)^[steps] ps

/-- `integrate_transition` at every grid point, `/repo/mfs/classical_filters_smoothers/brute_force.py:83-86` and `:117`. -/
noncomputable def integrateTransition (m scale xs ps : Fin (N + 2) → ℝ) : Fin (N + 2) → ℝ := fun i =>
  trapz (fun j => normPdf (xs i) (m j) (scale j) * ps j) xs

/-- `pred_chapman`, `/repo/mfs/classical_filters_smoothers/brute_force.py:114-120`. -/
noncomputable def predChapman (m scale xs : Fin (N + 2) → ℝ) (steps : ℕ) (ps : Fin (N + 2) → ℝ) : Fin (N + 2) → ℝ :=
  (integrateTransition m scale xs)^[steps] ps

/-- Python's `s in t`. -/
def isIn (s t : String) : Bool := decide (s.toList <:+: t.toList)

/-- Python's `t.split('-')[-1]`. -/
def lastPart (t : String) : String := String.ofList (t.toList.reverse.takeWhile fun c => decide (c ≠ '-')).reverse

/-- the choice of `m, scale`, `/repo/mfs/classical_filters_smoothers/brute_force.py:69-78`: an exception, nothing (the names stay
unbound), or values. -/
noncomputable def chooseTransition (drift dispersion : ℝ → ℝ) (tmeMeanCov : ℤ → ℝ → ℝ → ℝ × ℝ) (pyInt : String → Option ℤ)
    (xs : Fin (N + 2) → ℝ) (ddt : ℝ) (method : String) : Except Err (Option ((Fin (N + 2) → ℝ) × (Fin (N + 2) → ℝ))) :=
  if method = "chapman-euler" then
    .ok (some (fun i => xs i + drift (xs i) * ddt, fun i => dispersion (xs i) * Real.sqrt ddt))
  else if isIn "chapman-tme" method then
    match pyInt (lastPart method) with
    | none => .error .valueError
    | some order => .ok (some (fun i => (tmeMeanCov order ddt (xs i)).1, fun i => Real.sqrt (tmeMeanCov order ddt (xs i)).2))
  else .ok none

/-- the choice of the prediction in the scan body, `/repo/mfs/classical_filters_smoothers/brute_force.py:126-131`. -/
noncomputable def choosePrediction (drift dispersion : ℝ → ℝ) (xs : Fin (N + 2) → ℝ) (ddt : ℝ) (steps : ℕ) (method : String)
    (tr : Option ((Fin (N + 2) → ℝ) × (Fin (N + 2) → ℝ))) : Except Err ((Fin (N + 2) → ℝ) → Fin (N + 2) → ℝ) :=
  if method = "kolmogorov" then .ok (predKolmogorov drift dispersion xs ddt steps)
  else if isIn "chapman" method then
    match tr with
    | none => .error .nameError
    | some (m, scale) => .ok (predChapman m scale xs steps)
  else .error .notImplemented

/-- the rest of the scan body, `/repo/mfs/classical_filters_smoothers/brute_force.py:133-134`. -/
noncomputable def updateBody {Y : Type} (pred : (Fin (N + 2) → ℝ) → Fin (N + 2) → ℝ) (lik : Y → (Fin (N + 2) → ℝ) → Fin (N + 2) → ℝ)
    (xs : Fin (N + 2) → ℝ) (carry : Fin (N + 2) → ℝ) (y : Y) : (Fin (N + 2) → ℝ) × (Fin (N + 2) → ℝ) :=
  let ps := pred carry
  let ps := fun i => lik y xs i * ps i / trapz (fun i => lik y xs i * ps i) xs
  (ps, ps)

/-- `brute_force_filter`, `/repo/mfs/classical_filters_smoothers/brute_force.py:26-136`. -/
noncomputable def bruteForceFilter {Y : Type} (tmeMeanCov : ℤ → ℝ → ℝ → ℝ × ℝ) (pyInt : String → Option ℤ)
    (drift dispersion : ℝ → ℝ) (lik : Y → (Fin (N + 2) → ℝ) → Fin (N + 2) → ℝ) (initPs xs : Fin (N + 2) → ℝ) (ys : List Y) (dt : ℝ)
    (steps : ℕ) (method : String) : Except Err (List (Fin (N + 2) → ℝ)) :=
  let ddt := dt / steps
  match chooseTransition drift dispersion tmeMeanCov pyInt xs ddt method with
  | .error e => .error e
  | .ok tr =>
    match choosePrediction drift dispersion xs ddt steps method tr with
    | .error e => .error e
    | .ok pred => .ok (scan (updateBody pred lik xs) initPs ys).2

end Mfs.BruteForce

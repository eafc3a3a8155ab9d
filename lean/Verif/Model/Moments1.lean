import Verif.Model.Bell
import Verif.Model.Quad1
import Mathlib.Analysis.SpecialFunctions.Pow.Real
import Mathlib.Analysis.SpecialFunctions.Complex.Circle

/-!
# Model of `mfs/one_dim/moments.py` and of `GaussianSum1D` in `mfs/utils.py`
-/

namespace Mfs.Moments1

open Mfs.Utils

/-- `central_moment_of_normal`, `/repo/mfs/one_dim/moments.py:31-38`. The argument `df` is
`scipy.special.factorial2(·, exact=True)`; the case `p = 0` asks for its value at `-1`, which is `1` in older releases of
SciPy and `0` since release 1.11. -/
noncomputable def centralMomentOfNormal (df : ℤ → ℕ) (variance : ℝ) (p : ℕ) : ℝ :=
  if p % 2 = 0 then Real.sqrt variance ^ p * df ((p : ℤ) - 1) else 0

/-- `raw_moment_of_standard_normal`, `/repo/mfs/one_dim/moments.py:41-67` (`2 ** (p / 2)` is a power with a float
exponent). -/
noncomputable def rawMomentOfStandardNormal (p : ℕ) : ℝ :=
  if p % 2 = 0 then (p.factorial : ℝ) / ((2 : ℝ) ^ ((p : ℝ) / 2) * ((p / 2).factorial : ℝ)) else 0

/-- `raw_moment_of_normal`, `/repo/mfs/one_dim/moments.py:70-74`; `variance ** ((p - m) / 2)` is a power with a float
exponent. -/
noncomputable def rawMomentOfNormal (mean variance : ℝ) (p : ℕ) : ℝ :=
  ((List.range (p + 1)).map fun m =>
    (p.choose m : ℝ) * mean ^ m * variance ^ (((p - m : ℕ) : ℝ) / 2) * rawMomentOfStandardNormal (p - m)).sum

/-- `_make_pascal_triangle`, `/repo/mfs/one_dim/moments.py:77-83`: the lower Pascal matrix of SciPy. -/
def makePascalTriangle (n j : ℕ) : ℝ := (n.choose j : ℝ)

/-- `raw_to_central`, `/repo/mfs/one_dim/moments.py:86-101`. -/
def rawToCentral (rms : List ℝ) : List ℝ :=
  (List.range rms.length).map fun n => ((List.range rms.length).map fun j =>
    if n ≥ j then makePascalTriangle n j * (-1) ^ (n - j) * jget rms j * jget rms 1 ^ (n - j) else 0).sum

/-- `central_to_raw`, `/repo/mfs/one_dim/moments.py:104-123`. -/
def centralToRaw (cms : List ℝ) (mean : ℝ) : List ℝ :=
  (List.range cms.length).map fun n => ((List.range cms.length).map fun j =>
    if n ≥ j then makePascalTriangle n j * jget cms j * mean ^ (n - j) else 0).sum

/-- `raw_to_scaled`, `/repo/mfs/one_dim/moments.py:126-132`. -/
noncomputable def rawToScaled (rms : List ℝ) (scale : Option ℝ := none) : List ℝ :=
  let scale := scale.getD (Real.sqrt (jget rms 2 - jget rms 1 ^ 2))
  List.zipWith (· / ·) (rawToCentral rms) ((List.range rms.length).map fun n => scale ^ n)

/-- `scaled_to_central`, `/repo/mfs/one_dim/moments.py:135-138`. -/
def scaledToCentral (sms : List ℝ) (scale : ℝ) : List ℝ :=
  List.zipWith (· * ·) sms ((List.range sms.length).map fun n => scale ^ n)

/-- the five functions returned by the `sde_cond_moments_*` constructors (pointwise, without `vmap`). -/
structure CondFns where
  raw : ℝ → ℕ → ℝ
  central : ℝ → ℕ → ℝ → ℝ
  scaled : ℝ → ℕ → ℝ → ℝ → ℝ
  mean : ℝ → ℝ
  meanVar : ℝ → ℝ × ℝ

/-- `sde_cond_moments_tme`, `/repo/mfs/one_dim/moments.py:141-179`. The routines of the package `tme` for the given SDE,
step and order are parameters: `expect phi x` is `tme.expectation(phi, x, …)`, `meanCov x` is `tme.mean_and_cov(x, …)`. -/
noncomputable def sdeCondMomentsTme (expect : (ℝ → ℝ) → ℝ → ℝ) (meanCov : ℝ → ℝ × ℝ) : CondFns where
  raw x n := expect (fun u => u ^ n) x
  central x n mean := expect (fun u => (u - mean) ^ n) x
  scaled x n mean scale := expect (fun u => ((u - mean) / scale) ^ n) x
  mean x := expect (fun u => u) x
  meanVar x := meanCov x

/-- `sde_cond_moments_tme_normal`, `/repo/mfs/one_dim/moments.py:182-219`. -/
noncomputable def sdeCondMomentsTmeNormal (expect : (ℝ → ℝ) → ℝ → ℝ) (meanCov : ℝ → ℝ × ℝ) (N : ℕ) : CondFns where
  raw x n := jget ((List.range (2 * N)).map fun p => rawMomentOfNormal (meanCov x).1 (meanCov x).2 p) n
  central x n mean := jget ((List.range (2 * N)).map fun p => rawMomentOfNormal ((meanCov x).1 - mean) (meanCov x).2 p) n
  scaled x n mean scale :=
    jget ((List.range (2 * N)).map fun p => rawMomentOfNormal ((meanCov x).1 - mean) (meanCov x).2 p) n
      / ((List.range (2 * N)).map fun k => scale ^ k).prod
  mean x := expect (fun u => u) x
  meanVar x := meanCov x

/-- `sde_cond_moments_euler`, `/repo/mfs/one_dim/moments.py:222-255`. -/
noncomputable def sdeCondMomentsEuler (drift dispersion : ℝ → ℝ) (dt : ℝ) (N : ℕ) : CondFns where
  raw x n := jget ((List.range (2 * N)).map fun p => rawMomentOfNormal (x + drift x * dt) (dispersion x ^ 2 * dt) p) n
  central x n mean :=
    jget ((List.range (2 * N)).map fun p => rawMomentOfNormal (x + drift x * dt - mean) (dispersion x ^ 2 * dt) p) n
  scaled x n mean scale :=
    jget ((List.range (2 * N)).map fun p => rawMomentOfNormal (x + drift x * dt - mean) (dispersion x ^ 2 * dt) p) n
      / ((List.range (2 * N)).map fun k => scale ^ k).prod
  mean x := x + drift x * dt
  meanVar x := (x + drift x * dt, dispersion x ^ 2 * dt)

/-- `nth_cumulant` inside `sms_to_cumulants`, `/repo/mfs/one_dim/moments.py:297-304`, for `n ≥ 1` (`n = 0` raises). -/
noncomputable def nthCumulant (sms : List ℝ) (mean scale : ℝ) (n : ℕ) : ℝ :=
  if n = 1 then (open Classical in if mean = 0 then jget sms 1 else mean)
  else ((List.range n).map fun k' =>
    let k := k' + 1
    (-1) ^ (k - 1) * ((k - 1).factorial : ℝ) * partialBell n k ((scaledToCentral sms scale).drop 1)).sum

/-- `sms_to_cumulants`, `/repo/mfs/one_dim/moments.py:258-306`. -/
noncomputable def smsToCumulants (sms : List ℝ) (mean scale : ℝ) : List ℝ :=
  (List.range (sms.length - 1)).map fun n' => nthCumulant sms mean scale (n' + 1)

/-- `characteristic_fn`, `/repo/mfs/one_dim/moments.py:309-337`. -/
noncomputable def characteristicFn (B : Backend) (z : ℝ) (ms : List ℝ) (mean : ℝ := 0) (scale : ℝ := 1) : ℂ :=
  let r := Quad1.momentQuadrature B ms mean scale false
  ∑ i, Complex.exp (Complex.I * z * r.2 i) * r.1 i

/-- `jnp.trapz(y, x)` over points given as a list of pairs `(x, y)`. -/
noncomputable def trapzC : List (ℝ × ℂ) → ℂ
  | (x₀, y₀) :: (x₁, y₁) :: l => (x₁ - x₀ : ℝ) * (y₀ + y₁) / 2 + trapzC ((x₁, y₁) :: l)
  | _ => 0

/-- `characteristic_from_pdf`, `/repo/mfs/one_dim/moments.py:340-343`; `pts` is `zip(xs, ps)`. -/
noncomputable def characteristicFromPdf (z : ℝ) (pts : List (ℝ × ℝ)) : ℂ :=
  trapzC (pts.map fun q => (q.1, Complex.exp (Complex.I * z * q.1) * q.2))

/-- one component of a Gaussian sum. -/
structure Component where
  mean : ℝ
  variance : ℝ
  weight : ℝ

/-- the fields computed by `GaussianSum1D.new`. -/
structure GaussianSum1D where
  mean : ℝ
  variance : ℝ
  rms : List ℝ
  cms : List ℝ
  scms : List ℝ

/-- `GaussianSum1D.new`, `/repo/mfs/utils.py:60-74`; the three arrays are given as one list of components. -/
noncomputable def GaussianSum1D.new (comps : List Component) (N : ℕ := 2) : GaussianSum1D :=
  let centre := (comps.map fun c => c.mean * c.weight).sum
  let rms := (List.range (2 * N)).map fun p => (comps.map fun c => rawMomentOfNormal c.mean c.variance p * c.weight).sum
  let cms := (List.range (2 * N)).map fun p =>
    (comps.map fun c => rawMomentOfNormal (c.mean - centre) c.variance p * c.weight).sum
  let variance := jget cms 2
  let scms := List.zipWith (· / ·) cms ((List.range (2 * N)).map fun k => Real.sqrt variance ^ k)
  ⟨centre, variance, rms, cms, scms⟩

end Mfs.Moments1

import Verif.Model.Bell
import Verif.Model.Moments1
import Mathlib.Analysis.SpecialFunctions.Pow.Real
import Mathlib.Analysis.SpecialFunctions.Log.Basic
import Mathlib.Analysis.Calculus.Deriv.Basic

/-!
# Model of `mfs/one_dim/pdf_approximations.py`

All functions are modelled pointwise (`jax.vmap` over the evaluation points). `jax.grad` is `deriv`.
-/

namespace Mfs.Pdf

open Mfs.Utils
open scoped Nat

/-- `gram_charlier`, `/repo/mfs/one_dim/pdf_approximations.py:56-90`. -/
noncomputable def gramCharlier (cumulants : List ℝ) (x : ℝ) : ℝ :=
  let order := cumulants.length
  let mean := jget cumulants 0
  let variance := jget cumulants 1
  let bellInput := [0, 0] ++ cumulants.drop 2
  let baseFunc := 1 / Real.sqrt (2 * Real.pi * variance) * Real.exp (-(x - mean) ^ 2 / 2 / variance)
  let h := (x - mean) / Real.sqrt variance
  baseFunc * ((List.range (order + 1)).map fun j =>
    completeBell j (bellInput.take j) / ((j ! : ℝ) * variance ^ ((j : ℝ) / 2)) * hermiteProbabilist j h).sum

/-- the inner function `poly` of `legendre_poly_expansion`, `/repo/mfs/one_dim/pdf_approximations.py:117-121`. -/
noncomputable def legendrePoly (k : ℕ) (placeholder : List ℝ) : ℝ :=
  ((List.range (k / 2 + 1)).map fun i =>
    (-1) ^ i * (2 : ℝ) ^ (-(k : ℤ)) * ((2 * k - 2 * i)! : ℝ) / ((i ! : ℝ) * ((k - i)! : ℝ) * ((k - 2 * i)! : ℝ))
      * jget placeholder (k - 2 * i)).sum

/-- the inner function `legendre`, `/repo/mfs/one_dim/pdf_approximations.py:123-124`. -/
noncomputable def legendre (k : ℕ) (x : ℝ) : ℝ := legendrePoly k ((List.range (k + 1)).map fun i => x ^ i)

/-- the inner function `basis_coeff`, `/repo/mfs/one_dim/pdf_approximations.py:126-127`. -/
noncomputable def basisCoeff (rms : List ℝ) (k : ℕ) : ℝ := (2 * k + 1) / 2 * legendrePoly k rms

/-- `legendre_poly_expansion`, `/repo/mfs/one_dim/pdf_approximations.py:98-134`. -/
noncomputable def legendrePolyExpansion (rms : List ℝ) (a : ℝ := -1) (b : ℝ := 1) (x : ℝ) : ℝ :=
  2 / (b - a) * ((List.range rms.length).map fun k => basisCoeff rms k * legendre k ((2 * x - (a + b)) / (b - a))).sum

/-- `truncated_cumulant_generating_function`, `/repo/mfs/one_dim/pdf_approximations.py:137-160`. -/
noncomputable def truncatedCgf (z : ℝ) (ms : List ℝ) (mean : ℝ := 0) (scale : ℝ := 1) : ℝ :=
  z * mean + Real.log ((List.range ms.length).map fun n => (z * scale) ^ n / (n ! : ℝ) * ms.getD n 0).sum

/-- `jnp.polyval`: Horner's rule, highest degree first. -/
def polyval (p : List ℝ) (x : ℝ) : ℝ := p.foldl (fun acc c => acc * x + c) 0

/-- `jnp.polyder`: derivative of a polynomial given by its coefficients, highest degree first. -/
def polyder (p : List ℝ) : List ℝ := (List.range (p.length - 1)).map fun i => p.getD i 0 * ((p.length - 1 - i : ℕ) : ℝ)

/-- `jnp.polyadd`: the shorter list is padded in front. -/
def polyadd (p q : List ℝ) : List ℝ :=
  let n := max p.length q.length
  List.zipWith (· + ·) (List.replicate (n - p.length) 0 ++ p) (List.replicate (n - q.length) 0 ++ q)

/-- `jnp.argmin` on a non-empty list of values, as the minimising element: the first of those with the least `f`. -/
noncomputable def firstArgmin (f : ℝ → ℝ) : ℝ → List ℝ → ℝ
  | best, [] => best
  | best, c :: l => firstArgmin f (if f c < f best then c else best) l

/-- `find_nearest_real_root`, `/repo/mfs/one_dim/pdf_approximations.py:179-181`, on real entries (their imaginary part is
zero so that none is replaced by infinity). -/
noncomputable def findNearestRealRoot (roots : List ℝ) (p : ℝ) : ℝ :=
  firstArgmin (fun c => |c - p|) (roots.headD 0) roots.tail

/-- `sms_poly`, `/repo/mfs/one_dim/pdf_approximations.py:170-171`. -/
noncomputable def smsPoly (sms : List ℝ) : List ℝ :=
  ((List.range sms.length).map fun n => sms.getD n 0 / (n ! : ℝ)).reverse

/-- the inner function `cgf` of `saddle_point`, `/repo/mfs/one_dim/pdf_approximations.py:173-174`. -/
noncomputable def saddleCgf (sms : List ℝ) (mean scale z : ℝ) : ℝ :=
  z * mean + Real.log (polyval (smsPoly sms) (z * scale))

/-- the coefficients of the saddle-point polynomial, `/repo/mfs/one_dim/pdf_approximations.py:185`. -/
noncomputable def saddleEquationPoly (sms : List ℝ) (mean scale x : ℝ) : List ℝ :=
  polyadd ((smsPoly sms).map fun c => (mean - x) * c) ((polyder (smsPoly sms)).map fun c => scale * c)

/-- the value `s` computed by `pdf` in `saddle_point`, `/repo/mfs/one_dim/pdf_approximations.py:186`. As in the code the
list handed to `find_nearest_real_root` is the list of coefficients. -/
noncomputable def saddleS (sms : List ℝ) (mean scale x : ℝ) : ℝ :=
  findNearestRealRoot (saddleEquationPoly sms mean scale x) ((x - mean) / scale ^ 2) / scale

/-- `saddle_point`, `/repo/mfs/one_dim/pdf_approximations.py:163-189`. -/
noncomputable def saddlePoint (sms : List ℝ) (mean scale x : ℝ) : ℝ :=
  let s := saddleS sms mean scale x
  Real.exp (saddleCgf sms mean scale s - s * x) / Real.sqrt (2 * Real.pi * deriv (deriv (saddleCgf sms mean scale)) s)

/-- `inverse_fourier`, `/repo/mfs/one_dim/pdf_approximations.py:192-212`; `pts` is `zip(zs, cfs)`. -/
noncomputable def inverseFourier (x : ℝ) (pts : List (ℝ × ℂ)) : ℝ :=
  (Moments1.trapzC (pts.map fun q => (q.1, Complex.exp (-Complex.I * x * q.1) * q.2))).re / (2 * Real.pi)

end Mfs.Pdf

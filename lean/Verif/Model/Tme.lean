import Mathlib.Analysis.Calculus.Deriv.Basic
import Mathlib.Data.Nat.Factorial.Basic

/-!
# The Taylor moment expansion of the package `tme`

`sde_cond_moments_tme`, `/repo/mfs/one_dim/moments.py:141-179`, calls `tme.expectation(phi, x, dt, drift, dispersion, order)`. The
package is not part of the repository; this is its documented definition for a scalar SDE: the expansion of the conditional expectation
in powers of the infinitesimal generator.
-/

namespace Mfs.Tme

/-- the generator of `dX = a(X) dt + b(X) dW`. -/
noncomputable def generator (a b : ℝ → ℝ) (phi : ℝ → ℝ) (x : ℝ) : ℝ := a x * deriv phi x + b x ^ 2 / 2 * deriv (deriv phi) x

/-- `tme.expectation(phi, x, dt, a, b, order)`, called at `/repo/mfs/one_dim/moments.py:151,159,167,171`. -/
noncomputable def expectation (a b : ℝ → ℝ) (dt : ℝ) (order : ℕ) (phi : ℝ → ℝ) (x : ℝ) : ℝ :=
  ∑ r ∈ Finset.range (order + 1), dt ^ r / (r.factorial : ℝ) * (generator a b)^[r] phi x

/-- `tme.mean_and_cov(x, dt, a, b, order)`, called at `/repo/mfs/one_dim/moments.py:175,190,197,204,215`,
`/repo/mfs/one_dim/ss_models.py:52,89` and `/repo/mfs/classical_filters_smoothers/brute_force.py:75`: the expansion of the mean, and that of the variance in which the products of the two expansions of
the mean are collected by powers of `dt` and truncated at the same order. -/
noncomputable def meanCov (a b : ℝ → ℝ) (dt : ℝ) (order : ℕ) (x : ℝ) : ℝ × ℝ :=
  (expectation a b dt order (fun u => u) x,
    ∑ r ∈ Finset.range order, dt ^ (r + 1) / ((r + 1).factorial : ℝ) * ((generator a b)^[r + 1] (fun u => u ^ 2) x
      - ∑ s ∈ Finset.range (r + 2), ((r + 1).choose s : ℝ) * (generator a b)^[s] (fun u => u) x * (generator a b)^[r + 1 - s] (fun u => u) x))

end Mfs.Tme

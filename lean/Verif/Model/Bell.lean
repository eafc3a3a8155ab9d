import Mathlib.Data.Real.Basic
import Mathlib.Data.Nat.Choose.Basic

/-!
# Model of the recursive polynomials of `mfs/utils.py`
-/

namespace Mfs.Utils

/-- `partial_bell`, `/repo/mfs/utils.py:252-282`. The cases `n = k = 0`, `n ≥ 1 ∧ k = 0`, `n = 0 ∧ k ≥ 1` and the
recursion over `i = 1, …, n - k + 1`. Reading beyond the end of `xs` (an exception for tuples, a clamped read for JAX
arrays) is not modelled: here it gives zero. -/
def partialBell : ℕ → ℕ → List ℝ → ℝ
  | n, 0, _ => if n = 0 then 1 else 0
  | 0, _ + 1, _ => 0
  | n + 1, k + 1, xs =>
    ((List.range (n + 1 - k)).map fun i' =>
      let i := i' + 1
      ((n.choose (i - 1) : ℕ) : ℝ) * xs.getD (i - 1) 0 * partialBell (n + 1 - i) k xs).sum

/-- `complete_bell`, `/repo/mfs/utils.py:285-308`. -/
def completeBell (n : ℕ) (xs : List ℝ) : ℝ :=
  if n = 0 then 1 else ((List.range n).map fun k' => partialBell n (k' + 1) xs).sum

/-- `hermite_probabilist`, `/repo/mfs/utils.py:311-337`. -/
def hermiteProbabilist : ℕ → ℝ → ℝ
  | 0, _ => 1
  | 1, x => x
  | n + 2, x => x * hermiteProbabilist (n + 1) x - ((n + 2 : ℝ) - 1) * hermiteProbabilist n x

end Mfs.Utils

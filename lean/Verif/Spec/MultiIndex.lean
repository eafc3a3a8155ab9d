import Mathlib.Data.List.Basic
import Mathlib.Data.List.Nodup

/-!
# Specification vocabulary for multi-indices (independent of the model)
-/

namespace Mfs.Spec

/-- `x` is a `d`-dimensional multi-index with `lower ≤ |x| ≤ upper`. -/
def IsMultiIndex (d upper lower : ℕ) (x : List ℕ) : Prop :=
  x.length = d ∧ lower ≤ x.sum ∧ x.sum ≤ upper

/-- Graded lexicographic order (Dunkl and Xu): `|x| < |y|`, or `|x| = |y|` and the first non-zero entry of `y - x`
is positive. -/
def GradedLexLt (x y : List ℕ) : Prop :=
  x.sum < y.sum ∨
    (x.sum = y.sum ∧ ∃ k, (∀ j < k, x.getD j 0 = y.getD j 0) ∧ x.getD k 0 < y.getD k 0)

end Mfs.Spec

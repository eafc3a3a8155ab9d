import Mathlib.Data.List.Basic

/-!
# `jax.lax.scan`
-/

namespace Mfs

/-- `jax.lax.scan(f, init, xs)` over a list of inputs: final carry and the stacked outputs. -/
def scan {C Y O : Type} (f : C → Y → C × O) : C → List Y → C × List O
  | c, [] => (c, [])
  | c, y :: ys =>
    let s := f c y
    let r := scan f s.1 ys
    (r.1, s.2 :: r.2)

end Mfs

import Verif.Spec.Gauss
import Mathlib.Algebra.BigOperators.Fin

/-!
# Linear Gaussian state-space models, by integration over all hidden paths
-/

namespace Mfs.Spec

open Matrix

variable {dx dy : ℕ}

/-- joint density of the hidden path `xs` and the measurements `ys`: `xs 0 ~ N(m0, P0)`, `xs (k + 1) ~ N(F xs k, Q)` and
`ys[k] ~ N(H xs (k + 1), R)`. -/
noncomputable def lgJoint (F Q : Matrix (Fin dx) (Fin dx) ℝ) (H : Matrix (Fin dy) (Fin dx) ℝ) (R : Matrix (Fin dy) (Fin dy) ℝ)
    (m0 : Fin dx → ℝ) (P0 : Matrix (Fin dx) (Fin dx) ℝ) (ys : List (Fin dy → ℝ))
    (xs : Fin (ys.length + 1) → Fin dx → ℝ) : ℝ :=
  mvnPdf m0 P0 (xs 0) *
    ∏ k : Fin ys.length, mvnPdf (F *ᵥ xs k.castSucc) Q (xs k.succ) * mvnPdf (H *ᵥ xs k.succ) R ys[k]

end Mfs.Spec

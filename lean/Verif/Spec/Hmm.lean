import Mathlib.Algebra.BigOperators.Fin
import Mathlib.Data.Real.Basic
import Mathlib.Data.Fintype.BigOperators

/-!
# Finite-state hidden Markov models, by summation over all hidden paths
-/

namespace Mfs.Spec

variable {Y : Type} {n : ℕ}

/-- joint probability of the hidden path `s` and the measurements `ys`: `s 0` has law `p`, the chain moves with the matrix
`T`, and the state after the `k`-th move emits `ys[k]` with likelihood `g`. -/
def pathWeight (p : Fin n → ℝ) (T : Fin n → Fin n → ℝ) (g : Y → Fin n → ℝ) (ys : List Y)
    (s : Fin (ys.length + 1) → Fin n) : ℝ :=
  p (s 0) * ∏ k : Fin ys.length, T (s k.castSucc) (s k.succ) * g ys[k] (s k.succ)

/-- the marginal likelihood `p(y_{1:T})`: sum over all hidden paths. -/
def hmmLik (p : Fin n → ℝ) (T : Fin n → Fin n → ℝ) (g : Y → Fin n → ℝ) (ys : List Y) : ℝ :=
  ∑ s : Fin (ys.length + 1) → Fin n, pathWeight p T g ys s

/-- the posterior expectation `E[f(s_T) | y_{1:T}]` of a function of the last hidden state. -/
noncomputable def hmmPost (p : Fin n → ℝ) (T : Fin n → Fin n → ℝ) (g : Y → Fin n → ℝ) (ys : List Y) (f : Fin n → ℝ) : ℝ :=
  (∑ s : Fin (ys.length + 1) → Fin n, pathWeight p T g ys s * f (s (Fin.last _))) / hmmLik p T g ys

end Mfs.Spec

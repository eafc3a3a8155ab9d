import Mathlib.Analysis.Real.Sqrt
import Mathlib.Data.Matrix.Mul
import Mathlib.Algebra.BigOperators.Fin

/-!
# Model of `ldl` and `ldl_chol` of `mfs/utils.py`

Reals are exact. Arrays are functions of natural indices during the loop (entries outside `n × n` are irrelevant).
Division by zero gives `0` in Lean and `inf/nan` in the code; properties assume non-zero pivots where this matters.
`jnp.sqrt` of a negative number never matters because of the `where`.
-/

namespace Mfs.Ldl

/-- State of the loop of `ldl`: the arrays `l` and `d`. -/
structure St where
  l : ℕ → ℕ → ℝ
  d : ℕ → ℝ

/-- Lines 516-517 of `/repo/mfs/utils.py`: `l = eye(n).at[1:, 0].set(mat[1:, 0] / mat[0, 0])`,
`d = ones(n) * mat[0, 0]`. -/
noncomputable def init (A : ℕ → ℕ → ℝ) : St where
  l i k := if k = 0 ∧ 1 ≤ i then A i 0 / A 0 0 else if i = k then 1 else 0
  d _ := A 0 0

/-- Body of the loop, lines 518-522 of `/repo/mfs/utils.py`. -/
noncomputable def step (A : ℕ → ℕ → ℝ) (s : St) (j : ℕ) : St :=
  let v : ℕ → ℝ := fun k => s.l j k * s.d k
  let dj : ℝ := A j j - ∑ k ∈ Finset.range j, s.l j k * v k
  { d := Function.update s.d j dj
    l := fun i k => if k = j ∧ j + 1 ≤ i then (A i j - ∑ k ∈ Finset.range j, s.l i k * v k) / dj else s.l i k }

/-- `for j in range(1, n)`, `/repo/mfs/utils.py:518`. -/
noncomputable def loop (A : ℕ → ℕ → ℝ) (n : ℕ) : St :=
  (List.range' 1 (n - 1)).foldl (step A) (init A)

/-- entry of a matrix by natural indices. -/
def mget {n : ℕ} (M : Matrix (Fin n) (Fin n) ℝ) (i j : ℕ) : ℝ :=
  if h : i < n ∧ j < n then M ⟨i, h.1⟩ ⟨j, h.2⟩ else 0

/-- `ldl`, `/repo/mfs/utils.py:495-523`: returns `(l, d)`. -/
noncomputable def ldl {n : ℕ} (M : Matrix (Fin n) (Fin n) ℝ) : Matrix (Fin n) (Fin n) ℝ × (Fin n → ℝ) :=
  let s := loop (mget M) n
  (Matrix.of fun i j => s.l i j, fun i => s.d i)

/-- `jnp.linalg.norm(mat, 'fro')`. -/
noncomputable def froNorm {n : ℕ} (M : Matrix (Fin n) (Fin n) ℝ) : ℝ := Real.sqrt (∑ i, ∑ j, M i j ^ 2)

/-- `ldl_chol`, `/repo/mfs/utils.py:526-538`. `eps = None` is `none`. -/
noncomputable def ldlChol {n : ℕ} (M : Matrix (Fin n) (Fin n) ℝ) (eps : Option ℝ := none) : Matrix (Fin n) (Fin n) ℝ :=
  let e := match eps with
    | none => 1e-8 * froNorm M
    | some e => e
  let ld := ldl M
  Matrix.of fun i j => ld.1 i j * (if ld.2 j < 0 then e else Real.sqrt (ld.2 j))

end Mfs.Ldl

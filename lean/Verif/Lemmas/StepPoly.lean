import Mathlib.Algebra.Polynomial.Degree.Lemmas
import Mathlib.Algebra.Polynomial.BigOperators
import Mathlib.Algebra.Order.Field.Basic
import Mathlib.Data.Real.Basic
import Mathlib.Tactic.Linarith
import Mathlib.Tactic.FieldSimp
import Mathlib.Tactic.LinearCombination
import Mathlib.Tactic.Positivity

/-!
Polynomials that interpolate a step: value one at the points of the list `A`, value zero at the points of the list `B`, repeated
points with vanishing derivatives. They are `stepU A B * nodes B`, and `1` minus them is `stepV A B * nodes A`; the signs of both
factors outside the gap are known.
-/

namespace Mfs.StepPoly

open Polynomial

/-- the polynomial whose zeros are the points of the list. -/
noncomputable def nodes (A : List ℝ) : ℝ[X] := (A.map fun a => X - C a).prod

noncomputable def stepU : List ℝ → List ℝ → ℝ[X]
  | [], _ => 0
  | _ :: _, [] => 1
  | a :: A, b :: B => C (b - a)⁻¹ * ((X - C a) * stepU A (b :: B) - stepU (a :: A) B)
termination_by A B => A.length + B.length

noncomputable def stepV : List ℝ → List ℝ → ℝ[X]
  | [], _ => 1
  | _ :: _, [] => 0
  | a :: A, b :: B => C (b - a)⁻¹ * ((C b - X) * stepV (a :: A) B + stepV A (b :: B))
termination_by A B => A.length + B.length

@[simp] theorem nodes_nil : nodes [] = 1 := rfl

@[simp] theorem nodes_cons (a : ℝ) (A : List ℝ) : nodes (a :: A) = (X - C a) * nodes A := rfl

theorem nodes_eval (A : List ℝ) (x : ℝ) : (nodes A).eval x = (A.map fun a => x - a).prod := by
  induction A with
  | nil => simp
  | cons a A ih => simp [ih]

theorem nodes_natDegree_le (A : List ℝ) : (nodes A).natDegree ≤ A.length := by
  induction A with
  | nil => simp
  | cons a A ih =>
    rw [nodes_cons]
    refine natDegree_mul_le.trans ?_
    rw [natDegree_X_sub_C, List.length_cons]
    omega

theorem step_identity : ∀ A B : List ℝ, (∀ a ∈ A, ∀ b ∈ B, a < b) → stepU A B * nodes B + stepV A B * nodes A = 1
  | [], B, _ => by simp [stepU, stepV]
  | a :: A, [], _ => by simp [stepU, stepV]
  | a :: A, b :: B, h => by
    have hab : b - a ≠ 0 := (sub_pos.2 (h a (by simp) b (by simp))).ne'
    have h1 := step_identity A (b :: B) fun x hx => h x (by simp [hx])
    have h2 := step_identity (a :: A) B fun x hx y hy => h x hx y (by simp [hy])
    have hc : C (b - a)⁻¹ * (C b - C a) = (1 : ℝ[X]) := by
      rw [← C_sub, ← C_mul, inv_mul_cancel₀ hab, C_1]
    rw [stepU, stepV]
    simp only [nodes_cons] at h1 h2 ⊢
    linear_combination (C (b - a)⁻¹ * (X - C a)) * h1 + (C (b - a)⁻¹ * (C b - X)) * h2 + hc
termination_by A B => A.length + B.length

theorem stepU_degree : ∀ A B : List ℝ, (stepU A B).natDegree ≤ A.length - 1
  | [], B => by simp [stepU]
  | a :: A, [] => by simp [stepU]
  | [a], b :: B => by
    have h2 := stepU_degree [a] B
    rw [stepU, stepU, mul_zero, zero_sub]
    refine (natDegree_C_mul_le _ _).trans ?_
    rwa [natDegree_neg]
  | a :: a' :: A, b :: B => by
    have h1 := stepU_degree (a' :: A) (b :: B)
    have h2 := stepU_degree (a :: a' :: A) B
    rw [stepU]
    refine (natDegree_C_mul_le _ _).trans ((natDegree_sub_le _ _).trans (max_le (natDegree_mul_le.trans ?_) h2))
    rw [natDegree_X_sub_C]
    simp only [List.length_cons] at h1 ⊢
    omega
termination_by A B => A.length + B.length

/-- to the right of all points of `A` the first factor has the sign of `(-1) ^ |B|`. -/
theorem stepU_sign : ∀ A B : List ℝ, (∀ a ∈ A, ∀ b ∈ B, a < b) → ∀ x, (∀ a ∈ A, a ≤ x) → 0 ≤ (-1) ^ B.length * (stepU A B).eval x
  | [], B, _, x, _ => by simp [stepU]
  | a :: A, [], _, x, _ => by simp [stepU]
  | a :: A, b :: B, h, x, hx => by
    have hab : 0 < b - a := sub_pos.2 (h a (by simp) b (by simp))
    have h1 := stepU_sign A (b :: B) (fun x hx => h x (by simp [hx])) x fun y hy => hx y (by simp [hy])
    have h2 := stepU_sign (a :: A) B (fun x hx y hy => h x hx y (by simp [hy])) x hx
    have hax : 0 ≤ x - a := sub_nonneg.2 (hx a (by simp))
    rw [stepU]
    simp only [eval_mul, eval_sub, eval_C, eval_X, List.length_cons, pow_succ] at h1 h2 ⊢
    have : (-1) ^ B.length * -1 * ((b - a)⁻¹ * ((x - a) * eval x (stepU A (b :: B)) - eval x (stepU (a :: A) B))) =
        (b - a)⁻¹ * ((x - a) * ((-1) ^ B.length * -1 * eval x (stepU A (b :: B))) + (-1) ^ B.length * eval x (stepU (a :: A) B)) := by ring
    rw [this]
    exact mul_nonneg (inv_nonneg.2 hab.le) (add_nonneg (mul_nonneg hax h1) h2)
termination_by A B => A.length + B.length

/-- to the left of all points of `B` the second factor is nonnegative. -/
theorem stepV_sign : ∀ A B : List ℝ, (∀ a ∈ A, ∀ b ∈ B, a < b) → ∀ x, (∀ b ∈ B, x ≤ b) → 0 ≤ (stepV A B).eval x
  | [], B, _, x, _ => by simp [stepV]
  | a :: A, [], _, x, _ => by simp [stepV]
  | a :: A, b :: B, h, x, hx => by
    have hab : 0 < b - a := sub_pos.2 (h a (by simp) b (by simp))
    have h1 := stepV_sign A (b :: B) (fun x hx => h x (by simp [hx])) x hx
    have h2 := stepV_sign (a :: A) B (fun x hx y hy => h x hx y (by simp [hy])) x fun y hy => hx y (by simp [hy])
    have hax : 0 ≤ b - x := sub_nonneg.2 (hx b (by simp))
    rw [stepV]
    simp only [eval_mul, eval_sub, eval_add, eval_C, eval_X]
    exact mul_nonneg (inv_nonneg.2 hab.le) (add_nonneg (mul_nonneg hax h2) h1)
termination_by A B => A.length + B.length

/-- the list with every point twice. -/
def twice (A : List ℝ) : List ℝ := A.flatMap fun a => [a, a]

theorem mem_twice {A : List ℝ} {x : ℝ} : x ∈ twice A ↔ x ∈ A := by simp [twice]

theorem length_twice (A : List ℝ) : (twice A).length = 2 * A.length := by
  induction A with
  | nil => rfl
  | cons a A ih =>
    rw [twice, List.flatMap_cons, List.length_append, ← twice, ih]
    simp
    omega

theorem nodes_twice (A : List ℝ) : nodes (twice A) = nodes A ^ 2 := by
  induction A with
  | nil => simp [twice]
  | cons a A ih =>
    have : twice (a :: A) = a :: a :: twice A := rfl
    rw [this, nodes_cons, nodes_cons, nodes_cons, ih]
    ring

theorem nodes_root {A : List ℝ} {a : ℝ} (ha : a ∈ A) : (nodes A).eval a = 0 := by
  rw [nodes_eval, List.prod_eq_zero_iff]
  exact List.mem_map.2 ⟨a, ha, sub_self a⟩

/-- A polynomial above the step at `c`, equal to it at the points of `A`, `c` and `B`. -/
theorem exists_majorant (A B : List ℝ) (c : ℝ) (hA : ∀ a ∈ A, a < c) (hB : ∀ b ∈ B, c < b) :
    ∃ P : ℝ[X], P.natDegree ≤ 2 * (A.length + B.length) ∧ (∀ a ∈ A, P.eval a = 1) ∧ P.eval c = 1 ∧ (∀ b ∈ B, P.eval b = 0) ∧
      (∀ x, x ≤ c → 1 ≤ P.eval x) ∧ ∀ x, 0 ≤ P.eval x := by
  have hlt : ∀ a ∈ c :: twice A, ∀ b ∈ twice B, a < b := by
    intro a ha b hb
    rcases List.mem_cons.1 ha with rfl | ha
    · exact hB b (mem_twice.1 hb)
    · exact (hA a (mem_twice.1 ha)).trans (hB b (mem_twice.1 hb))
  have hid := step_identity _ _ hlt
  set U := stepU (c :: twice A) (twice B) with hU
  set V := stepV (c :: twice A) (twice B) with hV
  have hP : ∀ x, (U * nodes (twice B)).eval x = 1 - V.eval x * ((x - c) * (nodes A).eval x ^ 2) := by
    intro x
    have := congrArg (eval x) hid
    simp only [nodes_cons, nodes_twice, eval_add, eval_one, eval_mul, eval_pow, eval_sub, eval_X, eval_C] at this ⊢
    linarith
  have hP' : ∀ x, (U * nodes (twice B)).eval x = U.eval x * (nodes B).eval x ^ 2 := fun x => by
    rw [eval_mul, nodes_twice, eval_pow]
  have hle : ∀ x, x ≤ c → 1 ≤ (U * nodes (twice B)).eval x := by
    intro x hx
    have hv := stepV_sign _ _ hlt x fun b hb => hx.trans (hB b (mem_twice.1 hb)).le
    rw [hP]
    have := mul_nonneg hv (mul_nonneg (sub_nonneg.2 hx) (sq_nonneg ((nodes A).eval x)))
    rw [← hV] at this
    linarith
  refine ⟨U * nodes (twice B), ?_, fun a ha => ?_, ?_, fun b hb => ?_, hle, fun x => ?_⟩
  · refine natDegree_mul_le.trans ?_
    have h1 := stepU_degree (c :: twice A) (twice B)
    have h2 := nodes_natDegree_le (twice B)
    rw [List.length_cons, length_twice] at h1
    rw [length_twice] at h2
    rw [← hU] at h1
    omega
  · rw [hP, nodes_root ha]
    ring
  · rw [hP]
    ring
  · rw [hP', nodes_root hb]
    ring
  · rcases le_total x c with h | h
    · exact zero_le_one.trans (hle x h)
    · have hu := stepU_sign _ _ hlt x fun a ha => by
        rcases List.mem_cons.1 ha with rfl | ha
        · exact h
        · exact (hA a (mem_twice.1 ha)).le.trans h
      rw [length_twice, pow_mul, neg_one_sq, one_pow, one_mul] at hu
      rw [hP']
      exact mul_nonneg hu (sq_nonneg _)

/-- A polynomial below the open step at `c`. -/
theorem exists_minorant (A B : List ℝ) (c : ℝ) (hA : ∀ a ∈ A, a < c) (hB : ∀ b ∈ B, c < b) :
    ∃ P : ℝ[X], P.natDegree ≤ 2 * (A.length + B.length) ∧ (∀ a ∈ A, P.eval a = 1) ∧ P.eval c = 0 ∧ (∀ b ∈ B, P.eval b = 0) ∧
      (∀ x, c ≤ x → P.eval x ≤ 0) ∧ ∀ x, P.eval x ≤ 1 := by
  obtain ⟨Q, hd, ha, hc, hb, h1, h0⟩ := exists_majorant (B.map Neg.neg) (A.map Neg.neg) (-c)
    (fun b hb => by obtain ⟨b, h, rfl⟩ := List.mem_map.1 hb; exact neg_lt_neg (hB b h))
    (fun a ha => by obtain ⟨a, h, rfl⟩ := List.mem_map.1 ha; exact neg_lt_neg (hA a h))
  have hev : ∀ x, (1 - Q.comp (-X)).eval x = 1 - Q.eval (-x) := by intro x; simp
  refine ⟨1 - Q.comp (-X), ?_, fun a h => ?_, ?_, fun b h => ?_, fun x hx => ?_, fun x => ?_⟩
  · refine (natDegree_sub_le _ _).trans (max_le (by simp) ?_)
    refine natDegree_comp_le.trans ?_
    rw [natDegree_neg, natDegree_X, mul_one]
    simp only [List.length_map] at hd
    omega
  · rw [hev, hb (-a) (List.mem_map.2 ⟨a, h, rfl⟩)]; ring
  · rw [hev, hc]; ring
  · rw [hev, ha (-b) (List.mem_map.2 ⟨b, h, rfl⟩)]; ring
  · rw [hev]
    have := h1 (-x) (neg_le_neg hx)
    linarith
  · rw [hev]
    have := h0 (-x)
    linarith

end Mfs.StepPoly

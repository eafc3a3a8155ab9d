import Verif.Model.Ldl
import Verif.Spec.LinAlg
import Verif.Lemmas.Tri

/-!
# Lemmas about the LDL loop
-/

namespace Mfs.Ldl

open Matrix Mfs.Spec

/-- what the loop guarantees about columns `< m`, and that the other columns are still those of the identity. -/
structure Inv (A : ℕ → ℕ → ℝ) (m : ℕ) (s : St) : Prop where
  d_eq : ∀ j < m, s.d j = A j j - ∑ k ∈ Finset.range j, s.l j k * (s.l j k * s.d k)
  l_eq : ∀ j < m, ∀ i, j < i → s.l i j = (A i j - ∑ k ∈ Finset.range j, s.l i k * (s.l j k * s.d k)) / s.d j
  diag : ∀ i, s.l i i = 1
  upper : ∀ i k, i < k → s.l i k = 0
  rest : ∀ i k, m ≤ k → i ≠ k → s.l i k = 0

theorem inv_init (A : ℕ → ℕ → ℝ) : Inv A 1 (init A) := by
  refine ⟨fun j hj => ?_, fun j hj i hi => ?_, fun i => ?_, fun i k h => ?_, fun i k h1 h2 => ?_⟩
  · obtain rfl : j = 0 := by omega
    simp [init]
  · obtain rfl : j = 0 := by omega
    simp [init, show 1 ≤ i by omega]
  · simp only [init]
    rw [if_neg (by omega)]; simp
  · simp only [init]
    rw [if_neg (by omega), if_neg (by omega)]
  · simp only [init]
    rw [if_neg (by omega), if_neg h2]

theorem inv_step (A : ℕ → ℕ → ℝ) (m : ℕ) (s : St) (h : Inv A m s) : Inv A (m + 1) (step A s m) := by
  have hl : ∀ i k, k < m → (step A s m).l i k = s.l i k := by
    intro i k hk
    simp only [step]
    rw [if_neg (by omega)]
  have hd : ∀ k, k < m → (step A s m).d k = s.d k := by
    intro k hk
    simp only [step]
    rw [Function.update_of_ne (by omega)]
  have hsum : ∀ j ≤ m, ∀ i i', ∑ k ∈ Finset.range j, (step A s m).l i k * ((step A s m).l i' k * (step A s m).d k)
      = ∑ k ∈ Finset.range j, s.l i k * (s.l i' k * s.d k) := by
    intro j hj i i'
    apply Finset.sum_congr rfl
    intro k hk
    rw [Finset.mem_range] at hk
    rw [hl i k (by omega), hl i' k (by omega), hd k (by omega)]
  have hdm : (step A s m).d m = A m m - ∑ k ∈ Finset.range m, s.l m k * (s.l m k * s.d k) := by
    simp [step]
  refine ⟨?_, ?_, ?_, ?_, ?_⟩
  · intro j hj
    rw [hsum j (by omega)]
    rcases Nat.lt_or_ge j m with hjm | hjm
    · rw [hd j hjm]; exact h.d_eq j hjm
    · obtain rfl : j = m := by omega
      exact hdm
  · intro j hj i hi
    rw [hsum j (by omega)]
    rcases Nat.lt_or_ge j m with hjm | hjm
    · rw [hd j hjm, hl i j hjm]; exact h.l_eq j hjm i hi
    · obtain rfl : j = m := by omega
      rw [hdm]
      simp only [step]
      rw [if_pos ⟨trivial, by omega⟩]
  · intro i
    simp only [step]
    rw [if_neg (by omega)]; exact h.diag i
  · intro i k hik
    simp only [step]
    rw [if_neg (by omega)]; exact h.upper i k hik
  · intro i k hk hik
    simp only [step]
    rw [if_neg (by omega)]; exact h.rest i k (by omega) hik

theorem inv_foldl (A : ℕ → ℕ → ℝ) (q m : ℕ) (s : St) (h : Inv A m s) :
    Inv A (m + q) ((List.range' m q).foldl (step A) s) := by
  induction q generalizing m s with
  | zero => simpa using h
  | succ q ih =>
    rw [List.range'_succ, List.foldl_cons]
    have := ih (m + 1) _ (inv_step A m s h)
    rwa [show m + 1 + q = m + (q + 1) by omega] at this

theorem inv_loop (A : ℕ → ℕ → ℝ) (n : ℕ) (hn : 1 ≤ n) : Inv A n (loop A n) := by
  have := inv_foldl A (n - 1) 1 _ (inv_init A)
  rwa [show 1 + (n - 1) = n by omega] at this

section

variable {n : ℕ} (M : Matrix (Fin n) (Fin n) ℝ)

theorem mget_fin (i j : Fin n) : mget M i j = M i j := by
  simp [mget]

theorem ldl_diag (i : Fin n) : (ldl M).1 i i = 1 :=
  (inv_loop (mget M) n i.pos).diag i

theorem ldl_lower : IsLower (ldl M).1 := fun i j hij =>
  (inv_loop (mget M) n i.pos).upper i j hij

theorem sum_fin_lt (f : ℕ → ℝ) (j : Fin n) :
    ∑ k ∈ Finset.range j, f k = ∑ k : Fin n, if k < j then f k else 0 := by
  rw [← Finset.sum_filter]
  symm
  apply Finset.sum_bij (fun (k : Fin n) _ => (k : ℕ))
  · intro k hk; simpa using hk
  · intro a _ b _ h; exact Fin.ext h
  · intro b hb
    rw [Finset.mem_range] at hb
    exact ⟨⟨b, hb.trans j.isLt⟩, by simp only [Finset.mem_filter, Finset.mem_univ, true_and]; exact hb, rfl⟩
  · intro a _; rfl

/-- `j ≤ i`: `M i j = Σ_{k} l_ik d_k l_jk`, if pivot `j` is non-zero or `i = j`. -/
theorem ldl_entry (i j : Fin n) (hij : j ≤ i) (hd : i = j ∨ (ldl M).2 j ≠ 0) :
    ∑ k, (ldl M).1 i k * (ldl M).2 k * (ldl M).1 j k = M i j := by
  have inv := inv_loop (mget M) n i.pos
  set s := loop (mget M) n with hs
  have hl : ∀ a b : Fin n, (ldl M).1 a b = s.l a b := fun a b => rfl
  have hdd : ∀ a : Fin n, (ldl M).2 a = s.d a := fun a => rfl
  have e : ∑ k, (ldl M).1 i k * (ldl M).2 k * (ldl M).1 j k
      = (∑ k : Fin n, if k < j then s.l i k * (s.l j k * s.d k) else 0) + s.l i j * s.d j := by
    have : s.l i j * s.d j = ∑ k : Fin n, if k = j then s.l i j * s.d j else 0 := by simp
    rw [this, ← Finset.sum_add_distrib]
    apply Finset.sum_congr rfl
    intro k _
    rw [hl, hl, hdd]
    rcases lt_trichotomy k j with h | h | h
    · rw [if_pos h, if_neg h.ne]; ring
    · subst h; simp only [lt_irrefl, if_false, if_true]; rw [inv.diag]; ring
    · rw [if_neg (not_lt_of_gt h), if_neg h.ne', inv.upper j k h]; ring
  rw [e, ← sum_fin_lt (fun k => s.l i k * (s.l j k * s.d k))]
  rcases eq_or_lt_of_le hij with h | h
  · subst h
    rw [inv.diag, inv.d_eq j j.isLt, mget_fin]
    ring
  · have hne : s.d j ≠ 0 := by
      rcases hd with h' | h'
      · exact absurd h'.symm h.ne
      · exact h'
    have := inv.l_eq j j.isLt i h
    rw [mget_fin] at this
    rw [this, div_mul_cancel₀ _ hne]
    ring

theorem ldl_mul_apply (i j : Fin n) :
    ((ldl M).1 * diagonal (ldl M).2 * (ldl M).1ᵀ) i j = ∑ k, (ldl M).1 i k * (ldl M).2 k * (ldl M).1 j k := by
  rw [Matrix.mul_apply]
  apply Finset.sum_congr rfl
  intro k _
  rw [Matrix.mul_diagonal, Matrix.transpose_apply]

theorem ldl_mul_comm (i j : Fin n) :
    ∑ k, (ldl M).1 i k * (ldl M).2 k * (ldl M).1 j k = ∑ k, (ldl M).1 j k * (ldl M).2 k * (ldl M).1 i k :=
  Finset.sum_congr rfl (fun k _ => by ring)

theorem ldl_mul (hM : M.IsSymm) (hd : ∀ i, (ldl M).2 i ≠ 0) :
    (ldl M).1 * diagonal (ldl M).2 * (ldl M).1ᵀ = M := by
  ext i j
  rw [ldl_mul_apply]
  rcases le_total j i with h | h
  · exact ldl_entry M i j h (Or.inr (hd j))
  · rw [ldl_mul_comm, ldl_entry M j i h (Or.inr (hd i))]
    exact hM.apply i j

theorem det_ldl : (ldl M).1.det = 1 := by
  rw [(ldl_lower M).det]
  simp [ldl_diag]

/-- on a positive definite matrix every pivot is positive. -/
theorem ldl_pos (hM : M.PosDef) (j : Fin n) : 0 < (ldl M).2 j := by
  induction j using WellFoundedLT.induction with
  | _ j ih =>
  set L := (ldl M).1 with hL
  set D := (ldl M).2 with hD
  have hsymm : M.IsSymm := by
    have := hM.isHermitian
    rwa [Matrix.IsHermitian, Matrix.conjTranspose_eq_transpose_of_trivial] at this
  have hu : IsUnit L.det := by rw [hL, det_ldl]; exact isUnit_one
  -- the row `x` of `L⁻¹` with `x L = e_j`, supported on indices `≤ j`
  set x : Fin n → ℝ := fun i => L⁻¹ j i with hx
  have hxs : ∀ i, j < i → x i = 0 := fun i hi => (ldl_lower M).inv hu j i hi
  have hxL : ∀ k, ∑ i, x i * L i k = if k = j then 1 else 0 := by
    intro k
    have := congrFun (congrFun (Matrix.nonsing_inv_mul L hu) j) k
    rw [Matrix.mul_apply, Matrix.one_apply] at this
    rw [hx, this]
    simp [eq_comm]
  have hblock : ∀ a b, a ≤ j → b ≤ j → M a b = ∑ k, L a k * D k * L b k := by
    intro a b ha hb
    rcases lt_trichotomy b a with h | h | h
    · exact (ldl_entry M a b h.le (Or.inr (ih b (lt_of_lt_of_le h ha)).ne')).symm
    · exact (ldl_entry M a b h.le (Or.inl h.symm)).symm
    · rw [ldl_mul_comm, ldl_entry M b a h.le (Or.inr (ih a (lt_of_lt_of_le h hb)).ne')]
      exact hsymm.apply b a
  have hq : x ⬝ᵥ (M *ᵥ x) = D j := by
    have h1 : x ⬝ᵥ (M *ᵥ x) = ∑ a, ∑ b, x a * (∑ k, L a k * D k * L b k) * x b := by
      simp only [dotProduct, Matrix.mulVec, Finset.mul_sum]
      apply Finset.sum_congr rfl
      intro a _
      apply Finset.sum_congr rfl
      intro b _
      rcases lt_or_ge j a with ha | ha
      · simp [hxs a ha]
      · rcases lt_or_ge j b with hb | hb
        · simp [hxs b hb]
        · rw [hblock a b ha hb, ← Finset.mul_sum]
          ring
    have h2 : ∑ a, ∑ b, x a * (∑ k, L a k * D k * L b k) * x b
        = ∑ k, D k * (∑ a, x a * L a k) * (∑ b, x b * L b k) := by
      simp only [Finset.mul_sum, Finset.sum_mul]
      rw [Finset.sum_comm_cycle]
      apply Finset.sum_congr rfl
      intro k _
      rw [Finset.sum_comm]
      apply Finset.sum_congr rfl
      intro a _
      apply Finset.sum_congr rfl
      intro b _
      ring
    rw [h1, h2]
    simp only [hxL]
    simp
  have hx0 : x ≠ 0 := by
    intro h0
    have := hxL j
    simp [h0] at this
  have := hM.dotProduct_mulVec_pos hx0
  rw [star_trivial, hq] at this
  exact this

theorem ldlChol_isChol (hM : M.PosDef) (eps : Option ℝ) : IsChol M (ldlChol M eps) := by
  have hsymm : M.IsSymm := by
    have := hM.isHermitian
    rwa [Matrix.IsHermitian, Matrix.conjTranspose_eq_transpose_of_trivial] at this
  have hpos := ldl_pos M hM
  have hentry : ∀ i j, ldlChol M eps i j = (ldl M).1 i j * Real.sqrt ((ldl M).2 j) := by
    intro i j
    simp only [ldlChol, Matrix.of_apply]
    rw [if_neg (not_lt.2 (hpos j).le)]
  refine ⟨?_, ?_, ?_⟩
  · intro i j hij
    rw [hentry, ldl_lower M i j hij, zero_mul]
  · intro i
    rw [hentry, ldl_diag, one_mul]
    exact Real.sqrt_pos.2 (hpos i)
  · ext i j
    have h := congrFun (congrFun (ldl_mul M hsymm (fun i => (hpos i).ne')) i) j
    rw [ldl_mul_apply] at h
    rw [← h, Matrix.mul_apply]
    apply Finset.sum_congr rfl
    intro k _
    rw [Matrix.transpose_apply, hentry, hentry]
    have := Real.mul_self_sqrt (hpos k).le
    calc _ = (ldl M).1 i k * (Real.sqrt ((ldl M).2 k) * Real.sqrt ((ldl M).2 k)) * (ldl M).1 j k := by ring
      _ = _ := by rw [this]

end

end Mfs.Ldl

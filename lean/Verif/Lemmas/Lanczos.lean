import Verif.Model.Utils

/-!
# The Lanczos recursion
-/

namespace Mfs

open Matrix Mfs.Utils

variable {n : ℕ} (a : Matrix (Fin n) (Fin n) ℝ) (v0 : Fin n → ℝ)

/-- carry of the scan after `k` steps. -/
noncomputable def lzCarry : ℕ → (Fin n → ℝ) × (Fin n → ℝ)
  | 0 => (v0, a *ᵥ v0 - (a *ᵥ v0 ⬝ᵥ v0) • v0)
  | k + 1 => (lanczosBody a (lzCarry k) 0).1

/-- the `k`-th Lanczos vector. -/
noncomputable def lzV (k : ℕ) : Fin n → ℝ := (lzCarry a v0 k).1
/-- the `k`-th residual. -/
noncomputable def lzW (k : ℕ) : Fin n → ℝ := (lzCarry a v0 k).2
/-- the `k`-th diagonal entry. -/
noncomputable def lzA (k : ℕ) : ℝ := a *ᵥ lzV a v0 k ⬝ᵥ lzV a v0 k
/-- norm of the `k`-th residual: the off-diagonal entry `(k, k + 1)`. -/
noncomputable def lzB (k : ℕ) : ℝ := Real.sqrt (∑ i, lzW a v0 k i ^ 2)

theorem scan_range {C O : Type} (f : C → ℕ → C × O) (hf : ∀ c i j, f c i = f c j) (g : ℕ → C) (hg : ∀ k, g (k + 1) = (f (g k) 0).1) :
    ∀ (l : List ℕ) (k : ℕ), (scan f (g k) l).2 = (List.range l.length).map fun i => (f (g (k + i)) 0).2
  | [], k => by simp [scan]
  | y :: ys, k => by
    rw [scan]
    simp only
    rw [hf _ y 0, ← hg, scan_range f hf g hg ys (k + 1), List.length_cons, List.range_succ_eq_map, List.map_cons, List.map_map]
    congr 1
    apply List.map_congr_left
    intro i _
    simp only [Function.comp, Nat.succ_eq_add_one]
    rw [show k + 1 + i = k + (i + 1) by ring]

theorem lanczos_eq (m : ℕ) (hm : 1 ≤ m) : lanczos a v0 m =
    ((List.range m).map (lzV a v0), (List.range m).map (lzA a v0), (List.range (m - 1)).map (lzB a v0)) := by
  obtain ⟨m, rfl⟩ : ∃ k, m = k + 1 := ⟨m - 1, by omega⟩
  rw [lanczos]
  have h := scan_range (lanczosBody a) (fun _ _ _ => rfl) (lzCarry a v0) (fun _ => rfl) (List.range (m + 1 - 1)) 0
  have h0 : lzCarry a v0 0 = (v0, a *ᵥ v0 - (a *ᵥ v0 ⬝ᵥ v0) • v0) := rfl
  rw [h0] at h
  rw [h]
  simp only [List.map_map, List.length_range, Nat.add_sub_cancel, List.range_succ_eq_map, List.map_cons]
  refine Prod.ext ?_ (Prod.ext ?_ ?_)
  · simp only
    congr 1
    apply List.map_congr_left
    intro i _
    simp only [Function.comp, zero_add, lzV, lzCarry]
    rfl
  · simp only
    congr 1
    apply List.map_congr_left
    intro i _
    simp only [Function.comp, zero_add, lzA, lzV, lzCarry]
    rfl
  · simp only
    apply List.map_congr_left
    intro i _
    simp only [Function.comp, zero_add, lzB, lzW]
    rfl

theorem lzV_zero : lzV a v0 0 = v0 := rfl

theorem lzV_succ (k : ℕ) : lzV a v0 (k + 1) = fun i => lzW a v0 k i / lzB a v0 k := rfl

theorem lzW_zero : lzW a v0 0 = a *ᵥ lzV a v0 0 - lzA a v0 0 • lzV a v0 0 := rfl

theorem lzW_succ (k : ℕ) : lzW a v0 (k + 1)
    = a *ᵥ lzV a v0 (k + 1) - lzA a v0 (k + 1) • lzV a v0 (k + 1) - lzB a v0 k • lzV a v0 k := rfl

variable {a v0}

theorem lzW_eq {k : ℕ} (hb : lzB a v0 k ≠ 0) : lzW a v0 k = lzB a v0 k • lzV a v0 (k + 1) := by
  ext i
  rw [lzV_succ, Pi.smul_apply, smul_eq_mul]
  field_simp

theorem lz_symm (ha : a.IsSymm) (x y : Fin n → ℝ) : a *ᵥ x ⬝ᵥ y = x ⬝ᵥ a *ᵥ y := by
  rw [dotProduct_mulVec, ← mulVec_transpose, ha.eq]

theorem lzV_unit {k : ℕ} (hb : lzB a v0 k ≠ 0) : lzV a v0 (k + 1) ⬝ᵥ lzV a v0 (k + 1) = 1 := by
  have hs : lzB a v0 k ^ 2 = ∑ i, lzW a v0 k i ^ 2 := Real.sq_sqrt (Finset.sum_nonneg fun i _ => sq_nonneg _)
  rw [lzV_succ, dotProduct]
  have : ∀ i, lzW a v0 k i / lzB a v0 k * (lzW a v0 k i / lzB a v0 k) = lzW a v0 k i ^ 2 / lzB a v0 k ^ 2 := by
    intro i; ring
  simp only [this]
  rw [← Finset.sum_div, ← hs, div_self (pow_ne_zero 2 hb)]

/-- three-term recurrence. -/
theorem lz_rec_zero (hb : lzB a v0 0 ≠ 0) :
    a *ᵥ lzV a v0 0 = lzB a v0 0 • lzV a v0 1 + lzA a v0 0 • lzV a v0 0 := by
  rw [← lzW_eq hb, lzW_zero]; abel

theorem lz_rec_succ {k : ℕ} (hb : lzB a v0 (k + 1) ≠ 0) :
    a *ᵥ lzV a v0 (k + 1) = lzB a v0 (k + 1) • lzV a v0 (k + 2) + lzA a v0 (k + 1) • lzV a v0 (k + 1) + lzB a v0 k • lzV a v0 k := by
  rw [← lzW_eq hb, lzW_succ]; abel

/-- orthonormality. -/
theorem lz_orth (ha : a.IsSymm) (h0 : v0 ⬝ᵥ v0 = 1) (m : ℕ) (hb : ∀ k < m, lzB a v0 k ≠ 0) :
    ∀ i ≤ m, ∀ j ≤ m, lzV a v0 i ⬝ᵥ lzV a v0 j = if i = j then 1 else 0 := by
  induction m with
  | zero =>
    intro i hi j hj
    obtain rfl : i = 0 := by omega
    obtain rfl : j = 0 := by omega
    simpa [lzV_zero] using h0
  | succ m ih =>
    have ih := ih fun k hk => hb k (by omega)
    have hbm := hb m (by omega)
    have key : ∀ j ≤ m, lzV a v0 (m + 1) ⬝ᵥ lzV a v0 j = 0 := by
      intro j hj
      refine (mul_eq_zero.1 ?_).resolve_left hbm
      rw [← smul_eq_mul, ← smul_dotProduct, ← lzW_eq hbm]
      rcases m with _ | m
      · obtain rfl : j = 0 := by omega
        rw [lzW_zero, sub_dotProduct, smul_dotProduct, ih 0 le_rfl 0 le_rfl, if_pos rfl, smul_eq_mul, mul_one]
        exact sub_self _
      · rw [lzW_succ, sub_dotProduct, sub_dotProduct, smul_dotProduct, smul_dotProduct, ih _ le_rfl _ hj, ih m (by omega) _ hj]
        rcases Nat.eq_or_lt_of_le hj with rfl | hlt
        · rw [if_pos rfl, if_neg (by omega)]
          simp only [smul_eq_mul, mul_one, mul_zero, sub_zero]
          exact sub_self _
        · rw [lz_symm ha]
          rcases j with _ | j
          · rw [lz_rec_zero (hb 0 (by omega)), dotProduct_add, dotProduct_smul, dotProduct_smul, ih _ le_rfl _ (by omega), ih _ le_rfl _ (by omega)]
            rw [if_neg (show m + 1 ≠ 0 by omega)]
            by_cases hm : m = 0
            · subst hm; simp
            · simp [hm]
          · rw [lz_rec_succ (hb (j + 1) (by omega)), dotProduct_add, dotProduct_add, dotProduct_smul, dotProduct_smul, dotProduct_smul,
              ih _ le_rfl _ (by omega), ih _ le_rfl _ (by omega), ih _ le_rfl _ (by omega)]
            rw [if_neg (show m + 1 ≠ j + 1 by omega), if_neg (show m + 1 ≠ j by omega)]
            by_cases hm : m = j + 1
            · subst hm; simp
            · simp [hm]
    intro i hi j hj
    rcases Nat.eq_or_lt_of_le hi with rfl | hi'
    · rcases Nat.eq_or_lt_of_le hj with rfl | hj'
      · rw [if_pos rfl, lzV_unit hbm]
      · rw [if_neg (by omega), key j (by omega)]
    · rcases Nat.eq_or_lt_of_le hj with rfl | hj'
      · rw [if_neg (by omega), dotProduct_comm, key i (by omega)]
      · exact ih i (by omega) j (by omega)

/-- entries of the projected matrix. -/
theorem lz_proj (ha : a.IsSymm) (h0 : v0 ⬝ᵥ v0 = 1) (m : ℕ) (hb : ∀ k < m, lzB a v0 k ≠ 0) (i j : ℕ) (hi : i ≤ m) (hj : j ≤ m) :
    lzV a v0 i ⬝ᵥ a *ᵥ lzV a v0 j
      = if i = j then lzA a v0 i else if i = j + 1 then lzB a v0 j else if j = i + 1 then lzB a v0 i else 0 := by
  have ho := lz_orth ha h0 m hb
  have key : ∀ i j, i ≤ m → j < m → lzV a v0 i ⬝ᵥ a *ᵥ lzV a v0 j
      = if i = j then lzA a v0 i else if i = j + 1 then lzB a v0 j else if j = i + 1 then lzB a v0 i else 0 := by
    intro i j hi hj
    rcases j with _ | j
    · rw [lz_rec_zero (hb 0 hj), dotProduct_add, dotProduct_smul, dotProduct_smul, ho _ hi _ (by omega), ho _ hi _ (by omega)]
      rcases i with _ | _ | i <;> simp
    · rw [lz_rec_succ (hb _ hj), dotProduct_add, dotProduct_add, dotProduct_smul, dotProduct_smul, dotProduct_smul,
        ho _ hi _ (by omega), ho _ hi _ (by omega), ho _ hi _ (by omega)]
      by_cases e1 : i = j + 1
      · subst e1; simp
      · by_cases e2 : i = j + 2
        · subst e2; simp
        · by_cases e3 : i = j
          · subst e3; simp [show ¬ i = i + 1 + 1 by omega]
          · have : ¬ j = i := fun h => e3 h.symm
            simp [e1, e2, e3, this]
  rcases Nat.lt_or_ge j m with h | h
  · exact key i j hi h
  · rcases Nat.lt_or_ge i m with h' | h'
    · rw [← lz_symm ha, dotProduct_comm, key j i hj h']
      by_cases e1 : i = j
      · subst e1; rfl
      · rw [if_neg e1, if_neg (Ne.symm e1)]
        by_cases e2 : i = j + 1
        · rw [if_pos e2, if_neg (by omega), if_pos e2]
        · rw [if_neg e2]
          by_cases e3 : j = i + 1
          · rw [if_pos e3, if_neg e2]
          · rw [if_neg e3, if_neg e2]
    · obtain rfl : i = j := by omega
      rw [if_pos rfl, dotProduct_comm]
      rfl

end Mfs

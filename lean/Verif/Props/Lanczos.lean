import Verif.Lemmas.Lanczos
import Verif.Lemmas.QuadCore
import Verif.Lemmas.Backend
import Mathlib.Tactic.NormNum

/-!
# C57, C58: the Lanczos routines
-/

namespace Mfs.Props

open Matrix Mfs.Utils Mfs.Spec

variable {n : ℕ}

private theorem getD_map_range {α : Type} (f : ℕ → α) (m k : ℕ) (d : α) (h : k < m) : ((List.range m).map f).getD k d = f k := by
  rw [List.getD_eq_getElem?_getD, List.getElem?_map, List.getElem?_range h]; rfl

/-- **C57.** For symmetric `a` and a unit vector `v0`, if no residual vanishes (no breakdown), then the `m` returned
vectors start with `v0`, are orthonormal, the projection `Vᵀ a V` is the tridiagonal matrix with the returned diagonal
and off-diagonal, and for `m = n` this is an exact factorisation `a = V T Vᵀ`. -/
theorem C57_lanczos (a : Matrix (Fin n) (Fin n) ℝ) (ha : a.IsSymm) (v0 : Fin n → ℝ) (hv : ∑ i, v0 i ^ 2 = 1) (m : ℕ)
    (hm : 1 ≤ m) (hb : ∀ β ∈ (lanczos a v0 m).2.2, β ≠ 0) :
    ∃ (V : Matrix (Fin n) (Fin m) ℝ) (T : Matrix (Fin m) (Fin m) ℝ),
      (lanczos a v0 m).1 = List.ofFn (fun j => fun i => V i j) ∧ (lanczos a v0 m).2.1.length = m ∧
      (lanczos a v0 m).2.2.length = m - 1 ∧
      (∀ i j, T i j = if i = j then (lanczos a v0 m).2.1.getD i 0 else
        if (i : ℕ) = j + 1 then (lanczos a v0 m).2.2.getD j 0 else
        if (j : ℕ) = i + 1 then (lanczos a v0 m).2.2.getD i 0 else 0) ∧
      (∀ i, V i ⟨0, hm⟩ = v0 i) ∧ Vᵀ * V = 1 ∧ Vᵀ * a * V = T ∧ (m = n → a = V * T * Vᵀ) := by
  have h0 : v0 ⬝ᵥ v0 = 1 := by rw [dotProduct, ← hv]; exact Finset.sum_congr rfl fun i _ => (sq _).symm
  rw [lanczos_eq a v0 m hm] at hb ⊢
  have hb' : ∀ k < m - 1, lzB a v0 k ≠ 0 := fun k hk =>
    hb _ (List.mem_map.2 ⟨k, List.mem_range.2 hk, rfl⟩)
  have ho := lz_orth ha h0 (m - 1) hb'
  have hp := lz_proj ha h0 (m - 1) hb'
  let V : Matrix (Fin n) (Fin m) ℝ := Matrix.of fun i j => lzV a v0 j i
  let T : Matrix (Fin m) (Fin m) ℝ := Matrix.of fun i j => if (i : ℕ) = j then lzA a v0 i else
    if (i : ℕ) = j + 1 then lzB a v0 j else if (j : ℕ) = i + 1 then lzB a v0 i else 0
  have hVV : Vᵀ * V = 1 := by
    ext i j
    have := ho i (by omega) j (by omega)
    rw [Matrix.mul_apply, Matrix.one_apply]
    simp only [Fin.ext_iff]
    exact this
  have hT : Vᵀ * a * V = T := by
    ext i j
    rw [Matrix.mul_assoc, Matrix.mul_apply]
    exact hp i j (by omega) (by omega)
  refine ⟨V, T, ?_, by simp, by simp, ?_, fun i => rfl, hVV, hT, ?_⟩
  · apply List.ext_getElem
    · simp
    · intro k h1 h2
      simp [V]
  · intro i j
    simp only [T, Matrix.of_apply, Fin.ext_iff]
    split_ifs with e1 e2 e3
    · rw [getD_map_range _ _ _ _ i.2]
    · rw [getD_map_range _ _ _ _ (by omega)]
    · rw [getD_map_range _ _ _ _ (by omega)]
    · rfl
  · intro h
    subst h
    have hVV' : V * Vᵀ = 1 := mul_eq_one_comm.1 hVV
    rw [← hT]
    simp only [Matrix.mul_assoc, hVV', mul_one]
    rw [← Matrix.mul_assoc, hVV', Matrix.one_mul]

private theorem tridiag_eq (a : Matrix (Fin n) (Fin n) ℝ) (u : Fin n → ℝ) (m : ℕ) (hm : 1 ≤ m) (i j : Fin m) :
    tridiag (lanczos a u m).2.1 (lanczos a u m).2.2 m i j = if (i : ℕ) = j then lzA a u i else
      if (i : ℕ) = j + 1 then lzB a u j else if (j : ℕ) = i + 1 then lzB a u i else 0 := by
  rw [lanczos_eq a u m hm]
  simp only [tridiag, Matrix.of_apply, Fin.ext_iff]
  by_cases e1 : (i : ℕ) = j
  · rw [if_pos e1, if_pos e1, if_neg (by omega), if_neg (by omega), getD_map_range _ _ _ _ i.2]; simp
  · rw [if_neg e1, if_neg e1]
    by_cases e2 : (i : ℕ) = j + 1
    · rw [if_pos e2, if_pos e2, if_neg (by omega), getD_map_range _ _ _ _ (by omega)]; simp
    · rw [if_neg e2, if_neg e2]
      by_cases e3 : (j : ℕ) = i + 1
      · rw [if_pos e3, if_pos e3, getD_map_range _ _ _ _ (by omega)]; simp
      · rw [if_neg e3, if_neg e3]; simp

private theorem col_sum {m : ℕ} (x : ℕ → ℝ) (j : ℕ) (hj : j + 1 < m) (A B C : ℝ) (hC : j = 0 → C = 0) :
    ∑ k : Fin m, x k * (if (k : ℕ) = j then A else if (k : ℕ) = j + 1 then B else if j = (k : ℕ) + 1 then C else 0)
      = B * x (j + 1) + A * x j + C * x (j - 1) := by
  have : ∀ k : Fin m, x k * (if (k : ℕ) = j then A else if (k : ℕ) = j + 1 then B else if j = (k : ℕ) + 1 then C else 0)
      = (if k = (⟨j + 1, hj⟩ : Fin m) then B * x (j + 1) else 0) + (if k = (⟨j, by omega⟩ : Fin m) then A * x j else 0)
        + (if k = (⟨j - 1, by omega⟩ : Fin m) then C * x (j - 1) else 0) := by
    intro k
    simp only [Fin.ext_iff]
    by_cases e1 : (k : ℕ) = j
    · rw [if_pos e1, if_neg (by omega), if_pos e1, e1]
      by_cases hj0 : j = 0
      · subst hj0; simp [hC rfl, mul_comm]
      · rw [if_neg (by omega)]; ring
    · rw [if_neg e1, if_neg e1]
      by_cases e2 : (k : ℕ) = j + 1
      · rw [if_pos e2, if_pos e2, if_neg (by omega), e2]; ring
      · rw [if_neg e2, if_neg e2]
        by_cases e3 : j = (k : ℕ) + 1
        · rw [if_pos e3, if_pos (by omega), show j - 1 = (k : ℕ) by omega]; ring
        · rw [if_neg e3]
          by_cases hj0 : j = 0
          · subst hj0; simp [hC rfl]
          · rw [if_neg (by omega)]; ring
  rw [Finset.sum_congr rfl fun k _ => this k, Finset.sum_add_distrib, Finset.sum_add_distrib]
  simp

/-- **C58.** For symmetric `a` and any non-zero `v0` (not necessarily normalised), if the Lanczos iteration does not
break down, the Ritz values `λ_j` and Ritz vectors `r_j` satisfy `∑ⱼ λ_jᵏ r_j = aᵏ v0` for every `k < m`, and for
every `k` if `m = n`. The flag `eigh_tridiagonal` always raises. -/
theorem C58_ritz (B : Backend) (hB : B.Valid) (a : Matrix (Fin n) (Fin n) ℝ) (ha : a.IsSymm) (v0 : Fin n → ℝ) (hv : v0 ≠ 0)
    (m : ℕ) [NeZero m] (hb : ∀ β ∈ (lanczos a (fun i => v0 i / Real.sqrt (∑ i, v0 i ^ 2)) m).2.2, β ≠ 0) (sort : Bool) :
    lanczosRitz B a v0 m true sort = none ∧
    ∃ (ritz : Matrix (Fin n) (Fin m) ℝ) (lam : Fin m → ℝ), lanczosRitz B a v0 m false sort = some (ritz, lam) ∧
      (sort = true → Monotone lam) ∧
      ∀ k : ℕ, k < m ∨ m = n → (fun i => ∑ j, lam j ^ k * ritz i j) = a ^ k *ᵥ v0 := by
  have hm : 1 ≤ m := NeZero.one_le
  refine ⟨rfl, _, _, rfl, ?_, ?_⟩
  all_goals
    set N := Real.sqrt (∑ i, v0 i ^ 2) with hN
    have hss : 0 < ∑ i, v0 i ^ 2 := by
      obtain ⟨i, hi⟩ := Function.ne_iff.1 hv
      exact Finset.sum_pos' (fun i _ => sq_nonneg _) ⟨i, Finset.mem_univ i, by have : v0 i ≠ 0 := hi; positivity⟩
    have hN0 : N ≠ 0 := (Real.sqrt_pos.2 hss).ne'
    have hN2 : N ^ 2 = ∑ i, v0 i ^ 2 := Real.sq_sqrt hss.le
    set u : Fin n → ℝ := fun i => v0 i / N with hu
    have hu1 : ∑ i, u i ^ 2 = 1 := by
      simp only [hu, div_pow]
      rw [← Finset.sum_div, ← hN2, div_self (pow_ne_zero 2 hN0)]
    have hte := tridiag_eq a u m hm
    set T := tridiag (lanczos a u m).2.1 (lanczos a u m).2.2 m with hTdef
    have hTs : T.IsSymm := by
      ext i j
      rw [Matrix.transpose_apply, hte, hte]
      by_cases e1 : (i : ℕ) = j
      · rw [if_pos e1, if_pos e1.symm, e1]
      · rw [if_neg e1, if_neg (Ne.symm e1)]
        by_cases e2 : (i : ℕ) = j + 1
        · rw [if_pos e2, if_neg (by omega), if_pos e2]
        · rw [if_neg e2]
          by_cases e3 : (j : ℕ) = i + 1
          · rw [if_pos e3, if_neg e2]
          · rw [if_neg e3, if_neg e2]
    have hsy : symmetrize T = T := by
      rw [symmetrize, hTs.eq, ← two_smul ℝ T, smul_smul]; norm_num
  · intro hs
    subst hs
    rw [hsy]
    exact hB.sorted T hTs
  · intro k hk
    have he := hB.eigh sort T hTs
    rw [hsy]
    set U := (B.eigh sort T).1
    set lam := (B.eigh sort T).2
    have hL := lanczos_eq a u m hm
    rw [hL] at hb
    have hb' : ∀ k < m - 1, lzB a u k ≠ 0 := fun k hk => hb _ (List.mem_map.2 ⟨k, List.mem_range.2 hk, rfl⟩)
    have hV : ∀ (i : Fin n) (q : Fin m), (lanczos a u m).1.getD q 0 i = lzV a u q i := by
      intro i q
      rw [hL]; simp only
      rw [getD_map_range _ _ _ _ q.2]
    -- left-hand side in terms of `T ^ k`
    have hlhs : (fun i => ∑ j, lam j ^ k * ∑ q : Fin m, (lanczos a u m).1.getD q 0 i * U q j * (U 0 j * N))
        = fun i => N * ∑ q : Fin m, lzV a u q i * (T ^ k) q 0 := by
      ext i
      simp only [hV, he.pow_apply, Finset.mul_sum]
      rw [Finset.sum_comm]
      exact Finset.sum_congr rfl fun q _ => Finset.sum_congr rfl fun j _ => by ring
    simp only [Matrix.of_apply]
    rw [hlhs]
    have hmul : ∀ k, k < m ∨ m = n → (fun i => ∑ q : Fin m, lzV a u q i * (T ^ k) q 0) = a ^ k *ᵥ u := by
      -- sparsity of `T ^ k e₀`
      have hsp : ∀ k : ℕ, ∀ q : Fin m, k < (q : ℕ) → (T ^ k) q 0 = 0 := by
        intro k
        induction k with
        | zero =>
          intro q hq
          rw [pow_zero, Matrix.one_apply_ne]
          intro h
          rw [h] at hq
          simp at hq
        | succ k ih =>
          intro q hq
          rw [pow_succ', Matrix.mul_apply]
          apply Finset.sum_eq_zero
          intro r _
          rcases Nat.lt_or_ge k r with h | h
          · rw [ih r h, mul_zero]
          · rw [hte, if_neg (by omega), if_neg (by omega), if_neg (by omega), zero_mul]
      -- columns of `a V`
      have hcol : ∀ j : Fin m, (j : ℕ) + 1 < m ∨ m = n → ∀ i, (a *ᵥ lzV a u j) i = ∑ q : Fin m, lzV a u q i * T q j := by
        have hcol1 : ∀ j : Fin m, (j : ℕ) + 1 < m → ∀ i, (a *ᵥ lzV a u j) i = ∑ q : Fin m, lzV a u q i * T q j := by
          intro j hj i
          simp only [hte]
          have hsum : ∑ q : Fin m, lzV a u q i * (if (q : ℕ) = j then lzA a u q else
              if (q : ℕ) = j + 1 then lzB a u j else if (j : ℕ) = q + 1 then lzB a u q else 0)
              = ∑ q : Fin m, lzV a u q i * (if (q : ℕ) = j then lzA a u j else
              if (q : ℕ) = j + 1 then lzB a u j else if (j : ℕ) = q + 1 then (if (j : ℕ) = 0 then 0 else lzB a u (j - 1)) else 0) := by
            apply Finset.sum_congr rfl
            intro q _
            congr 1
            split_ifs with e1 e2 e3 e4
            · rw [e1]
            · rfl
            · omega
            · rw [e3]; rfl
            · rfl
          rw [hsum, col_sum (fun q => lzV a u q i) j hj _ _ _ (fun h => if_pos h)]
          obtain ⟨j, hj'⟩ := j
          simp only at hj ⊢
          rcases j with _ | j
          · rw [lz_rec_zero (hb' 0 (by omega))]
            simp
          · rw [lz_rec_succ (hb' (j + 1) (by omega)), if_neg (by omega)]
            simp
        intro j hj i
        rcases hj with hj | hj
        · exact hcol1 j hj i
        · obtain ⟨V, T', hV', -, -, hT', -, hVV, hproj, hfac⟩ := C57_lanczos a ha u hu1 m hm (by rw [hL]; exact hb)
          have hVeq : ∀ i (q : Fin m), V i q = lzV a u q i := by
            intro i q
            rw [← hV i q, hV', List.getD_eq_getElem?_getD, List.getElem?_ofFn]
            simp
          have hTeq : T' = T := by
            ext i j
            rw [hT', hte, hL]
            simp only [Fin.ext_iff]
            split_ifs with e1 e2 e3
            · rw [getD_map_range _ _ _ _ i.2]
            · rw [getD_map_range _ _ _ _ (by omega)]
            · rw [getD_map_range _ _ _ _ (by omega)]
            · rfl
          have haV : a * V = V * T := by
            conv_lhs => rw [hfac hj]
            rw [Matrix.mul_assoc, hVV, Matrix.mul_one, hTeq]
          have := congrFun (congrFun haV i) j
          simp only [Matrix.mul_apply, hVeq] at this
          exact this
      intro k
      induction k with
      | zero =>
        intro _
        ext i
        simp only [pow_zero, Matrix.one_apply, Matrix.one_mulVec]
        simp [lzV_zero]
      | succ k ih =>
        intro hk
        have ih := ih (by omega)
        rw [pow_succ' a, ← Matrix.mulVec_mulVec, ← ih]
        ext i
        have h1 : (a *ᵥ fun i => ∑ q : Fin m, lzV a u q i * (T ^ k) q 0) i = ∑ q : Fin m, (a *ᵥ lzV a u q) i * (T ^ k) q 0 := by
          simp only [Matrix.mulVec, dotProduct, Finset.mul_sum, Finset.sum_mul]
          rw [Finset.sum_comm]
          exact Finset.sum_congr rfl fun q _ => Finset.sum_congr rfl fun j _ => by ring
        have h2 : ∀ q : Fin m, (a *ᵥ lzV a u q) i * (T ^ k) q 0 = ∑ r : Fin m, lzV a u r i * T r q * (T ^ k) q 0 := by
          intro q
          by_cases hq : (q : ℕ) + 1 < m ∨ m = n
          · rw [hcol q hq i, Finset.sum_mul]
          · rw [hsp k q (by omega)]; simp
        rw [h1, Finset.sum_congr rfl fun q _ => h2 q, pow_succ', Finset.sum_comm]
        refine Finset.sum_congr rfl fun r _ => ?_
        rw [Matrix.mul_apply, Finset.mul_sum]
        exact Finset.sum_congr rfl fun q _ => by ring
    have hfin := hmul k hk
    have hv0 : v0 = N • u := by
      ext i; simp only [hu, Pi.smul_apply, smul_eq_mul]; field_simp
    rw [show (fun i => N * ∑ q : Fin m, lzV a u q i * (T ^ k) q 0) = N • fun i => ∑ q : Fin m, lzV a u q i * (T ^ k) q 0 from rfl,
      hfin, ← Matrix.mulVec_smul, ← hv0]

/-- A matrix and a start vector meeting the hypotheses of C57 with `m = n = 2`. -/
example : ∃ (a : Matrix (Fin 2) (Fin 2) ℝ) (v0 : Fin 2 → ℝ), a.IsSymm ∧ ∑ i, v0 i ^ 2 = 1 ∧
    ∀ β ∈ (lanczos a v0 2).2.2, β ≠ 0 := by
  refine ⟨!![2, 1; 1, 3], ![1, 0], by ext i j; fin_cases i <;> fin_cases j <;> rfl, by simp, ?_⟩
  intro β hβ
  simp [lanczos, scan, lanczosBody, Matrix.mulVec, dotProduct, Fin.sum_univ_two] at hβ
  rw [hβ]
  norm_num [vecHead, vecTail]

end Mfs.Props

import Verif.Props.QuadND

/-!
# C20: what `nd_cartesian_prod_2` returns
-/

namespace Mfs.Props

open Mfs.QuadND Mfs.Spec

theorem getElem?_flatten_const {α : Type} {m : ℕ} (hm : 0 < m) (ls : List (List α)) (h : ∀ l ∈ ls, l.length = m) (k : ℕ) :
    ls.flatten[k]? = ls[k / m]?.bind (·[k % m]?) := by
  induction ls generalizing k with
  | nil => simp
  | cons l ls ih =>
    have hl : l.length = m := h l List.mem_cons_self
    rw [List.flatten_cons]
    rcases lt_or_ge k m with hk | hk
    · rw [List.getElem?_append_left (by omega), Nat.div_eq_of_lt hk, Nat.mod_eq_of_lt hk]
      simp
    · rw [List.getElem?_append_right (by omega), hl, ih fun l' hl' => h l' (List.mem_cons_of_mem _ hl'), Nat.div_eq_sub_div hm hk, Nat.mod_eq_sub_mod hk]
      simp

theorem getElem?_chunks {α : Type} {d : ℕ} (k : ℕ) (l : List α) (r : ℕ) : (chunks d k l)[r]? = if r < k then some ((l.drop (r * d)).take d) else none := by
  induction k generalizing l r with
  | zero => simp [chunks]
  | succ k ih =>
    rw [chunks]
    rcases r with _ | r
    · simp
    · rw [List.getElem?_cons_succ, ih, List.drop_drop, show d + r * d = (r + 1) * d by ring]
      simp

/-- the digits of the row number are the entries of the index table. -/
theorem getElem?_indices (d n k : ℕ) (hk : k < n ^ d) :
    ∃ idx, (ndCartesianProdIndices d n)[k]? = some idx ∧ idx.length = d ∧ ∀ j < d, idx[j]?.map Fin.val = some (k / n ^ (d - 1 - j) % n) := by
  have hn : d = 0 ∨ 0 < n := by
    rcases Nat.eq_zero_or_pos d with h | h
    · exact .inl h
    · right
      by_contra h0
      rw [Nat.eq_zero_of_not_pos h0, zero_pow (by omega)] at hk
      omega
  induction d generalizing k with
  | zero =>
    have : k = 0 := by simpa using hk
    subst this
    exact ⟨[], rfl, rfl, fun j hj => by omega⟩
  | succ d ih =>
    have hn : 0 < n := by omega
    have hlen : (ndCartesianProdIndices d n).length = n ^ d := (C19_cartesian_product d n).1
    have hp : 0 < n ^ d := Nat.pow_pos hn
    have hq : k / n ^ d < n := by rw [Nat.div_lt_iff_lt_mul hp, ← pow_succ']; exact hk
    have e : ndCartesianProdIndices (d + 1) n = ((List.finRange n).map fun a => (ndCartesianProdIndices d n).map (a :: ·)).flatten := by
      rw [ndCartesianProdIndices, List.replicate_succ, cartesianProd, List.flatMap_def]; rfl
    obtain ⟨idx, h1, h2, h3⟩ := ih (k % n ^ d) (Nat.mod_lt _ hp) (.inr hn)
    refine ⟨⟨k / n ^ d, hq⟩ :: idx, ?_, by simp [h2], ?_⟩
    · rw [e, getElem?_flatten_const hp _ (by simp [hlen])]
      simp [hq, h1]
    · intro j hj
      rcases j with _ | j
      · simp [Nat.mod_eq_of_lt hq]
      · rw [List.getElem?_cons_succ, h3 j (by omega), show d + 1 - 1 - (j + 1) = d - 1 - j by omega]
        have hpow : n ^ d = n ^ (d - 1 - j) * (n * n ^ j) := by
          rw [← pow_succ', ← pow_add]; congr 1; omega
        rw [hpow, Nat.mod_mul_right_div_self, Nat.mod_mul_right_mod]

/-- **C20, what the legacy function returns.** The output has `n ^ d` rows of `d` entries, and entry `c` of row `r` is the value number `r d + c` of the `d` grids
written one after the other: with `k = r d + c`, it comes from row `k / n^d` of `x`, at the digit of `k mod n^d` belonging to that row, the first two being exchanged. -/
theorem C20_legacy_product_entries {n d : ℕ} {β : Type} [Inhabited β] (x : List (Fin n → β)) (hd : x.length = d) (r : ℕ) (hr : r < n ^ d) :
    (ndCartesianProd2 x).length = n ^ d ∧ ∃ row, (ndCartesianProd2 x)[r]? = some row ∧ row.length = d ∧
      ∀ c < d, ∃ (j : ℕ) (hj : j < x.length) (i : Fin n), row[c]? = some (x[j] i) ∧ j = (r * d + c) / n ^ d ∧
        (i : ℕ) = (r * d + c) % n ^ d / n ^ (d - 1 - (if d < 2 then j else if j = 0 then 1 else if j = 1 then 0 else j)) % n := by
  set g : ℕ → List β := fun j => (ndCartesianProdIndices d n).map fun idx =>
      match x[j]?, idx[xyAxis d j]? with
      | some row, some i => row i
      | _, _ => default with hg
  have hlen : ∀ j, (g j).length = n ^ d := fun j => by simp [hg, (C19_cartesian_product d n).1]
  have h2 : ndCartesianProd2 x = chunks d (n ^ d) ((List.range d).map g).flatten := by
    simp only [ndCartesianProd2, hd]; rfl
  have hfl : ((List.range d).map g).flatten.length = d * n ^ d := by
    simp [List.length_flatten, hlen, Function.comp_def]
  rw [h2]
  have hp : 0 < n ^ d := by omega
  refine ⟨?_, _, by rw [getElem?_chunks, if_pos hr], ?_, ?_⟩
  · have hc : ∀ (k : ℕ) (l : List β), (chunks d k l).length = k := by
      intro k
      induction k with
      | zero => intro l; rfl
      | succ k ih => intro l; simp [chunks, ih]
    exact hc _ _
  · rw [List.length_take, List.length_drop, hfl]
    have : (r + 1) * d ≤ n ^ d * d := Nat.mul_le_mul_right _ hr
    rw [add_mul, one_mul] at this
    rw [min_eq_left]
    rw [Nat.mul_comm d (n ^ d)]; omega
  · intro c hc
    have hk : r * d + c < d * n ^ d := by
      have : (r + 1) * d ≤ n ^ d * d := Nat.mul_le_mul_right _ hr
      rw [add_mul, one_mul] at this
      rw [Nat.mul_comm d (n ^ d)]; omega
    set k := r * d + c with hkdef
    have hj : k / n ^ d < d := by rw [Nat.div_lt_iff_lt_mul hp]; exact hk
    obtain ⟨idx, hi1, hi2, hi3⟩ := getElem?_indices d n (k % n ^ d) (Nat.mod_lt _ hp)
    have hax : xyAxis d (k / n ^ d) < d := by
      rw [xyAxis]; split_ifs <;> omega
    have hi4 := hi3 _ hax
    rw [List.getElem?_eq_getElem (by omega), Option.map_some, Option.some.injEq] at hi4
    refine ⟨k / n ^ d, by omega, idx[xyAxis d (k / n ^ d)], ?_, rfl, ?_⟩
    · rw [List.getElem?_take_of_lt hc, List.getElem?_drop, ← hkdef, getElem?_flatten_const hp _ (by simp [hlen])]
      have hx : x[k / n ^ d]? = some (x[k / n ^ d]'(by omega)) := List.getElem?_eq_getElem _
      have hix : idx[xyAxis d (k / n ^ d)]? = some (idx[xyAxis d (k / n ^ d)]'(by omega)) := List.getElem?_eq_getElem _
      simp only [List.getElem?_map, List.getElem?_range hj, Option.map_some, Option.bind_some, hg, hi1, hx, hix]
    · rw [hi4, xyAxis]

/-- two rows of two values: the rows of the output are `(a, b), (a, b), (c, c), (d, d)`. -/
example (a b c d : ℕ) : ndCartesianProd2 [![a, b], ![c, d]] = [[a, b], [a, b], [c, c], [d, d]] := rfl

end Mfs.Props

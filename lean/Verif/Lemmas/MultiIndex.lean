import Mathlib.Data.List.Chain
import Mathlib.Data.Nat.Choose.Sum
import Mathlib.Tactic.Ring
import Mathlib.Tactic.Linarith
import Verif.Model.MultiIndex
import Verif.Spec.MultiIndex

/-! # Helper lemmas about the multi-index model -/

namespace Mfs.MultiIndex
open Mfs.Spec

/-- All `d`-dimensional multi-indices of sum `s`, in ascending lexicographic order. -/
def comps : ℕ → ℕ → List (List ℕ)
  | 0, 0 => [[]]
  | 0, _ + 1 => []
  | d + 1, s => (List.range (s + 1)).flatMap (fun a => (comps d (s - a)).map (fun x => a :: x))

theorem mem_comps {d s : ℕ} {x : List ℕ} : x ∈ comps d s ↔ x.length = d ∧ x.sum = s := by
  induction d generalizing s x with
  | zero =>
    cases s with
    | zero => simp [comps, List.length_eq_zero_iff]; rintro rfl; rfl
    | succ s => simp [comps, List.length_eq_zero_iff]; rintro rfl; simp
  | succ d ih =>
    simp only [comps, List.mem_flatMap, List.mem_range, List.mem_map, ih]
    constructor
    · rintro ⟨a, ha, y, ⟨h1, h2⟩, rfl⟩
      simp [h1, h2]; omega
    · rintro ⟨h1, h2⟩
      cases x with
      | nil => simp at h1
      | cons a y =>
        simp at h1 h2
        exact ⟨a, by omega, y, ⟨h1, by omega⟩, rfl⟩

/-- lexicographic comparison, inductive form. -/
theorem comps_ne_nil (d s : ℕ) : comps (d + 1) s ≠ [] := by
  intro h
  have : (s :: List.replicate d 0) ∈ comps (d + 1) s := by
    rw [mem_comps]; simp
  rw [h] at this; simp at this

theorem head?_comps (d s : ℕ) : (comps (d + 1) s).head? = some (List.replicate d 0 ++ [s]) := by
  induction d generalizing s with
  | zero =>
    simp only [comps]
    rw [List.range_succ, List.flatMap_append]
    cases s with
    | zero => simp [comps]
    | succ s =>
      have : (List.range (s + 1)).flatMap
          (fun a => (comps 0 (s + 1 - a)).map (fun x => a :: x)) = [] := by
        rw [List.flatMap_eq_nil_iff]
        intro a ha
        rw [List.mem_range] at ha
        obtain ⟨k, hk⟩ : ∃ k, s + 1 - a = k + 1 := ⟨s - a, by omega⟩
        rw [hk]; simp [comps]
      rw [this]; simp [comps]
  | succ d ih =>
    rw [comps, List.range_succ_eq_map, List.flatMap_cons, List.head?_append]
    simp [ih, List.replicate_succ]

theorem getLast?_comps (d s : ℕ) : (comps (d + 1) s).getLast? = some (s :: List.replicate d 0) := by
  induction d generalizing s with
  | zero =>
    rw [comps, List.range_succ, List.flatMap_append, List.getLast?_append]
    simp [comps]
  | succ d ih =>
    rw [comps, List.range_succ, List.flatMap_append, List.getLast?_append]
    simp [ih, List.replicate_succ]

theorem sum_map_range (f : ℕ → ℕ) (n : ℕ) :
    ((List.range n).map f).sum = ∑ i ∈ Finset.range n, f i := by
  induction n with
  | zero => simp
  | succ n ih => rw [List.range_succ, Finset.sum_range_succ]; simp [ih]

theorem length_comps_succ (d s : ℕ) :
    (comps (d + 1) s).length = ∑ t ∈ Finset.range (s + 1), (comps d t).length := by
  rw [comps, List.length_flatMap]
  simp only [List.length_map]
  rw [sum_map_range, ← Finset.sum_range_reflect (fun t => (comps d t).length)]
  apply Finset.sum_congr rfl
  intro i hi
  rw [Finset.mem_range] at hi
  congr 2

theorem length_comps_zero (s : ℕ) : (comps 0 s).length = if s = 0 then 1 else 0 := by
  cases s <;> simp [comps]

theorem length_comps (d s : ℕ) : (comps (d + 1) s).length = (s + d).choose s := by
  induction d generalizing s with
  | zero => simp [length_comps_succ, length_comps_zero]
  | succ d ih =>
    rw [length_comps_succ]
    simp only [ih]
    have := Nat.sum_range_add_choose s d
    have h2 : ∀ i, (i + d).choose i = (i + d).choose d := fun i => by
      rw [Nat.choose_symm_add]
    simp only [h2]
    rw [this, Nat.choose_symm_add, ← add_assoc]

/-- index into a `flatMap` over `range`. -/
theorem getElem?_flatMap_range {α : Type*} (f : ℕ → List α) (n a i : ℕ) (ha : a < n) (hi : i < (f a).length) :
    ((List.range n).flatMap f)[(∑ b ∈ Finset.range a, (f b).length) + i]? = (f a)[i]? := by
  induction n generalizing a i with
  | zero => omega
  | succ n ih =>
    rw [List.range_succ, List.flatMap_append]
    have hlen : ((List.range n).flatMap f).length = ∑ b ∈ Finset.range n, (f b).length := by
      rw [List.length_flatMap, sum_map_range]
    rcases Nat.lt_succ_iff_lt_or_eq.mp ha with h | h
    · rw [List.getElem?_append_left, ih a i h hi]
      rw [hlen]
      calc _ < (∑ b ∈ Finset.range a, (f b).length) + (f a).length := by omega
        _ = ∑ b ∈ Finset.range (a + 1), (f b).length := (Finset.sum_range_succ _ _).symm
        _ ≤ _ := Finset.sum_le_sum_of_subset (by
            intro x hx; simp at hx ⊢; omega)
    · subst h
      rw [List.getElem?_append_right (by rw [hlen]; omega), hlen]
      simp

/-- position of a multi-index inside its degree block. -/
def posOf : List ℕ → ℕ
  | [] => 0
  | a :: x => (∑ b ∈ Finset.range a, (comps x.length (a + x.sum - b)).length) + posOf x

theorem getElem?_posOf (x : List ℕ) : (comps x.length x.sum)[posOf x]? = some x := by
  induction x with
  | nil => simp [comps, posOf]
  | cons a x ih =>
    have hlt : posOf x < (comps x.length x.sum).length := by
      by_contra h
      rw [List.getElem?_eq_none (by omega)] at ih
      simp at ih
    simp only [List.length_cons, List.sum_cons, comps, posOf]
    have := getElem?_flatMap_range
      (fun b => (comps x.length (a + x.sum - b)).map (fun y => b :: y)) (a + x.sum + 1) a (posOf x) (by omega)
      (by simpa using hlt)
    simp only [List.length_map] at this
    rw [this]
    simp [ih]

theorem pyComb_nat (n k : ℕ) : pyComb n k = some ((n.choose k : ℕ) : ℤ) := by
  simp [pyComb]

theorem sum_Icc_length_comps (d u l : ℕ) :
    ∑ t ∈ Finset.Icc l u, (comps (d + 1) t).length
      = if u < l then 0 else (comps (d + 2) u).length - (if l = 0 then 0 else (comps (d + 2) (l - 1)).length) := by
  split_ifs with h1 h2
  · rw [Finset.Icc_eq_empty (by omega)]; simp
  · subst h2
    rw [length_comps_succ, Nat.sub_zero, Finset.range_eq_Ico]; rfl
  · rw [length_comps_succ, length_comps_succ, Nat.sub_add_cancel (by omega),
      ← Finset.Ico_add_one_right_eq_Icc,
      ← Finset.sum_range_add_sum_Ico (fun t => (comps (d + 1) t).length) (by omega : l ≤ u + 1)]
    omega

theorem sizeof_spec (d u l : ℕ) :
    sizeofMultiIndices ((d + 1 : ℕ) : ℤ) u l = some ((∑ t ∈ Finset.Icc l u, (comps (d + 1) t).length : ℕ) : ℤ) := by
  unfold sizeofMultiIndices
  rw [sum_Icc_length_comps]
  by_cases h0 : u = l
  · subst h0
    have e : ((u : ℤ) + ((d + 1 : ℕ) : ℤ) - 1) = ((u + d : ℕ) : ℤ) := by push_cast; ring
    rw [if_pos rfl, e, pyComb_nat]
    rw [if_neg (by omega)]
    congr 2
    rw [← length_comps]
    rw [length_comps_succ (d + 1) u]
    split_ifs with h
    · subst h; simp
    · rw [length_comps_succ (d + 1) (u - 1), Nat.sub_add_cancel (by omega : 1 ≤ u),
        Finset.sum_range_succ (fun t => (comps (d + 1) t).length)]; omega
  · rw [if_neg (by exact_mod_cast h0)]
    by_cases h1 : u < l
    · rw [if_pos (by exact_mod_cast h1), if_pos h1]; rfl
    · rw [if_neg (by exact_mod_cast h1), if_neg h1]
      by_cases h2 : l = 0
      · subst h2
        rw [if_pos (by rfl), ← Nat.cast_add, pyComb_nat]
        simp [length_comps]
      · rw [if_neg (by exact_mod_cast h2), if_neg h2]
        have e : ((l : ℤ) - 1) = ((l - 1 : ℕ) : ℤ) := by omega
        rw [e, ← Nat.cast_add, ← Nat.cast_add, pyComb_nat, pyComb_nat]
        simp only [Option.bind_eq_bind, Option.bind_some, Option.pure_def, Option.some.injEq]
        rw [length_comps, length_comps, Nat.cast_sub]
        rw [← length_comps (d + 1) (l - 1), ← length_comps (d + 1) u, length_comps_succ, length_comps_succ]
        apply Finset.sum_le_sum_of_subset
        intro x hx; simp at hx ⊢; omega

theorem sizeof_zero_spec (u l : ℕ) (hl : 1 ≤ l) : sizeofMultiIndices 0 u l = some 0 := by
  unfold sizeofMultiIndices
  by_cases h0 : u = l
  · subst h0
    have e : ((u : ℤ) + 0 - 1) = ((u - 1 : ℕ) : ℤ) := by omega
    rw [if_pos rfl, e, pyComb_nat, Nat.choose_eq_zero_of_lt (by omega)]; rfl
  · rw [if_neg (by exact_mod_cast h0)]
    by_cases h1 : u < l
    · rw [if_pos (by exact_mod_cast h1)]
    · have e : ((l : ℤ) - 1) = ((l - 1 : ℕ) : ℤ) := by omega
      rw [if_neg (by exact_mod_cast h1), if_neg (by exact_mod_cast (by omega : l ≠ 0)), add_zero, add_zero, e,
        pyComb_nat, pyComb_nat]
      simp

theorem sizeof_any (d u l : ℕ) (h : 1 ≤ d ∨ 1 ≤ l) :
    sizeofMultiIndices d u l = some ((∑ t ∈ Finset.Icc l u, (comps d t).length : ℕ) : ℤ) := by
  cases d with
  | succ d => exact sizeof_spec d u l
  | zero =>
    have hl : 1 ≤ l := by omega
    have := sizeof_zero_spec u l hl
    simp only [Nat.cast_zero] at *
    rw [this]
    simp only [Option.some.injEq]
    symm
    rw [Nat.cast_eq_zero, Finset.sum_eq_zero]
    intro t ht
    rw [Finset.mem_Icc] at ht
    rw [length_comps_zero, if_neg (by omega)]

theorem indexLoop_spec (x : List ℕ) (pos : ℤ) :
    indexLoop x pos (x.sum : ℕ) = some (pos + posOf x) := by
  induction x generalizing pos with
  | nil => simp [indexLoop, posOf]
  | cons a x ih =>
    simp only [indexLoop, posOf]
    have e : ((((a :: x).sum : ℕ) : ℤ) - (a : ℤ)) = ((x.sum : ℕ) : ℤ) := by simp
    rw [e]
    by_cases ha : a ≥ 1
    · rw [if_pos ha]
      have e2 : ((x.sum : ℕ) : ℤ) + 1 = ((x.sum + 1 : ℕ) : ℤ) := by push_cast; ring
      rw [e2, sizeof_any _ _ _ (Or.inr (by omega))]
      simp only [Option.bind_eq_bind, Option.bind_some, Option.pure_def]
      rw [ih]
      congr 1
      push_cast
      rw [← add_assoc]
      congr 2
      rw [List.sum_cons, ← Finset.Ico_add_one_right_eq_Icc, Finset.sum_Ico_eq_sum_range]
      have : a + x.sum + 1 - (x.sum + 1) = a := by omega
      rw [this, ← Finset.sum_range_reflect]
      apply Finset.sum_congr rfl
      intro i hi
      rw [Finset.mem_range] at hi
      congr 3
      omega
    · have : a = 0 := by omega
      subst this
      rw [if_neg ha]
      simp only [Option.pure_def, Option.bind_eq_bind, Option.bind_some, Finset.range_zero, Finset.sum_empty,
        zero_add]
      exact ih pos

/-! ### The successor -/

theorem next_top (s d : ℕ) : nextMultiIndex (s :: List.replicate d 0) = List.replicate d 0 ++ [s + 1] := by
  unfold nextMultiIndex
  simp only [List.tail_cons, List.length_cons, List.length_replicate, List.sum_cons, List.sum_replicate]
  rw [if_pos (by simp)]
  simp only [List.replicate_succ', Nat.add_sub_cancel, nsmul_zero, add_zero]
  rw [List.set_append_right _ _ (by simp)]
  simp

theorem lastNonzeroInd_cons (a : ℕ) (x : List ℕ) (h : x.any (fun a => a ≠ 0) = true) :
    lastNonzeroInd (a :: x) = lastNonzeroInd x + 1 := by
  unfold lastNonzeroInd
  have h' : x.reverse.findIdx (fun a => a ≠ 0) < x.reverse.length := by
    rw [List.findIdx_lt_length]
    simpa using h
  rw [List.reverse_cons, List.findIdx_append, if_pos h']
  rw [List.length_reverse] at h'
  simp only [List.length_cons]
  omega

theorem lastNonzeroInd_pos (x : List ℕ) (h : x.tail.any (fun a => a ≠ 0) = true) : 1 ≤ lastNonzeroInd x := by
  cases x with
  | nil => simp at h
  | cons a x => rw [lastNonzeroInd_cons a x h]; omega

theorem next_cons (a : ℕ) (x : List ℕ) (h : x.tail.any (fun a => a ≠ 0) = true) :
    nextMultiIndex (a :: x) = a :: nextMultiIndex x := by
  have hx : x.any (fun a => a ≠ 0) = true := by
    cases x with
    | nil => simp at h
    | cons b y => rw [List.tail_cons] at h; rw [List.any_cons, h, Bool.or_true]
  have hp := lastNonzeroInd_pos x h
  have hlen : 2 ≤ x.length := by
    match x, h with
    | [], h => simp at h
    | [_], h => simp at h
    | _ :: _ :: _, _ => simp
  unfold nextMultiIndex
  simp only [List.tail_cons, List.length_cons, hx, h, Bool.true_eq_false, if_false, lastNonzeroInd_cons a x hx]
  obtain ⟨n, hn⟩ : ∃ n, x.length = n + 2 := ⟨x.length - 2, by omega⟩
  obtain ⟨q, hq⟩ : ∃ q, lastNonzeroInd x = q + 1 := ⟨lastNonzeroInd x - 1, by omega⟩
  rw [hn, hq]
  by_cases h1 : q + 1 = n + 1
  · rw [if_pos (by omega), if_pos (by omega)]
    simp
  · rw [if_neg (by omega), if_neg (by omega)]
    simp

theorem next_carry (a t d : ℕ) :
    nextMultiIndex (a :: (t + 1) :: List.replicate d 0) = (a + 1) :: (List.replicate d 0 ++ [t]) := by
  have hl : lastNonzeroInd (a :: (t + 1) :: List.replicate d 0) = 1 := by
    rw [lastNonzeroInd_cons _ _ (by simp)]
    unfold lastNonzeroInd
    rw [List.reverse_cons, List.findIdx_append]
    have : List.findIdx (fun a => decide (a ≠ 0)) (List.replicate d 0).reverse = d := by
      have := List.findIdx_eq_length (p := fun a : ℕ => decide (a ≠ 0)) (xs := (List.replicate d 0).reverse)
      rw [List.length_reverse, List.length_replicate] at this
      rw [this]; simp
    rw [this]
    simp
  unfold nextMultiIndex
  rw [hl]
  simp only [List.tail_cons, List.length_cons, List.length_replicate]
  rw [if_neg (by simp)]
  cases d with
  | zero => simp
  | succ d =>
    rw [if_neg (by omega)]
    have key : ∀ (n t : ℕ) , (List.replicate (n + 1) 0).modify n (fun a => a + t)
        = List.replicate n 0 ++ [t] := by
      intro n t
      induction n with
      | zero => simp
      | succ n ih => rw [List.replicate_succ, List.modify_succ_cons, ih, List.replicate_succ]; simp
    simp
    have := key (d + 1) t
    rw [List.replicate_succ] at this
    simpa [List.replicate_succ] using this

theorem isChain_comps (d s : ℕ) (hd : 1 ≤ d) :
    List.IsChain (fun x y => nextMultiIndex x = y) (comps (d + 1) s) := by
  induction d generalizing s with
  | zero => omega
  | succ d ih =>
    rw [comps, List.flatMap_def, List.isChain_flatten]
    · constructor
      · intro l hl
        rw [List.mem_map] at hl
        obtain ⟨a, _, rfl⟩ := hl
        rw [List.isChain_map]
        cases d with
        | zero =>
          have : comps (0 + 1) (s - a) = [[s - a]] := by
            have h1 := length_comps 0 (s - a)
            have h2 := head?_comps 0 (s - a)
            simp at h1 h2
            match hh : comps (0 + 1) (s - a) with
            | [] => simp [hh] at h1
            | [y] => simp [hh] at h2; simp [h2]
            | _ :: _ :: _ => simp [hh] at h1
          rw [this]; simp
        | succ d =>
          have := ih (s - a) (by omega)
          refine this.imp_of_mem_imp ?_
          intro x y hx hy hxy
          rw [next_cons a x, hxy]
          by_contra hne
          rw [mem_comps] at hx hy
          match x, hx, hne, hxy with
          | b :: x, hx, hne, hxy =>
            have hz : x = List.replicate x.length 0 := by
              rw [List.eq_replicate_iff]
              refine ⟨rfl, fun b hb => ?_⟩
              by_contra hb0
              apply hne
              rw [List.tail_cons, List.any_eq_true]
              exact ⟨b, hb, by simpa using hb0⟩
            rw [hz, next_top] at hxy
            rw [hz] at hx
            rw [← hxy] at hy
            simp at hx hy
            omega
      · rw [List.isChain_map]
        have : List.IsChain (fun a b => b = a + 1 ∧ b < s + 1) (List.range (s + 1)) := by
          rw [List.isChain_iff_getElem]
          intro i hi
          simp at hi ⊢
          omega
        refine this.imp ?_
        rintro a b ⟨rfl, hb⟩ x hx y hy
        obtain ⟨t, ht⟩ : ∃ t, s - a = t + 1 := ⟨s - a - 1, by omega⟩
        have ht' : s - (a + 1) = t := by omega
        rw [ht] at hx
        rw [ht'] at hy
        simp [getLast?_comps] at hx
        simp [head?_comps] at hy
        rw [← hx, ← hy, next_carry]
    · simp [comps_ne_nil]

/-! ### The whole table -/

/-- canonical table: the degree blocks `lower, …, upper` one after the other. -/
def table (d upper lower : ℕ) : List (List ℕ) :=
  (List.range' lower (upper + 1 - lower)).flatMap (comps d)

theorem mem_table {d upper lower : ℕ} {x : List ℕ} :
    x ∈ table d upper lower ↔ IsMultiIndex d upper lower x := by
  simp only [table, List.mem_flatMap, List.mem_range'_1, mem_comps, IsMultiIndex]
  constructor
  · rintro ⟨s, h1, h2, rfl⟩; exact ⟨h2, by omega, by omega⟩
  · rintro ⟨h1, h2, h3⟩; exact ⟨x.sum, by omega, h1, rfl⟩

theorem sum_map_range' (f : ℕ → ℕ) (a n : ℕ) :
    ((List.range' a n).map f).sum = ∑ i ∈ Finset.range n, f (a + i) := by
  induction n generalizing a with
  | zero => simp
  | succ n ih =>
    rw [List.range'_succ, Finset.sum_range_succ']
    simp [ih, add_comm, add_left_comm]

theorem length_table (d upper lower : ℕ) :
    (table d upper lower).length = ∑ t ∈ Finset.Icc lower upper, (comps d t).length := by
  rw [table, List.length_flatMap, sum_map_range', ← Finset.Ico_add_one_right_eq_Icc,
    Finset.sum_Ico_eq_sum_range]

theorem iterate_of_isChain {α : Type*} (f : α → α) (l : List α) (a : α)
    (hc : List.IsChain (fun x y => f x = y) l) (hh : l.head? = some a) : List.iterate f a l.length = l := by
  induction l generalizing a with
  | nil => simp at hh
  | cons b l ih =>
    simp at hh
    subst hh
    simp only [List.length_cons, List.iterate]
    congr 1
    cases l with
    | nil => simp
    | cons c l =>
      rw [List.isChain_cons_cons] at hc
      exact ih (f b) hc.2 (by simp [hc.1])

theorem isChain_table (d upper lower : ℕ) (hd : 2 ≤ d) :
    List.IsChain (fun x y => nextMultiIndex x = y) (table d upper lower) := by
  obtain ⟨d, rfl⟩ : ∃ e, d = e + 2 := ⟨d - 2, by omega⟩
  rw [table, List.flatMap_def, List.isChain_flatten]
  · constructor
    · intro l hl
      rw [List.mem_map] at hl
      obtain ⟨s, _, rfl⟩ := hl
      exact isChain_comps (d + 1) s (by omega)
    · rw [List.isChain_map]
      have : List.IsChain (fun a b => b = a + 1) (List.range' lower (upper + 1 - lower)) := by
        rw [List.isChain_iff_getElem]
        intro i hi
        simp at hi ⊢
        omega
      refine this.imp ?_
      rintro a b rfl x hx y hy
      simp [getLast?_comps] at hx
      simp [head?_comps] at hy
      rw [← hx, ← hy, next_top]
  · simp [comps_ne_nil]

theorem generate_eq_table (d upper lower : ℕ) (hd : 1 ≤ d) (h : lower ≤ upper) :
    generateMultiIndices d upper lower = .ok (table d upper lower) := by
  unfold generateMultiIndices
  by_cases h1 : d = 1
  · subst h1
    rw [if_pos rfl, if_neg (by omega)]
    have : ∀ s, comps 1 s = [[s]] := by
      intro s
      have h1 := length_comps 0 s
      have h2 := head?_comps 0 s
      simp at h1 h2
      match hh : comps 1 s with
      | [] => simp [hh] at h1
      | [y] => simp [hh] at h2; simp [h2]
      | _ :: _ :: _ => simp [hh] at h1
    rw [table, List.map_eq_flatMap, show comps 1 = fun x => [[x]] from funext this]
  · rw [if_neg h1, sizeof_any d upper lower (Or.inl hd), ← length_table]
    have hhead : (table d upper lower).head? = some ((List.replicate d 0).set (d - 1) lower) := by
      obtain ⟨e, rfl⟩ : ∃ e, d = e + 1 := ⟨d - 1, by omega⟩
      obtain ⟨n, hn⟩ : ∃ n, upper + 1 - lower = n + 1 := ⟨upper - lower, by omega⟩
      rw [table, hn, List.range'_succ, List.flatMap_cons, List.head?_append, head?_comps]
      simp only [List.replicate_succ', Nat.add_sub_cancel]
      rw [List.set_append_right _ _ (by simp)]
      simp
    have hpos : 0 < (table d upper lower).length := by
      rw [List.length_pos_iff]
      intro h0; rw [h0] at hhead; simp at hhead
    simp only
    rw [if_neg (by exact_mod_cast (by omega : ¬ (table d upper lower).length ≤ 0)), Int.toNat_natCast]
    rw [iterate_of_isChain nextMultiIndex (table d upper lower) _ (isChain_table d upper lower (by omega)) hhead]

/-! ### Order -/

theorem gradedLexLt_cons (a : ℕ) {x y : List ℕ} (h : GradedLexLt x y) : GradedLexLt (a :: x) (a :: y) := by
  rcases h with h | ⟨h1, k, h2, h3⟩
  · left; simpa using h
  · right
    refine ⟨by simpa using h1, k + 1, ?_, by simpa using h3⟩
    intro j hj
    cases j with
    | zero => simp
    | succ j => simpa using h2 j (by omega)

theorem pairwise_comps (d s : ℕ) : (comps d s).Pairwise GradedLexLt := by
  induction d generalizing s with
  | zero => cases s <;> simp [comps]
  | succ d ih =>
    rw [comps, List.pairwise_flatMap]
    constructor
    · intro a _
      rw [List.pairwise_map]
      exact (ih (s - a)).imp (gradedLexLt_cons a)
    · have : (List.range (s + 1)).Pairwise (fun a b => a < b ∧ b < s + 1) := by
        rw [List.pairwise_iff_getElem]
        intro i j hi hj hij
        simp at hi hj ⊢
        omega
      refine this.imp ?_
      rintro a b ⟨hab, hb⟩ x hx y hy
      rw [List.mem_map] at hx hy
      obtain ⟨x, hx, rfl⟩ := hx
      obtain ⟨y, hy, rfl⟩ := hy
      rw [mem_comps] at hx hy
      right
      refine ⟨by simp [hx.2, hy.2]; omega, 0, by simp, by simpa using hab⟩

theorem pairwise_table (d upper lower : ℕ) : (table d upper lower).Pairwise GradedLexLt := by
  rw [table, List.pairwise_flatMap]
  refine ⟨fun s _ => pairwise_comps d s, ?_⟩
  have : (List.range' lower (upper + 1 - lower)).Pairwise (fun a b => a < b) := List.pairwise_lt_range'
  refine this.imp ?_
  intro a b hab x hx y hy
  rw [mem_comps] at hx hy
  left; omega

theorem gradedLexLt_irrefl (x : List ℕ) : ¬ GradedLexLt x x := by
  rintro (h | ⟨_, k, _, h⟩) <;> omega

theorem nodup_table (d upper lower : ℕ) : (table d upper lower).Nodup :=
  (pairwise_table d upper lower).imp (fun {a b} h (hab : a = b) => gradedLexLt_irrefl a (by rw [← hab] at h; exact h))

/-! ### Lookup -/

theorem getElem?_flatMap_range' {α : Type*} (f : ℕ → List α) (l n a i : ℕ) (ha : a < n) (hi : i < (f (l + a)).length) :
    ((List.range' l n).flatMap f)[(∑ b ∈ Finset.range a, (f (l + b)).length) + i]? = (f (l + a))[i]? := by
  have : (List.range' l n).flatMap f = (List.range n).flatMap (fun b => f (l + b)) := by
    rw [List.range'_eq_map_range, List.flatMap_map]
  rw [this]
  exact getElem?_flatMap_range (fun b => f (l + b)) n a i ha hi

theorem indexof_spec (d upper lower : ℕ) (x : List ℕ) (hd : 1 ≤ d) (hx : IsMultiIndex d upper lower x) :
    ∃ i : ℕ, gradedLexicoIndexof x lower = some (i : ℤ) ∧ (table d upper lower)[i]? = some x := by
  obtain ⟨rfl, h1, h2⟩ := hx
  have hlt : posOf x < (comps x.length x.sum).length := by
    have := getElem?_posOf x
    by_contra h
    rw [List.getElem?_eq_none (by omega)] at this
    simp at this
  refine ⟨(∑ b ∈ Finset.range (x.sum - lower), (comps x.length (lower + b)).length) + posOf x, ?_, ?_⟩
  · unfold gradedLexicoIndexof
    have hsz : sizeofMultiIndices (x.length : ℤ) (((x.sum : ℕ) : ℤ) - 1) 0
        = some ((∑ t ∈ Finset.range x.sum, (comps x.length t).length : ℕ) : ℤ) := by
      rcases Nat.eq_zero_or_pos x.sum with h0 | h0
      · rw [h0]; simp [sizeofMultiIndices]
      · have e : (((x.sum : ℕ) : ℤ) - 1) = ((x.sum - 1 : ℕ) : ℤ) := by omega
        rw [e]
        have := sizeof_any x.length (x.sum - 1) 0 (Or.inl hd)
        simp only [Nat.cast_zero] at this
        rw [this]
        rw [← Finset.Ico_add_one_right_eq_Icc, show x.sum - 1 + 1 = x.sum by omega, Finset.range_eq_Ico]
    simp only [hsz, Option.bind_eq_bind, Option.bind_some, indexLoop_spec]
    have hsplit := Finset.sum_range_add_sum_Ico (fun t => (comps x.length t).length) h1
    rw [Finset.sum_Ico_eq_sum_range] at hsplit
    by_cases hl : lower = 0
    · subst hl
      simp
    · rw [if_pos (by exact_mod_cast hl)]
      have e : ((lower : ℤ) - 1) = ((lower - 1 : ℕ) : ℤ) := by omega
      have := sizeof_any x.length (lower - 1) 0 (Or.inl hd)
      simp only [Nat.cast_zero] at this
      rw [e, this, ← Finset.Ico_add_one_right_eq_Icc, show lower - 1 + 1 = lower by omega, ← Finset.range_eq_Ico]
      simp only [Option.bind_some, Option.pure_def, Option.some.injEq]
      rw [← hsplit]
      push_cast
      ring
  · have := getElem?_flatMap_range' (comps x.length) lower (upper + 1 - lower) (x.sum - lower) (posOf x)
      (by omega) (by rw [Nat.add_sub_cancel' h1]; exact hlt)
    rw [table, this, Nat.add_sub_cancel' h1]
    exact getElem?_posOf x

end Mfs.MultiIndex

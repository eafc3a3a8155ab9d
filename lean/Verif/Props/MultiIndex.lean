import Verif.Lemmas.MultiIndex
import Verif.Model.Extract
import Mathlib.Data.Set.Card

/-!
# Properties C01–C07: multi-indices and moment extraction
-/

namespace Mfs.Props

open Mfs.MultiIndex Mfs.Spec

/-! ## C01 -/

/-- **C01.** For every dimension `d ≥ 1` and every `lower ≤ upper`, generation succeeds, and the table contains exactly
the multi-indices with total between `lower` and `upper`, each once. -/
theorem C01_generate_complete (d upper lower : ℕ) (hd : 1 ≤ d) (h : lower ≤ upper) :
    ∃ t, generateMultiIndices d upper lower = .ok t ∧ t.Nodup ∧
      ∀ x, x ∈ t ↔ IsMultiIndex d upper lower x :=
  ⟨_, generate_eq_table d upper lower hd h, nodup_table d upper lower, fun _ => mem_table⟩

/-- The hypotheses are met by `d = 2`, `upper = 2`, `lower = 1`, and the table is not trivial. -/
example : (1 : ℕ) ≤ 2 ∧ (1 : ℕ) ≤ 2 ∧
    generateMultiIndices 2 2 1 = .ok [[0, 1], [1, 0], [0, 2], [1, 1], [2, 0]] := by
  refine ⟨by norm_num, by norm_num, ?_⟩
  rw [generate_eq_table 2 2 1 (by norm_num) (by norm_num)]
  rfl

/-! ## C02 -/

/-- **C02.** Rows of the generated table are strictly increasing in the graded lexicographic order (every earlier row
is smaller than every later row, in particular consecutive ones). -/
theorem C02_generate_sorted (d upper lower : ℕ) (hd : 1 ≤ d) (t : List (List ℕ))
    (h : generateMultiIndices d upper lower = .ok t) : t.Pairwise GradedLexLt := by
  by_cases hl : lower ≤ upper
  · rw [generate_eq_table d upper lower hd hl] at h
    cases h
    exact pairwise_table d upper lower
  · exfalso
    unfold generateMultiIndices at h
    have hl' : upper < lower := by omega
    by_cases h1 : d = 1
    · simp [h1, hl'] at h
    · rw [if_neg h1] at h
      have : sizeofMultiIndices d upper lower = some 0 := by
        unfold sizeofMultiIndices
        rw [if_neg (by omega), if_pos (by omega)]
      simp [this] at h

example : GradedLexLt [0, 3] [1, 2] ∧ GradedLexLt [2, 0] [0, 3] := by
  constructor
  · right; exact ⟨rfl, 0, by simp, by simp⟩
  · left; simp

/-! ## C03 -/

/-- **C03.** The closed-form count is the cardinality of the set of multi-indices (for `lower > upper` both are `0`),
and the generated table has that many rows. -/
theorem C03_sizeof_card (d upper lower : ℕ) (hd : 1 ≤ d) :
    sizeofMultiIndices d upper lower = some (({x | IsMultiIndex d upper lower x} : Set (List ℕ)).ncard : ℤ) ∧
    ∀ t, generateMultiIndices d upper lower = .ok t → sizeofMultiIndices d upper lower = some (t.length : ℤ) := by
  have hset : ({x | IsMultiIndex d upper lower x} : Set (List ℕ)) = ((table d upper lower).toFinset : Set (List ℕ)) := by
    ext x; simp [mem_table]
  have hcard : sizeofMultiIndices d upper lower = some ((table d upper lower).length : ℤ) := by
    rw [length_table]; exact sizeof_any d upper lower (Or.inl hd)
  refine ⟨?_, ?_⟩
  · rw [hset, Set.ncard_coe_finset, List.toFinset_card_of_nodup (nodup_table d upper lower), hcard]
  · intro t ht
    by_cases hl : lower ≤ upper
    · rw [generate_eq_table d upper lower hd hl] at ht
      cases ht
      exact hcard
    · exfalso
      unfold generateMultiIndices at ht
      have hl' : upper < lower := by omega
      by_cases h1 : d = 1
      · simp [h1, hl'] at ht
      · rw [if_neg h1] at ht
        have : sizeofMultiIndices d upper lower = some 0 := by
          unfold sizeofMultiIndices
          rw [if_neg (by omega), if_pos (by omega)]
        simp [this] at ht

example : sizeofMultiIndices 3 5 2 = some 52 := by decide

/-! ## C04 -/

/-- **C04.** Lookup inverts generation, for every upper sum: the index of a multi-index is the row where it stands,
and looking up row `i` gives `i`. -/
theorem C04_indexof_inverts (d upper lower : ℕ) (hd : 1 ≤ d) (t : List (List ℕ))
    (h : generateMultiIndices d upper lower = .ok t) :
    (∀ x, IsMultiIndex d upper lower x →
      ∃ i : ℕ, gradedLexicoIndexof x lower = some (i : ℤ) ∧ t[i]? = some x) ∧
    (∀ (i : ℕ) (x : List ℕ), t[i]? = some x → gradedLexicoIndexof x lower = some (i : ℤ)) := by
  by_cases hl : lower ≤ upper
  · rw [generate_eq_table d upper lower hd hl] at h
    cases h
    refine ⟨fun x hx => indexof_spec d upper lower x hd hx, ?_⟩
    intro i x hi
    have hx : IsMultiIndex d upper lower x := mem_table.1 (List.mem_of_getElem? hi)
    obtain ⟨j, hj, hj'⟩ := indexof_spec d upper lower x hd hx
    rw [hj]
    have hlt : i < (table d upper lower).length := by
      by_contra hc
      rw [List.getElem?_eq_none (by omega)] at hi; simp at hi
    have := (List.getElem?_inj hlt (nodup_table d upper lower)).1 (hi.trans hj'.symm)
    rw [this]
  · exfalso
    unfold generateMultiIndices at h
    have hl' : upper < lower := by omega
    by_cases h1 : d = 1
    · simp [h1, hl'] at h
    · rw [if_neg h1] at h
      have : sizeofMultiIndices d upper lower = some 0 := by
        unfold sizeofMultiIndices
        rw [if_neg (by omega), if_pos (by omega)]
      simp [this] at h

example : gradedLexicoIndexof [1, 0, 2] 2 = some 10 := by decide

/-! ## C06 -/

/-- **C06.** The table for `upper` is a prefix of the table for any larger `upper'`, and the position of a multi-index
is the same in both. -/
theorem C06_prefix (d upper upper' lower : ℕ) (hd : 1 ≤ d) (h : lower ≤ upper) (hu : upper ≤ upper') :
    ∃ t t', generateMultiIndices d upper lower = .ok t ∧ generateMultiIndices d upper' lower = .ok t' ∧ t <+: t' := by
  refine ⟨_, _, generate_eq_table d upper lower hd h, generate_eq_table d upper' lower hd (h.trans hu), ?_⟩
  have : List.range' lower (upper' + 1 - lower)
      = List.range' lower (upper + 1 - lower) ++ List.range' (lower + (upper + 1 - lower)) (upper' - upper) := by
    rw [List.range'_append_1]; congr 1; omega
  rw [table, table, this, List.flatMap_append]
  exact List.prefix_append _ _

example : ([[0, 1], [1, 0]] : List (List ℕ)) <+: [[0, 1], [1, 0], [0, 2], [1, 1], [2, 0]] ∧
    generateMultiIndices 2 1 1 = .ok [[0, 1], [1, 0]] := by
  refine ⟨⟨[[0, 2], [1, 1], [2, 0]], rfl⟩, ?_⟩
  rw [generate_eq_table 2 1 1 (by norm_num) (by norm_num)]
  rfl

/-! ## C05 -/

theorem mapM_some {α β : Type*} (f : α → Option β) (g : α → β) (l : List α) (h : ∀ x ∈ l, f x = some (g x)) :
    l.mapM f = some (l.map g) := by
  induction l with
  | nil => rfl
  | cons a l ih =>
    rw [List.mapM_cons, h a (by simp), ih (fun x hx => h x (by simp [hx]))]
    rfl

theorem sum_addRows (x y : List ℕ) (h : x.length = y.length) : (addRows x y).sum = x.sum + y.sum := by
  induction x generalizing y with
  | nil => cases y <;> simp_all [addRows]
  | cons a x ih =>
    cases y with
    | nil => simp at h
    | cons b y =>
      have := ih y (by simpa using h)
      simp only [addRows, List.zipWith_cons_cons, List.sum_cons] at this ⊢
      omega

theorem sum_modify_succ (x : List ℕ) (i : ℕ) (h : i < x.length) : (x.modify i (· + 1)).sum = x.sum + 1 := by
  induction x generalizing i with
  | nil => simp at h
  | cons a x ih =>
    cases i with
    | zero => simp; omega
    | succ i => simp [ih i (by simpa using h)]; omega

/-- **C05.** For every `N ≥ 1`, `d ≥ 1`, the call succeeds and returns `d + 1` square matrices of the size of the basis;
entry `(a, b)` of matrix `0` is the row of `basis_a + basis_b` and entry `(a, b)` of matrix `i + 1` is the row of
`basis_a + basis_b + e_i`, rows being those of the table of all orders up to `2 N - 1` (so never out of range). -/
theorem C05_gram_hankel_indices (N d : ℕ) (hN : 1 ≤ N) (hd : 1 ≤ d) :
    ∃ basis full mats, generateMultiIndices d (N - 1) 0 = .ok basis ∧
      generateMultiIndices d (2 * N - 1) 0 = .ok full ∧
      gramAndHankelIndices N d = .ok mats ∧
      mats.length = d + 1 ∧
      (∀ m ∈ mats, m.length = basis.length ∧ ∀ row ∈ m, row.length = basis.length) ∧
      ∀ (a b : ℕ) (x y : List ℕ), basis[a]? = some x → basis[b]? = some y →
        (∃ k : ℕ, ((mats[0]?.bind (·[a]?)).bind (·[b]?)) = some (k : ℤ) ∧
            full[k]? = some (List.zipWith (· + ·) x y)) ∧
        ∀ i < d, ∃ k : ℕ, ((mats[i + 1]?.bind (·[a]?)).bind (·[b]?)) = some (k : ℤ) ∧
            full[k]? = some ((List.zipWith (· + ·) x y).modify i (· + 1)) := by
  set basis := table d (N - 1) 0 with hb
  set full := table d (2 * N - 1) 0 with hf
  let g : List ℕ → ℤ := fun x => (gradedLexicoIndexof x 0).getD 0
  have hg : ∀ x, IsMultiIndex d (2 * N - 1) 0 x →
      gradedLexicoIndexof x 0 = some (g x) ∧ ∃ k : ℕ, g x = k ∧ full[k]? = some x := by
    intro x hx
    obtain ⟨k, h1, h2⟩ := indexof_spec d (2 * N - 1) 0 x hd hx
    rw [Nat.cast_zero] at h1
    simp only [g, h1, Option.getD_some]
    exact ⟨trivial, k, rfl, h2⟩
  have hadd : ∀ x ∈ basis, ∀ y ∈ basis, (addRows x y).length = d ∧ (addRows x y).sum ≤ 2 * N - 2 := by
    intro x hx y hy
    rw [hb, mem_table] at hx hy
    have e : x.length = y.length := by rw [hx.1, hy.1]
    refine ⟨by simp [addRows, hx.1, hy.1], ?_⟩
    rw [sum_addRows x y e]
    have := hx.2.2; have := hy.2.2; omega
  let mat (tr : List ℕ → List ℕ) : List (List (List ℕ)) :=
    (basis.map (fun a => basis.map (fun b => tr (addRows a b))))
  have hmat : ∀ tr : List ℕ → List ℕ,
      (∀ x ∈ basis, ∀ y ∈ basis, IsMultiIndex d (2 * N - 1) 0 (tr (addRows x y))) →
      (mat tr).mapM (fun row => findIndices row) = some ((mat tr).map (fun row => row.map g)) := by
    intro tr htr
    apply mapM_some
    intro row hrow
    apply mapM_some
    intro x hx
    simp only [mat, List.mem_map] at hrow
    obtain ⟨a, ha, rfl⟩ := hrow
    rw [List.mem_map] at hx
    obtain ⟨b, hb', rfl⟩ := hx
    exact (hg _ (htr a ha b hb')).1
  have h0 : ∀ x ∈ basis, ∀ y ∈ basis, IsMultiIndex d (2 * N - 1) 0 (addRows x y) := by
    intro x hx y hy
    have := hadd x hx y hy
    exact ⟨this.1, by omega, by omega⟩
  have hi : ∀ i < d, ∀ x ∈ basis, ∀ y ∈ basis, IsMultiIndex d (2 * N - 1) 0 ((addRows x y).modify i (· + 1)) := by
    intro i hi x hx y hy
    have := hadd x hx y hy
    refine ⟨by rw [List.length_modify]; exact this.1, by omega, ?_⟩
    rw [sum_modify_succ _ _ (by rw [this.1]; exact hi)]
    omega
  refine ⟨basis, full, (mat id).map (fun row => row.map g) ::
    (List.range d).map (fun i => (mat (fun x => x.modify i (· + 1))).map (fun row => row.map g)),
    generate_eq_table d _ 0 hd (by omega), generate_eq_table d _ 0 hd (by omega), ?_, by simp, ?_, ?_⟩
  · unfold gramAndHankelIndices
    rw [generate_eq_table d (N - 1) 0 hd (by omega)]
    simp only [List.map_map, Function.comp_def]
    rw [← hb]
    have hms : List.mapM (fun m : List (List (List ℕ)) => List.mapM (fun row => findIndices row) m)
        (mat id :: (List.range d).map (fun i => mat (fun x => x.modify i (· + 1))))
        = some ((mat id :: (List.range d).map (fun i => mat (fun x => x.modify i (· + 1)))).map
          (fun m => m.map (fun row => row.map g))) := by
      apply mapM_some
      intro m hm
      simp only [List.mem_cons, List.mem_map, List.mem_range] at hm
      rcases hm with rfl | ⟨i, hid, rfl⟩
      · exact hmat id h0
      · exact hmat _ (hi i hid)
    have e1 : (basis.map (fun a => basis.map (fun b => addRows a b))) = mat id := rfl
    have e2 : (List.range d).map (fun i => basis.map (fun a => basis.map (fun b => (addRows a b).modify i (· + 1))))
        = (List.range d).map (fun i => mat (fun x => x.modify i (· + 1))) := rfl
    rw [e1, e2, hms]
    simp [List.map_map, Function.comp_def]
  · intro m hm
    simp only [List.mem_cons, List.mem_map, List.mem_range] at hm
    rcases hm with rfl | ⟨i, hid, rfl⟩ <;> simp [mat]
  · intro a b x y hx hy
    have hxm := List.mem_of_getElem? hx
    have hym := List.mem_of_getElem? hy
    have key : ∀ tr : List ℕ → List ℕ,
        (((mat tr).map (fun row => row.map g))[a]?.bind (·[b]?)) = some (g (tr (addRows x y))) := by
      intro tr
      simp [mat, List.getElem?_map, hx, hy]
    constructor
    · obtain ⟨_, k, hk, hk'⟩ := hg _ (h0 x hxm y hym)
      refine ⟨k, ?_, hk'⟩
      simp only [List.getElem?_cons_zero, Option.bind_some]
      rw [key id, ← hk]; rfl
    · intro i hid
      obtain ⟨_, k, hk, hk'⟩ := hg _ (hi i hid x hxm y hym)
      refine ⟨k, ?_, hk'⟩
      simp only [List.getElem?_cons_succ, List.getElem?_map, List.getElem?_range hid, Option.map_some, Option.bind_some]
      have := key (fun x => x.modify i (· + 1))
      rw [List.getElem?_map] at this
      rw [this, ← hk]

example : gramAndHankelIndices 2 1 = .ok [[[0, 1], [1, 2]], [[1, 2], [2, 3]]] := by rfl

/-! ## C07 -/

theorem extract_spec {α : Type} (d upper : ℕ) (hd : 1 ≤ d) (m : List ℕ → α) (t : List (List ℕ))
    (h : generateMultiIndices d upper 0 = .ok t) (x : List ℕ) (hx : IsMultiIndex d upper 0 x) :
    extractMoments (t.map m) x = some (m x) := by
  obtain ⟨i, h1, h2⟩ := (C04_indexof_inverts d upper 0 hd t h).1 x hx
  rw [Nat.cast_zero] at h1
  simp [extractMoments, h1, npGet, h2]

/-- the multi-index `e_i`, as a specification. -/
def unitIndex (d i : ℕ) : List ℕ := (List.range d).map (fun j => if j = i then 1 else 0)

/-- the multi-index `e_i + e_j`, as a specification. -/
def pairIndex (d i j : ℕ) : List ℕ :=
  (List.range d).map (fun l => (if l = i then 1 else 0) + (if l = j then 1 else 0))

/-- the multi-index `k e_a`, as a specification. -/
def axisIndex (d a k : ℕ) : List ℕ := (List.range d).map (fun l => if l = a then k else 0)

theorem set_eq_axisIndex (d a k : ℕ) : (List.replicate d 0).set a k = axisIndex d a k := by
  apply List.ext_getElem
  · simp [axisIndex]
  · intro n h1 h2
    simp only [axisIndex, List.getElem_set, List.getElem_replicate, List.getElem_map, List.getElem_range]
    by_cases h : a = n
    · simp [h]
    · simp [h, Ne.symm h]

theorem modify_eq_pairIndex (d i j : ℕ) :
    ((List.replicate d 0).set i 1).modify j (· + 1) = pairIndex d i j := by
  apply List.ext_getElem
  · simp [pairIndex]
  · intro n h1 h2
    simp only [pairIndex, List.getElem_modify, List.getElem_set, List.getElem_replicate, List.getElem_map,
      List.getElem_range]
    by_cases h : i = n <;> by_cases h' : j = n <;> simp [h, h', eq_comm]

theorem sum_axisIndex (d a k : ℕ) (ha : a < d) : (axisIndex d a k).sum = k := by
  rw [axisIndex, sum_map_range, Finset.sum_ite_eq' (Finset.range d) a (fun _ => k), if_pos (by simpa using ha)]

theorem sum_pairIndex (d i j : ℕ) (hi : i < d) (hj : j < d) : (pairIndex d i j).sum = 2 := by
  rw [pairIndex, sum_map_range, Finset.sum_add_distrib, Finset.sum_ite_eq' (Finset.range d) i (fun _ => 1),
    Finset.sum_ite_eq' (Finset.range d) j (fun _ => 1), if_pos (by simpa using hi), if_pos (by simpa using hj)]

/-- **C07.** Let `ms` hold a family `m` of numbers indexed by multi-indices, in the order of the table for orders up to
`upper`. `extract_moments` returns `m α`; `extract_mean` the vector `m(e_i)` (if `upper ≥ 1`); `extract_cov` the matrix
`m(e_i + e_j)` (if `upper ≥ 2`), which is symmetric; `marginalise_moments` the vector `m(k e_axis)`, `k < 2 N`
(if `upper ≥ 2 N - 1`). -/
theorem C07_extract {α : Type} (d upper : ℕ) (hd : 1 ≤ d) (m : List ℕ → α) (t : List (List ℕ))
    (h : generateMultiIndices d upper 0 = .ok t) :
    (∀ x, IsMultiIndex d upper 0 x → extractMoments (t.map m) x = some (m x)) ∧
    (1 ≤ upper → extractMean (t.map m) d = some ((List.range d).map (fun i => m (unitIndex d i)))) ∧
    (2 ≤ upper → extractCov (t.map m) d
        = some ((List.range d).map (fun i => (List.range d).map (fun j => m (pairIndex d i j))))) ∧
    (∀ i j, pairIndex d i j = pairIndex d j i) ∧
    (∀ N a, 2 * N - 1 ≤ upper → a < d →
      marginaliseMoments (t.map m) d N a = some ((List.range (2 * N)).map (fun k => m (axisIndex d a k)))) := by
  have hu : ∀ i, unitIndex d i = axisIndex d i 1 := fun i => rfl
  refine ⟨fun x hx => extract_spec d upper hd m t h x hx, ?_, ?_, ?_, ?_⟩
  · intro h1
    apply mapM_some
    intro i hi
    rw [set_eq_axisIndex, hu]
    have hi' : i < d := by simpa using hi
    refine extract_spec d upper hd m t h _ ⟨by simp [axisIndex], by omega, ?_⟩
    rw [sum_axisIndex d i 1 hi']; exact h1
  · intro h2
    apply mapM_some
    intro i hi
    apply mapM_some
    intro j hj
    rw [modify_eq_pairIndex]
    refine extract_spec d upper hd m t h _ ⟨by simp [pairIndex], by omega, ?_⟩
    rw [sum_pairIndex d i j (by simpa using hi) (by simpa using hj)]; exact h2
  · intro i j
    simp [pairIndex, add_comm]
  · intro N a hN ha
    have hx : ∀ k ∈ List.range (2 * N), IsMultiIndex d upper 0 (axisIndex d a k) := by
      intro k hk
      refine ⟨by simp [axisIndex], by omega, ?_⟩
      rw [sum_axisIndex d a k ha]
      have : k < 2 * N := by simpa using hk
      omega
    have hf : findIndices ((List.range (2 * N)).map (fun k => (List.replicate d 0).set a k))
        = some (((List.range (2 * N)).map (fun k => axisIndex d a k)).map
            (fun x => (gradedLexicoIndexof x 0).getD 0)) := by
      simp only [set_eq_axisIndex]
      apply mapM_some
      intro x hxm
      rw [List.mem_map] at hxm
      obtain ⟨k, hk, rfl⟩ := hxm
      obtain ⟨i, h1, _⟩ := (C04_indexof_inverts d upper 0 hd t h).1 _ (hx k hk)
      rw [Nat.cast_zero] at h1
      rw [h1]; rfl
    unfold marginaliseMoments
    simp only [hf, Option.bind_eq_bind, Option.bind_some]
    rw [mapM_some (npGet (t.map m)) (fun i => (npGet (t.map m) i).getD (m []))]
    · simp only [List.map_map, Option.some.injEq]
      apply List.map_congr_left
      intro k hk
      obtain ⟨i, h1, h2⟩ := (C04_indexof_inverts d upper 0 hd t h).1 _ (hx k hk)
      rw [Nat.cast_zero] at h1
      simp [h1, npGet, h2]
    · intro z hz
      simp only [List.map_map, List.mem_map, Function.comp_apply] at hz
      obtain ⟨k, hk, rfl⟩ := hz
      obtain ⟨i, h1, h2⟩ := (C04_indexof_inverts d upper 0 hd t h).1 _ (hx k hk)
      rw [Nat.cast_zero] at h1
      simp [h1, npGet, h2]

/-- a non-trivial instance of C07: second-order moments in two dimensions, stored as symbols. -/
example : extractCov ["1", "y", "x", "yy", "xy", "xx"] 2 = some [["xx", "xy"], ["xy", "yy"]] := by rfl

end Mfs.Props

import Verif.Lemmas.QuadND
import Verif.Props.Quad1

/-!
# Properties C19–C25: multidimensional quadrature
-/

namespace Mfs.Props

open Matrix Mfs.Spec Mfs.QuadND Mfs.MultiIndex Mfs.Quad1

/-! ## C19 -/

/-- `v` picks one entry from each row of `x`. -/
def IsCombination {n : ℕ} {β : Type} (x : List (Fin n → β)) (v : List β) : Prop :=
  List.Forall₂ (fun row b => ∃ i, row i = b) x v

theorem forall₂_zipWith {n : ℕ} {β : Type} (x : List (Fin n → β)) (idx : List (Fin n)) (h : idx.length = x.length) :
    IsCombination x (List.zipWith (fun row i => row i) x idx) := by
  induction x generalizing idx with
  | nil =>
    obtain rfl := List.length_eq_zero_iff.1 (show idx.length = 0 by simpa using h)
    exact List.Forall₂.nil
  | cons r x ih =>
    cases idx with
    | nil => simp at h
    | cons i idx => exact List.Forall₂.cons ⟨i, rfl⟩ (ih idx (by simpa using h))

theorem exists_of_isCombination {n : ℕ} {β : Type} (x : List (Fin n → β)) (v : List β) (h : IsCombination x v) :
    ∃ idx : List (Fin n), idx.length = x.length ∧ List.zipWith (fun row i => row i) x idx = v := by
  induction h with
  | nil => exact ⟨[], rfl, rfl⟩
  | cons h1 _ ih =>
    obtain ⟨i, hi⟩ := h1
    obtain ⟨idx, h2, h3⟩ := ih
    exact ⟨i :: idx, by simp [h2], by simp [hi, h3]⟩

/-- **C19.** The index table has `n ^ d` rows, no repetition, and contains exactly the tuples of length `d` over
`{0, …, n-1}`; the Cartesian product lists, in that order, exactly the combinations of the rows of `x`, row `r` being
`(x[0, i_0], …, x[d-1, i_{d-1}])` for the `r`-th tuple. -/
theorem C19_cartesian_product (d n : ℕ) :
    (ndCartesianProdIndices d n).length = n ^ d ∧ (ndCartesianProdIndices d n).Nodup ∧
    (∀ v : List (Fin n), v ∈ ndCartesianProdIndices d n ↔ v.length = d) ∧
    ∀ {β : Type} (x : List (Fin n → β)), x.length = d →
      (∀ v, v ∈ ndCartesianProd x (ndCartesianProdIndices d n) ↔ IsCombination x v) ∧
      ∀ (r : ℕ) (idx : List (Fin n)), (ndCartesianProdIndices d n)[r]? = some idx →
        ∃ row, (ndCartesianProd x (ndCartesianProdIndices d n))[r]? = some row ∧ row.length = d ∧
          ∀ j (hj : j < x.length) (i : Fin n), idx[j]? = some i → row[j]? = some (x[j] i) := by
  have hmem : ∀ v : List (Fin n), v ∈ ndCartesianProdIndices d n ↔ v.length = d := by
    intro v
    rw [ndCartesianProdIndices, mem_cartesianProd_replicate]
    simp
  refine ⟨?_, ?_, hmem, ?_⟩
  · rw [ndCartesianProdIndices, length_cartesianProd_replicate]; simp
  · apply nodup_cartesianProd
    intro l hl
    rw [List.eq_of_mem_replicate hl]
    exact List.nodup_finRange n
  · intro β x hx
    constructor
    · intro v
      rw [ndCartesianProd, List.mem_map]
      constructor
      · rintro ⟨idx, h1, rfl⟩
        exact forall₂_zipWith x idx (by rw [(hmem idx).1 h1, hx])
      · intro h
        obtain ⟨idx, h1, h2⟩ := exists_of_isCombination x v h
        exact ⟨idx, (hmem idx).2 (h1.trans hx), h2⟩
    · intro r idx hr
      refine ⟨List.zipWith (fun row i => row i) x idx, by simp [ndCartesianProd, hr], ?_, ?_⟩
      · have := (hmem idx).1 (List.mem_of_getElem? hr)
        simp [this, hx]
      · intro j hj i hi
        rw [List.getElem?_zipWith, hi, List.getElem?_eq_getElem hj]

example : ndCartesianProdIndices 2 2 = [[0, 0], [0, 1], [1, 0], [1, 1]] ∧
    ndCartesianProd [![10, 11], ![20, 21]] (ndCartesianProdIndices 2 2) = [[10, 20], [10, 21], [11, 20], [11, 21]] := by
  decide

/-! ## C20 -/

/-- **C20 (the claim is false).** For `d ≥ 2`, `n ≥ 2`, if the first two rows of `x` have no value in common then
`nd_cartesian_prod_2` returns a row which is not a combination: its first row only contains values of `x[0]`. -/
theorem C20_legacy_product_wrong {n : ℕ} {β : Type} [Inhabited β] (x : List (Fin n → β)) (hd : 2 ≤ x.length) (hn : 2 ≤ n)
    (hdis : ∀ i j, x[0] i ≠ x[1] j) : ∃ v ∈ ndCartesianProd2 x, ¬ IsCombination x v := by
  obtain ⟨r0, r1, xs, rfl⟩ : ∃ r0 r1 xs, x = r0 :: r1 :: xs := by
    match x, hd with
    | r0 :: r1 :: xs, _ => exact ⟨r0, r1, xs, rfl⟩
  set x := r0 :: r1 :: xs with hx
  set d := x.length with hdd
  have hpow : 2 ≤ n ^ d := le_trans (by simpa using hn : 2 ≤ n ^ 1) (Nat.pow_le_pow_right (by omega) (by omega))
  set g : ℕ → List β := fun j => (ndCartesianProdIndices d n).map fun idx =>
      match x[j]?, idx[xyAxis d j]? with
      | some row, some i => row i
      | _, _ => default with hg
  have hlen0 : (g 0).length = n ^ d := by simp [hg, (C19_cartesian_product d n).1]
  obtain ⟨k, hk⟩ : ∃ k, n ^ d = k + 1 := ⟨n ^ d - 1, by omega⟩
  obtain ⟨e, he⟩ : ∃ e, d = e + 1 := ⟨d - 1, by omega⟩
  have hflat : ((List.range d).map g).flatten = g 0 ++ ((List.range' 1 e).map g).flatten := by
    rw [he, List.range_eq_range', List.range'_succ]; simp
  refine ⟨(((List.range d).map g).flatten).take d, ?_, ?_⟩
  · have : ndCartesianProd2 x = chunks d (n ^ d) ((List.range d).map g).flatten := rfl
    rw [this, hk, chunks]
    simp
  · intro hc
    have h1 : ((((List.range d).map g).flatten).take d)[1]? = (g 0)[1]? := by
      rw [List.getElem?_take_of_lt (by omega), hflat, List.getElem?_append_left (by omega)]
    have h2 : ∃ i, (g 0)[1]? = some (r0 i) := by
      have hl : 1 < (ndCartesianProdIndices d n).length := by rw [(C19_cartesian_product d n).1]; omega
      simp only [hg, List.getElem?_map, List.getElem?_eq_getElem hl, Option.map_some]
      have hm : ((ndCartesianProdIndices d n)[1]).length = d :=
        ((C19_cartesian_product d n).2.2.1 _).1 (List.getElem_mem hl)
      have hax : xyAxis d 0 = 1 := by simp [xyAxis, show ¬ d < 2 by omega]
      have hx0 : x[0]? = some r0 := by simp [hx]
      have hi1 : ((ndCartesianProdIndices d n)[1])[1]? = some ((ndCartesianProdIndices d n)[1][1]) :=
        List.getElem?_eq_getElem (by omega)
      refine ⟨(ndCartesianProdIndices d n)[1][1], ?_⟩
      rw [hax, hx0, hi1]
    obtain ⟨i, hi⟩ := h2
    rw [hi] at h1
    generalize (((List.range d).map g).flatten).take d = v at hc h1
    rw [hx] at hc
    cases hc with
    | cons _ hc' =>
      cases hc' with
      | cons hq _ =>
        obtain ⟨j, hj⟩ := hq
        simp only [List.getElem?_cons_succ, List.getElem?_cons_zero, Option.some.injEq] at h1
        exact hdis i j (by simpa [hx] using (hj.trans h1).symm)

/-- **C20, what is true.** For a single row (`d = 1`) the two functions agree, for every `n` and `x`. Missing: the claim
for `d ≥ 2`, which is false (`C20_legacy_product_wrong`). -/
theorem C20_legacy_product_partial {n : ℕ} {β : Type} [Inhabited β] (row : Fin n → β) :
    ndCartesianProd2 [row] = ndCartesianProd [row] (ndCartesianProdIndices 1 n) := by
  have hch : ∀ l : List β, chunks 1 l.length l = l.map fun a => [a] := by
    intro l
    induction l with
    | nil => rfl
    | cons a l ih => simpa [chunks] using ih
  have hi : ndCartesianProdIndices 1 n = (List.finRange n).map fun i => [i] := by
    simp only [ndCartesianProdIndices, List.replicate_succ, List.replicate_zero, cartesianProd, List.map_cons, List.map_nil]
    generalize List.finRange n = l
    induction l with
    | nil => rfl
    | cons a l ih => simpa using ih
  have h2 : ndCartesianProd2 [row] = chunks 1 (n ^ 1) ((List.finRange n).map row) := by
    simp only [ndCartesianProd2, hi, List.length_singleton, List.range_one, List.map_cons, List.map_nil, List.flatten_cons,
      List.flatten_nil, List.append_nil, List.map_map]
    rfl
  have h3 := hch ((List.finRange n).map row)
  rw [List.length_map, List.length_finRange] at h3
  rw [h2, pow_one, h3, hi, ndCartesianProd, List.map_map, List.map_map]
  rfl

/-- the two-dimensional output, for comparison with C19's example. -/
example : ndCartesianProd2 [![10, 11], ![20, 21]] = [[10, 11], [10, 11], [20, 20], [21, 21]] := by decide

/-! ## C21 -/

theorem inds_tail {z : ℕ} {mats : List (List (List ℤ))} {d : ℕ} (h : mats.length = d + 1) (f : List (List ℤ) → Matrix (Fin z) (Fin z) ℝ) :
    mats.tail.map f = List.ofFn fun i : Fin d => f (mats.getD (i + 1) []) := by
  apply List.ext_getElem
  · simp [h]
  · intro i h1 h2
    have : i + 1 < mats.length := by simp at h2; omega
    simp [List.getD_eq_getElem?_getD, this]

theorem nd_setup {N d : ℕ} (hN : 1 ≤ N) (hd : 1 ≤ d) (μ : List ℕ → ℝ) {basis full : List (List ℕ)}
    {mats : List (List (List ℤ))} (hbasis : generateMultiIndices d (N - 1) 0 = .ok basis)
    (hfull : generateMultiIndices d (2 * N - 1) 0 = .ok full) (hmats : gramAndHankelIndices N d = .ok mats) :
    ∃ (h : 0 < basis.length) (Hs : Fin d → Matrix (Fin basis.length) (Fin basis.length) ℝ),
      (∀ B mean scale sort ldl, momentQuadratureND B (full.map μ) mats mean scale sort ldl
        = quadCore B basis.length (List.ofFn Hs).length (gramOn basis μ) (List.ofFn Hs) mean scale sort ldl) ∧
      ∀ R, IsChol (gramOn basis μ) R →
      MomentData N (fun α : Fin d → ℕ => μ (List.ofFn α)) (fun a j => (basis[a]).getD j 0) ⟨0, h⟩
        (gramOn basis μ) R Hs := by
  obtain ⟨h, hlen, hz, hG, hD⟩ := momentData hN hd μ hbasis hfull hmats
  refine ⟨h, fun i => gatherL (full.map μ) basis.length (mats.getD (i + 1) []), ?_, hD⟩
  · intro B mean scale sort ldl
    rw [momentQuadratureND]
    rw [hz, hG, inds_tail hlen, hlen]
    simp

/-- **C21.** Let `μ` be any family of numbers indexed by multi-indices, stored up to order `2N - 1` in the order of the
table. If its Gram matrix over the multi-indices of order `< N` is positive definite, the rule reproduces every moment
of order at most `2N - 1` (divided by the zeroth one). It has `z ^ d` nodes, each with `d` coordinates. -/
theorem C21_nd_reproduces (B : Backend) (hB : B.Valid) (N d : ℕ) (hN : 1 ≤ N) (hd : 1 ≤ d) (μ : List ℕ → ℝ)
    (basis full : List (List ℕ)) (mats : List (List (List ℤ)))
    (hbasis : generateMultiIndices d (N - 1) 0 = .ok basis) (hfull : generateMultiIndices d (2 * N - 1) 0 = .ok full)
    (hmats : gramAndHankelIndices N d = .ok mats) (hpd : (gramOn basis μ).PosDef) (sort ldl : Bool) :
    (∀ α, IsMultiIndex d (2 * N - 1) 0 α →
      integND (momentQuadratureND B (full.map μ) mats none none sort ldl) (fun x => monomial x α)
        = μ α / μ (List.replicate d 0)) ∧
    (momentQuadratureND B (full.map μ) mats none none sort ldl).length = basis.length ^ d ∧
    ∀ p ∈ momentQuadratureND B (full.map μ) mats none none sort ldl, p.2.length = d := by
  obtain ⟨h, Hs, hq, hD⟩ := nd_setup hN hd μ hbasis hfull hmats
  have hne : List.ofFn Hs ≠ [] := by
    intro hc
    have := congrArg List.length hc
    simp at this; omega
  rw [hq]
  refine ⟨?_, ?_, ?_⟩
  · intro α hα
    have hR := codeR_isChol hB hpd ldl
    have hsym : ∀ i, (Hs i).IsSymm := (hD _ hR).H_symm
    rw [quadCore_monomial hB h hpd _ (by simpa [List.mem_ofFn] using hsym) hne sort ldl α (by simp [hα.1])]
    have hex := (hD _ hR).exact (fun j => α.getD j 0) ?_
    · have e0 : List.ofFn (0 : Fin d → ℕ) = List.replicate d 0 := by
        rw [← List.ofFn_const]; rfl
      simp only [ofFn_getD α hα.1, e0] at hex
      rw [← hex]
      have : List.zipWith (fun H k => multMat (codeR B (gramOn basis μ) ldl) H ^ k) (List.ofFn Hs) α
          = List.ofFn fun j : Fin d => multMat (codeR B (gramOn basis μ) ldl) (Hs j) ^ (α.getD j 0) := by
        apply List.ext_getElem
        · simp [hα.1]
        · intro i h1 h2
          have : i < α.length := by rw [hα.1]; simpa using h2
          simp [List.getD_eq_getElem?_getD, this]
      rw [this]
    · have := hα.2.2
      rw [← List.sum_ofFn, ofFn_getD α hα.1]
      omega
  · rw [quadCore_length B h]; simp
  · intro p hp
    rw [nodes_length B _ _ sort ldl p hp]; simp

/-- moments of two independent fair signs (also of the standard normal law, up to third order). -/
def sign2 (α : List ℕ) : ℝ := (α.map fun k => if k % 2 = 0 then (1 : ℝ) else 0).prod

theorem sign2_posDef : (gramOn [[0, 0], [0, 1], [1, 0]] sign2).PosDef := by
  have : gramOn [[0, 0], [0, 1], [1, 0]] sign2 = (1 : Matrix (Fin 3) (Fin 3) ℝ) := by
    ext i j
    fin_cases i <;> fin_cases j <;> simp [gramOn, sign2]
  rw [this]
  exact Matrix.PosDef.one

/-- hypotheses of C21 for `N = 2`, `d = 2`. -/
example : generateMultiIndices 2 (2 - 1) 0 = .ok [[0, 0], [0, 1], [1, 0]] ∧
    (gramOn [[0, 0], [0, 1], [1, 0]] sign2).PosDef ∧ IsMultiIndex 2 (2 * 2 - 1) 0 [1, 2] ∧ theBackend.Valid :=
  ⟨by rfl, sign2_posDef, by simp [IsMultiIndex], theBackend_valid⟩

/-! ## C22 -/

/-- **C22.** The weights sum to one for every moment vector, valid or not, every stack of index matrices (at least one
Hankel matrix, non-empty), every `mean` and `scale`. -/
theorem C22_nd_weights_sum_one (B : Backend) (hB : B.Valid) (ms : List ℝ) (inds : List (List (List ℤ)))
    (hd : 2 ≤ inds.length) (hz : 0 < (inds.getD 0 []).length) (mean scale : Option (List ℝ)) (sort ldl : Bool) :
    ((momentQuadratureND B ms inds mean scale sort ldl).map (·.1)).sum = 1 := by
  rw [momentQuadratureND, quadCore_affine, List.map_map]
  have hl : inds.length - 1 = (inds.tail.map fun M => gatherL ms (inds.getD 0 []).length M).length := by simp
  rw [hl]
  refine quadCore_sum_one hB hz _ _ ?_ sort ldl
  intro hc
  have := congrArg List.length hc
  simp at this; omega

/-- every `gram_and_hankel_indices_graded_lexico(N, d)` qualifies. -/
theorem C22_applies (N d : ℕ) (hN : 1 ≤ N) (hd : 1 ≤ d) (mats : List (List (List ℤ)))
    (h : gramAndHankelIndices N d = .ok mats) : 2 ≤ mats.length ∧ 0 < (mats.getD 0 []).length := by
  obtain ⟨h0, h1, h2, _⟩ := momentData hN hd (fun _ => 0) (generate_eq_table d (N - 1) 0 hd (by omega))
    (generate_eq_table d (2 * N - 1) 0 hd (by omega)) h
  exact ⟨by omega, by rw [h2]; exact h0⟩

example : 2 ≤ ([[[0, 1], [1, 2]], [[1, 2], [2, 3]]] : List (List (List ℤ))).length := by decide

/-! ## C23 -/

theorem quadCore_one (B : Backend) {z : ℕ} (G H : Matrix (Fin z) (Fin z) ℝ) (mean scale : Option (List ℝ)) (sort ldl : Bool) :
    quadCore B z 1 G [H] mean scale sort ldl = List.ofFn fun i : Fin z =>
      let e := B.eigh sort (symmetrize (orthonormalise (codeR B G ldl) H))
      (e.1 ⟨0, i.pos⟩ i ^ 2, affineNode mean scale [e.2 i]) := by
  rcases Nat.eq_zero_or_pos z with h | h
  · subst h; simp [quadCore]
  · have hi : ndCartesianProdIndices 1 z = (List.finRange z).map fun i => [i] := by
      simp only [ndCartesianProdIndices, List.replicate_succ, List.replicate_zero, cartesianProd, List.map_cons,
        List.map_nil]
      generalize List.finRange z = l
      induction l with
      | nil => rfl
      | cons a l ih => simpa using ih
    rw [quadCore_map B h, hi, List.map_map, List.ofFn_eq_map]
    apply List.map_congr_left
    intro i _
    simp only [Function.comp_def, List.map_cons, List.map_nil, List.zipWith_cons_cons, List.zipWith_nil_left, weight, chain,
      List.dropLast_singleton, List.tail_cons, List.prod_nil, one_mul, List.headD_cons]
    simp [sq]

/-- the index matrices for `d = 1` are the Hankel ones. -/
theorem mats_one (N : ℕ) (hN : 1 ≤ N) (mats : List (List (List ℤ))) (h : gramAndHankelIndices N 1 = .ok mats) :
    mats.length = 2 ∧ (mats.getD 0 []).length = N ∧ ∀ ms : List ℝ, 2 * N ≤ ms.length →
      gatherL ms N (mats.getD 0 []) = gather ms (hankelIndices N).1 ∧
      gatherL ms N (mats.getD 1 []) = gather ms (hankelIndices N).2 := by
  obtain ⟨basis, full, mats', h1, h2, h3, hlen, hdims, hent⟩ := C05_gram_hankel_indices N 1 hN le_rfl
  rw [h] at h3; cases h3
  have ht : ∀ u, generateMultiIndices 1 u 0 = .ok ((List.range (u + 1)).map fun k => [k]) := by
    intro u
    rw [generate_eq_table 1 u 0 le_rfl (Nat.zero_le _), table]
    have : ∀ s, comps 1 s = [[s]] := by
      intro s
      simp only [comps]
      rw [List.range_succ, List.flatMap_append]
      have : (List.range s).flatMap (fun a => (comps 0 (s - a)).map fun x => a :: x) = [] := by
        rw [List.flatMap_eq_nil_iff]
        intro a ha
        obtain ⟨c, hc⟩ : ∃ c, s - a = c + 1 := ⟨s - a - 1, by simp at ha; omega⟩
        simp [hc, comps]
      rw [this]
      simp [comps]
    rw [List.range_eq_range', Nat.sub_zero]
    congr 1
    generalize List.range' 0 (u + 1) = l
    induction l with
    | nil => rfl
    | cons a l ih => rw [List.flatMap_cons, ih, this]; rfl
  rw [ht] at h1 h2
  obtain rfl : (List.range (N - 1 + 1)).map (fun k => [k]) = basis := by simpa using h1
  obtain rfl : (List.range (2 * N - 1 + 1)).map (fun k => [k]) = full := by simpa using h2
  have hget : ∀ a < N, ((List.range (N - 1 + 1)).map fun k => [k])[a]? = some [a] := by
    intro a ha
    simp [List.getElem?_range (show a < N - 1 + 1 by omega)]
  have hfull : ∀ k b : ℕ, ((List.range (2 * N - 1 + 1)).map fun k => [k])[k]? = some [b] → k = b := by
    intro k b hk
    simp only [List.getElem?_map, Option.map_eq_some_iff, List.cons.injEq, and_true] at hk
    obtain ⟨c, hc, rfl⟩ := hk
    rw [List.getElem?_eq_some_iff] at hc
    obtain ⟨_, hc⟩ := hc
    simpa using hc
  refine ⟨hlen, ?_, ?_⟩
  · obtain ⟨M, ms', rfl⟩ : ∃ M ms', mats = M :: ms' := by
      cases mats with
      | nil => simp at hlen
      | cons M ms' => exact ⟨M, ms', rfl⟩
    have := (hdims M (by simp)).1
    simp at this ⊢; omega
  · intro ms _
    constructor
    · ext a b
      obtain ⟨⟨k, hk1, hk2⟩, _⟩ := hent a b _ _ (hget a a.2) (hget b b.2)
      have := hfull k (a + b) (by simpa using hk2)
      simp only [gatherL, gather, hankelIndices, Matrix.of_apply]
      rw [getD_getD_of_bind hk1, this]
      rfl
    · ext a b
      obtain ⟨_, hk⟩ := hent a b _ _ (hget a a.2) (hget b b.2)
      obtain ⟨k, hk1, hk2⟩ := hk 0 (by omega)
      have := hfull k (a + b + 1) (by simpa using hk2)
      simp only [gatherL, gather, hankelIndices, Matrix.of_apply]
      rw [getD_getD_of_bind hk1, this]
      rfl

/-- **C23.** For `d = 1`, any moment vector with `len(ms) // 2 = N` and any backend, the two functions return the very
same weights and nodes: raw (no mean), central (mean), and scaled (mean and scale). -/
theorem C23_nd_one_dim (B : Backend) (N : ℕ) (hN : 1 ≤ N) (mats : List (List (List ℤ)))
    (h : gramAndHankelIndices N 1 = .ok mats) (ms : List ℝ) (hl : ms.length / 2 = N) (mean scale : ℝ) (sort ldl : Bool) :
    momentQuadratureND B ms mats none none sort ldl = (ruleList B ms 0 1 sort ldl).map (fun p => (p.1, [p.2])) ∧
    momentQuadratureND B ms mats (some [mean]) none sort ldl
      = (ruleList B ms mean 1 sort ldl).map (fun p => (p.1, [p.2])) ∧
    momentQuadratureND B ms mats (some [mean]) (some [scale]) sort ldl
      = (ruleList B ms mean scale sort ldl).map (fun p => (p.1, [p.2])) := by
  obtain ⟨h1, h2, h3⟩ := mats_one N hN mats h
  obtain ⟨hG, hH⟩ := h3 ms (by omega)
  have key : ∀ mean' scale' : Option (List ℝ), ∀ m s : ℝ, (∀ y : ℝ, affineNode mean' scale' [y] = [s * y + m]) →
      momentQuadratureND B ms mats mean' scale' sort ldl = (ruleList B ms m s sort ldl).map (fun p => (p.1, [p.2])) := by
    intro mean' scale' m s haff
    obtain ⟨M0, M1, rfl⟩ : ∃ M0 M1, mats = [M0, M1] := by
      match mats, h1 with
      | [M0, M1], _ => exact ⟨M0, M1, rfl⟩
    rw [momentQuadratureND]
    simp only [List.length_cons, List.length_nil, List.tail_cons, List.map_cons, List.map_nil]
    rw [h2, quadCore_one, hG]
    have hH' : gatherL ms N M1 = gather ms (hankelIndices N).2 := by simpa using hH
    rw [hH']
    simp only [haff]
    subst hl
    rw [ruleList, List.map_ofFn]
    rfl
  refine ⟨key _ _ _ _ ?_, key _ _ _ _ ?_, key _ _ _ _ ?_⟩
  · intro y; simp [affineNode]
  · intro y; simp [affineNode]
  · intro y; simp [affineNode, mul_comm]

example : gramAndHankelIndices 2 1 = .ok [[[0, 1], [1, 2]], [[1, 2], [2, 3]]] ∧
    ([1, 0, 1, 0] : List ℝ).length / 2 = 2 := ⟨by rfl, by norm_num⟩

/-! ## C24 -/

/-- **C24.** `mean` and `scale` leave weights alone and send coordinate `j` of each node to `scale_j x_j + mean_j` (to
`x_j + mean_j` without scale), for every input; hence, on valid moments, the central (scaled) moments are reproduced
when every scale is non-zero. -/
theorem C24_nd_affine (B : Backend) (hB : B.Valid) (sort ldl : Bool) (mean scale : List ℝ) :
    (∀ (ms : List ℝ) (inds : List (List (List ℤ))),
      momentQuadratureND B ms inds (some mean) (some scale) sort ldl
        = (momentQuadratureND B ms inds none none sort ldl).map
            (fun p => (p.1, List.zipWith (· + ·) (List.zipWith (· * ·) p.2 scale) mean)) ∧
      momentQuadratureND B ms inds (some mean) none sort ldl
        = (momentQuadratureND B ms inds none none sort ldl).map (fun p => (p.1, List.zipWith (· + ·) p.2 mean))) ∧
    ∀ (N d : ℕ) (_ : 1 ≤ N) (_ : 1 ≤ d) (μ : List ℕ → ℝ) (basis full : List (List ℕ)) (mats : List (List (List ℤ)))
      (_ : generateMultiIndices d (N - 1) 0 = .ok basis) (_ : generateMultiIndices d (2 * N - 1) 0 = .ok full)
      (_ : gramAndHankelIndices N d = .ok mats) (_ : (gramOn basis μ).PosDef)
      (_ : mean.length = d) (_ : scale.length = d) (_ : ∀ s ∈ scale, s ≠ 0) (α : List ℕ) (_ : IsMultiIndex d (2 * N - 1) 0 α),
      integND (momentQuadratureND B (full.map μ) mats (some mean) (some scale) sort ldl)
          (fun x => monomial (List.zipWith (· / ·) (List.zipWith (· - ·) x mean) scale) α)
        = μ α / μ (List.replicate d 0) ∧
      integND (momentQuadratureND B (full.map μ) mats (some mean) none sort ldl)
          (fun x => monomial (List.zipWith (· - ·) x mean) α) = μ α / μ (List.replicate d 0) := by
  have haff : ∀ (ms : List ℝ) (inds : List (List (List ℤ))),
      momentQuadratureND B ms inds (some mean) (some scale) sort ldl
        = (momentQuadratureND B ms inds none none sort ldl).map
            (fun p => (p.1, List.zipWith (· + ·) (List.zipWith (· * ·) p.2 scale) mean)) ∧
      momentQuadratureND B ms inds (some mean) none sort ldl
        = (momentQuadratureND B ms inds none none sort ldl).map (fun p => (p.1, List.zipWith (· + ·) p.2 mean)) := by
    intro ms inds
    constructor <;>
    · rw [momentQuadratureND, momentQuadratureND, quadCore_affine]
      rfl
  refine ⟨haff, ?_⟩
  intro N d hN hd μ basis full mats hb hf hm hpd hmean hscale hs0 α hα
  obtain ⟨h1, _, h3⟩ := C21_nd_reproduces B hB N d hN hd μ basis full mats hb hf hm hpd sort ldl
  rw [(haff _ _).1, (haff _ _).2, ← h1 α hα]
  constructor
  · rw [integND, integND, List.map_map]
    congr 1
    apply List.map_congr_left
    intro p hp
    simp only [Function.comp_def]
    congr 2
    apply List.ext_getElem
    · simp [h3 p hp, hmean, hscale]
    · intro i hi1 hi2
      have : i < scale.length := by rw [hscale, ← h3 p hp]; exact hi2
      have hne := hs0 scale[i] (List.getElem_mem this)
      simp only [List.getElem_zipWith, add_sub_cancel_right]
      field_simp
  · rw [integND, integND, List.map_map]
    congr 1
    apply List.map_congr_left
    intro p hp
    simp only [Function.comp_def]
    congr 2
    apply List.ext_getElem
    · simp [h3 p hp, hmean]
    · intro i hi1 hi2
      simp only [List.getElem_zipWith, add_sub_cancel_right]

example : ([1, 2] : List ℝ).length = 2 ∧ (∀ s ∈ ([1, 3] : List ℝ), s ≠ 0) ∧
    (gramOn [[0, 0], [0, 1], [1, 0]] sign2).PosDef := ⟨rfl, by simp, sign2_posDef⟩

/-! ## C25 -/

/-- **C25.** On valid moments the rule, as a functional on *all* functions (product functions in particular), is the same
for all valid backends, whether nodes are sorted or not and whether `ldl` is set or not. -/
theorem C25_nd_backend_independent (B B' : Backend) (hB : B.Valid) (hB' : B'.Valid) (N d : ℕ) (hN : 1 ≤ N) (hd : 1 ≤ d)
    (μ : List ℕ → ℝ) (basis full : List (List ℕ)) (mats : List (List (List ℤ)))
    (hbasis : generateMultiIndices d (N - 1) 0 = .ok basis) (hfull : generateMultiIndices d (2 * N - 1) 0 = .ok full)
    (hmats : gramAndHankelIndices N d = .ok mats) (hpd : (gramOn basis μ).PosDef) (mean scale : Option (List ℝ))
    (sort sort' ldl ldl' : Bool) (F : List ℝ → ℝ) :
    integND (momentQuadratureND B (full.map μ) mats mean scale sort ldl) F
      = integND (momentQuadratureND B' (full.map μ) mats mean scale sort' ldl') F := by
  obtain ⟨h, Hs, hq, _⟩ := nd_setup hN hd μ hbasis hfull hmats
  have hne : List.ofFn Hs ≠ [] := by
    intro hc
    have := congrArg List.length hc
    simp at this; omega
  rw [hq, hq, quadCore_affine, quadCore_affine (B := B')]
  have := quadCore_unique hB hB' h hpd (List.ofFn Hs) hne sort sort' ldl ldl' (fun x => F (affineNode mean scale x))
  simpa [integND, List.map_map, Function.comp_def] using this

example : (gramOn [[0, 0], [0, 1], [1, 0]] sign2).PosDef ∧ theBackend.Valid := ⟨sign2_posDef, theBackend_valid⟩

end Mfs.Props

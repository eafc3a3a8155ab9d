import Verif.Model.NdArray
import Verif.Props.MultiIndex
import Verif.Props.QuadND

/-!
# C07 with leading axes, and C201: `nd_cartesian_prod` on arrays
-/

namespace Mfs.Props

open Mfs.MultiIndex Mfs.NdArray Mfs.Spec

/-! ### the extraction helpers on batches -/

theorem extractMomentsB_spec {α : Type} (d upper : ℕ) (hd : 1 ≤ d) (t : List (List ℕ)) (h : generateMultiIndices d upper 0 = .ok t)
    (sh : List ℕ) (m : List ℕ → List ℕ → α) (ms : Arr α) (hs : ms.shape = sh ++ [t.length]) (hm : ∀ b j (hj : j < t.length), ms.get (b ++ [j]) = m b t[j])
    (x : List ℕ) (hx : IsMultiIndex d upper 0 x) : ∃ r, extractMomentsB ms x = some r ∧ r.shape = sh ∧ ∀ b, r.get b = m b x := by
  obtain ⟨i, h1, h2⟩ := (C04_indexof_inverts d upper 0 hd t h).1 x hx
  rw [Nat.cast_zero] at h1
  obtain ⟨hi, h3⟩ := List.getElem?_eq_some_iff.1 h2
  refine ⟨⟨sh, fun b => ms.get (b ++ [i])⟩, ?_, rfl, fun b => ?_⟩
  · simp [extractMomentsB, h1, Arr.atLast, hs, npIdx, hi]
  · rw [hm b i hi, h3]

theorem foldlM_setLast {α : Type} (f : ℕ → Option (Arr α)) (g : ℕ → List ℕ → α) (n : ℕ) (hf : ∀ i < n, ∃ r, f i = some r ∧ ∀ b, r.get b = g i b) (a : Arr α) :
    ∃ r, (List.range n).foldlM (fun acc i => do let v ← f i; return acc.setLast i v) a = some r ∧ r.shape = a.shape ∧
      ∀ b, ∀ i < n, r.get (b ++ [i]) = g i b := by
  induction n with
  | zero => exact ⟨a, rfl, rfl, fun b i hi => absurd hi (Nat.not_lt_zero i)⟩
  | succ n ih =>
    obtain ⟨r, h1, h2, h3⟩ := ih fun i hi => hf i (by omega)
    obtain ⟨v, h4, h5⟩ := hf n (Nat.lt_succ_self n)
    refine ⟨r.setLast n v, ?_, h2, fun b i hi => ?_⟩
    · rw [List.range_succ, List.foldlM_append, h1]
      simp [h4]
    · rcases Nat.lt_succ_iff_lt_or_eq.1 hi with h | rfl
      · have hne : ¬ i = n := by omega
        simp [Arr.setLast, hne, h3 b i h]
      · simp [Arr.setLast, h5]

theorem foldlM_setLast2 {α : Type} (i : ℕ) (f : ℕ → Option (Arr α)) (g : ℕ → List ℕ → α) (n : ℕ) (hf : ∀ j < n, ∃ r, f j = some r ∧ ∀ b, r.get b = g j b) (a : Arr α) :
    ∃ r, (List.range n).foldlM (fun acc j => do let v ← f j; return acc.setLast2 i j v) a = some r ∧ r.shape = a.shape ∧
      (∀ b, ∀ j < n, r.get (b ++ [i, j]) = g j b) ∧ ∀ b i' j, i' ≠ i → r.get (b ++ [i', j]) = a.get (b ++ [i', j]) := by
  induction n with
  | zero => exact ⟨a, rfl, rfl, fun b i hi => absurd hi (Nat.not_lt_zero i), fun b i' j h => rfl⟩
  | succ n ih =>
    obtain ⟨r, h1, h2, h3, h3'⟩ := ih fun i hi => hf i (by omega)
    obtain ⟨v, h4, h5⟩ := hf n (Nat.lt_succ_self n)
    have hd : ∀ (b : List ℕ) (x y : ℕ), (b ++ [x, y]).dropLast = b ++ [x] := fun b x y => by
      rw [show b ++ [x, y] = (b ++ [x]) ++ [y] by simp, List.dropLast_concat]
    have hl : ∀ (b : List ℕ) (x y : ℕ), (b ++ [x, y]).getLast? = some y := fun b x y => by
      rw [show b ++ [x, y] = (b ++ [x]) ++ [y] by simp, List.getLast?_concat]
    refine ⟨r.setLast2 i n v, ?_, h2, fun b j hj => ?_, fun b i' j hne => ?_⟩
    · rw [List.range_succ, List.foldlM_append, h1]
      simp [h4]
    · rcases Nat.lt_succ_iff_lt_or_eq.1 hj with h | rfl
      · have hne : ¬ j = n := by omega
        simp only [Arr.setLast2, hl, hd, Option.some.injEq, hne, false_and, if_false]
        exact h3 b j h
      · simp only [Arr.setLast2, hl, hd, List.getLast?_concat, List.dropLast_concat, and_self, if_true]
        exact h5 b
    · simp only [Arr.setLast2, hl, hd, List.getLast?_concat, Option.some.injEq, hne, and_false, if_false]
      exact h3' b i' j hne

theorem foldlM_rows {α : Type} (f : ℕ → ℕ → Option (Arr α)) (g : ℕ → ℕ → List ℕ → α) (n k : ℕ)
    (hf : ∀ i < n, ∀ j < k, ∃ r, f i j = some r ∧ ∀ b, r.get b = g i j b) (a : Arr α) :
    ∃ r, (List.range n).foldlM (fun acc i => (List.range k).foldlM (fun acc j => do let v ← f i j; return acc.setLast2 i j v) acc) a = some r ∧
      r.shape = a.shape ∧ ∀ b, ∀ i < n, ∀ j < k, r.get (b ++ [i, j]) = g i j b := by
  induction n with
  | zero => exact ⟨a, rfl, rfl, fun b i hi => absurd hi (Nat.not_lt_zero i)⟩
  | succ n ih =>
    obtain ⟨r, h1, h2, h3⟩ := ih fun i hi => hf i (by omega)
    obtain ⟨s, h4, h5, h6, h7⟩ := foldlM_setLast2 n (f n) (g n) k (hf n (Nat.lt_succ_self n)) r
    refine ⟨s, ?_, h5.trans h2, fun b i hi j hj => ?_⟩
    · rw [List.range_succ, List.foldlM_append, h1]
      simpa using h4
    · rcases Nat.lt_succ_iff_lt_or_eq.1 hi with h | rfl
      · rw [h7 b i j (by omega), h3 b i h j hj]
      · exact h6 b j hj

/-- **C07 with leading axes.** Let `ms` be an array of shape `(..., z)` whose entry `(b, j)` is moment number `j` (in graded-lex order, up to total
degree `upper`) of a family `m b`, one for every index `b` of the leading axes. Then the helpers return, with the same leading axes, `m b α`;
`m b e_i`; `m b (e_i + e_j)`; `m b (k e_axis)`. -/
theorem C07_batched {α : Type} [Zero α] (d upper : ℕ) (hd : 1 ≤ d) (t : List (List ℕ)) (h : generateMultiIndices d upper 0 = .ok t)
    (sh : List ℕ) (m : List ℕ → List ℕ → α) (ms : Arr α) (hs : ms.shape = sh ++ [t.length]) (hm : ∀ b j (hj : j < t.length), ms.get (b ++ [j]) = m b t[j]) :
    (∀ x, IsMultiIndex d upper 0 x → ∃ r, extractMomentsB ms x = some r ∧ r.shape = sh ∧ ∀ b, r.get b = m b x) ∧
    (1 ≤ upper → ∃ r, extractMeanB ms d = some r ∧ r.shape = sh ++ [d] ∧ ∀ b, ∀ i < d, r.get (b ++ [i]) = m b (unitIndex d i)) ∧
    (2 ≤ upper → ∃ r, extractCovB ms d = some r ∧ r.shape = sh ++ [d, d] ∧ ∀ b, ∀ i < d, ∀ j < d, r.get (b ++ [i, j]) = m b (pairIndex d i j)) ∧
    (∀ N a, 2 * N - 1 ≤ upper → a < d →
      ∃ r, marginaliseMomentsB ms d N a = some r ∧ r.shape = sh ++ [2 * N] ∧ ∀ b, ∀ k < 2 * N, r.get (b ++ [k]) = m b (axisIndex d a k)) := by
  have hx := extractMomentsB_spec d upper hd t h sh m ms hs hm
  have hdl : ms.shape.dropLast = sh := by rw [hs, List.dropLast_concat]
  refine ⟨hx, fun h1 => ?_, fun h2 => ?_, fun N a hN ha => ?_⟩
  · obtain ⟨r, e1, e2, e3⟩ := foldlM_setLast (fun i => extractMomentsB ms ((List.replicate d 0).set i 1)) (fun i b => m b (unitIndex d i)) d
      (fun i hi => by
        rw [set_eq_axisIndex]
        obtain ⟨r, r1, _, r3⟩ := hx (unitIndex d i) ⟨by simp [unitIndex], by omega, by
          rw [show unitIndex d i = axisIndex d i 1 from rfl, sum_axisIndex d i 1 hi]; exact h1⟩
        exact ⟨r, r1, r3⟩) (Arr.zeros (ms.shape.dropLast ++ [d]))
    exact ⟨r, e1, by rw [e2]; simp [Arr.zeros, hdl], e3⟩
  · obtain ⟨r, e1, e2, e3⟩ := foldlM_rows (fun i j => extractMomentsB ms (((List.replicate d 0).set i 1).modify j (· + 1)))
      (fun i j b => m b (pairIndex d i j)) d d (fun i hi j hj => by
        rw [modify_eq_pairIndex]
        obtain ⟨r, r1, _, r3⟩ := hx (pairIndex d i j) ⟨by simp [pairIndex], by omega, by rw [sum_pairIndex d i j hi hj]; exact h2⟩
        exact ⟨r, r1, r3⟩) (Arr.zeros (ms.shape.dropLast ++ [d, d]))
    exact ⟨r, e1, by rw [e2]; simp [Arr.zeros, hdl], e3⟩
  · have hidx : ∀ k, k < 2 * N → ∃ i : ℕ, gradedLexicoIndexof (axisIndex d a k) 0 = some (i : ℤ) ∧ t[i]? = some (axisIndex d a k) := fun k hk => by
      have := (C04_indexof_inverts d upper 0 hd t h).1 (axisIndex d a k) ⟨by simp [axisIndex], by omega, by rw [sum_axisIndex d a k ha]; omega⟩
      rwa [Nat.cast_zero] at this
    choose! p hp1 hp2 using hidx
    have hf : findIndices ((List.range (2 * N)).map (fun k => (List.replicate d 0).set a k)) = some ((List.range (2 * N)).map fun k => (p k : ℤ)) := by
      have e := mapM_some (fun mi => gradedLexicoIndexof mi 0) (fun x => (gradedLexicoIndexof x 0).getD 0)
        ((List.range (2 * N)).map (fun k => (List.replicate d 0).set a k)) (fun x hxm => by
          rw [List.mem_map] at hxm
          obtain ⟨k, hk, rfl⟩ := hxm
          rw [set_eq_axisIndex, hp1 k (by simpa using hk)]; rfl)
      rw [findIndices, e, List.map_map]
      congr 1
      refine List.map_congr_left fun k hk => ?_
      simp only [Function.comp_apply]
      rw [set_eq_axisIndex, hp1 k (by simpa using hk)]; rfl
    have hlt : ∀ k, k < 2 * N → p k < t.length := fun k hk => (List.getElem?_eq_some_iff.1 (hp2 k hk)).1
    have hj : ((List.range (2 * N)).map fun k => (p k : ℤ)).mapM (npIdx t.length) = some ((List.range (2 * N)).map p) := by
      have e := mapM_some (npIdx t.length) (fun i => i.toNat) ((List.range (2 * N)).map fun k => (p k : ℤ)) (fun x hxm => by
        rw [List.mem_map] at hxm
        obtain ⟨k, hk, rfl⟩ := hxm
        have := hlt k (by simpa using hk)
        simp [npIdx, this])
      rw [e, List.map_map]
      simp [Function.comp_def]
    refine ⟨⟨sh ++ [2 * N], fun b => ms.get (b.dropLast ++ [((List.range (2 * N)).map p).getD (b.getLastD 0) 0])⟩, ?_, rfl, fun b k hk => ?_⟩
    · unfold marginaliseMomentsB Arr.takeLast
      simp only [hf, hs, List.getLast?_concat, Option.bind_eq_bind, Option.bind_some, hj, List.dropLast_concat, List.length_map, List.length_range]
      rfl
    · have e1 : ((List.range (2 * N)).map p).getD k 0 = p k := by simp [List.getD, hk]
      simp only [List.dropLast_concat, List.getLastD_concat, e1]
      rw [hm b (p k) (hlt k hk)]
      exact congrArg (m b) (List.getElem?_eq_some_iff.1 (hp2 k hk)).2

/-- hypotheses of C07 with leading axes: two families of moments in two dimensions up to degree two. -/
example : ∃ t, generateMultiIndices 2 2 0 = .ok t ∧
    ∃ r, extractMeanB (⟨[2, t.length], fun b => (10 * b.headD 0 + (t.getD (b.getLastD 0) []).headD 0 : ℤ)⟩ : Arr ℤ) 2 = some r ∧ r.shape = [2, 2] ∧
      r.get [0, 0] = 1 ∧ r.get [1, 0] = 11 ∧ r.get [1, 1] = 10 := by
  refine ⟨[[0, 0], [0, 1], [1, 0], [0, 2], [1, 1], [2, 0]], by decide, _, rfl, ?_⟩
  decide

/-! ### C201 -/

/-- the tuples of `nd_cartesian_prod_indices`, as a bijection. -/
theorem cartInds_equiv (d n : ℕ) : ∃ e : Fin (n ^ d) ≃ (Fin d → Fin n), ∀ (ρ : Fin (n ^ d)) (a : Fin d), (cartInds d n).get [ρ, a] = e ρ a := by
  obtain ⟨hlen, hnd, hmem, -⟩ := C19_cartesian_product d n
  set L := QuadND.ndCartesianProdIndices d n with hL
  have hrow : ∀ ρ : Fin (n ^ d), (L[(ρ : ℕ)]'(by rw [hlen]; exact ρ.2)).length = d := fun ρ => (hmem _).1 (List.getElem_mem _)
  set f : Fin (n ^ d) → Fin d → Fin n := fun ρ a => (L[(ρ : ℕ)]'(by rw [hlen]; exact ρ.2))[(a : ℕ)]'(by rw [hrow]; exact a.2) with hf
  have hinj : Function.Injective f := by
    intro ρ σ h
    have e : L[(ρ : ℕ)]'(by rw [hlen]; exact ρ.2) = L[(σ : ℕ)]'(by rw [hlen]; exact σ.2) := by
      refine List.ext_getElem (by rw [hrow, hrow]) fun a h1 h2 => ?_
      exact congrFun h ⟨a, by rw [hrow] at h1; exact h1⟩
    exact Fin.ext ((hnd.getElem_inj_iff).1 e)
  have hbij : Function.Bijective f := (Fintype.bijective_iff_injective_and_card f).2 ⟨hinj, by simp⟩
  refine ⟨Equiv.ofBijective f hbij, fun ρ a => ?_⟩
  have h1 : L[(ρ : ℕ)]? = some (L[(ρ : ℕ)]'(by rw [hlen]; exact ρ.2)) := List.getElem?_eq_getElem _
  have h2 : (L[(ρ : ℕ)]'(by rw [hlen]; exact ρ.2))[(a : ℕ)]? = some (f ρ a) := List.getElem?_eq_getElem _
  simp only [cartInds, ← hL, List.getD_cons_zero, List.getD_cons_succ, h1, h2, Equiv.ofBijective_apply]

/-- **C201, two axes.** For an array of shape `(d, n)` the result has shape `(n ** d, d)` and its rows are all the vectors `(x[0, i_0], …, x[d-1, i_{d-1}])`,
each tuple `i` once. -/
theorem C201_matrix {α : Type} (fix : ℕ → ℕ → ℕ) (hfix : ∀ n i, i < n → fix n i = i) (x : Arr α) (d n : ℕ) (hx : x.shape = [d, n]) :
    ∃ r, ndCartProd fix x none = .ok r ∧ r.shape = [n ^ d, d] ∧
      ∃ e : Fin (n ^ d) ≃ (Fin d → Fin n), ∀ (ρ : Fin (n ^ d)) (a : Fin d), r.get [ρ, a] = x.get [a, e ρ a] := by
  obtain ⟨e, he⟩ := cartInds_equiv d n
  refine ⟨((x.transpose [1, 0]).gather fix (cartInds d n)).diagonal12, by simp only [ndCartProd, hx]; rfl, ?_, e, fun ρ a => ?_⟩
  · simp [Arr.diagonal12, Arr.gather, Arr.transpose, cartInds, hx]
  · have h1 : (cartInds d n).shape.length = 2 := rfl
    simp only [Arr.diagonal12, Arr.gather, Arr.transpose, h1, hx]
    simp only [List.headD_cons, List.getLastD_cons, List.getLastD_nil, List.tail_cons, List.dropLast, List.take, List.drop, he, List.map_cons, List.map_nil]
    rw [hfix _ _ (by simp)]
    simp [List.range_succ, List.idxOf_cons]

/-- **C201, three axes: what is returned.** For an array of shape `(d, n, k)` with `n ≤ k` the result has shape `(n ** d, n, d)`: the combinations are taken
along the **last** axis, `r[ρ, i, a] = x[a, i, i_a]`. -/
theorem C201_value {α : Type} (fix : ℕ → ℕ → ℕ) (hfix : ∀ n i, i < n → fix n i = i) (x : Arr α) (d n k : ℕ) (hx : x.shape = [d, n, k]) :
    ∃ r, ndCartProd fix x none = .ok r ∧ r.shape = [n ^ d, n, d] ∧
      (n ≤ k → ∃ e : Fin (n ^ d) ≃ (Fin d → Fin n), ∀ (ρ : Fin (n ^ d)) (i : Fin n) (a : Fin d), r.get [ρ, i, a] = x.get [a, i, e ρ a]) := by
  obtain ⟨e, he⟩ := cartInds_equiv d n
  refine ⟨((x.transpose [2, 0, 1]).gather fix (cartInds d n)).diagonal12, by simp only [ndCartProd, hx]; rfl, ?_, fun hnk => ⟨e, fun ρ i a => ?_⟩⟩
  · simp [Arr.diagonal12, Arr.gather, Arr.transpose, cartInds, hx]
  · have h1 : (cartInds d n).shape.length = 2 := rfl
    simp only [Arr.diagonal12, Arr.gather, Arr.transpose, h1, hx]
    simp only [List.headD_cons, List.getLastD_cons, List.getLastD_nil, List.tail_cons, List.dropLast, List.take, List.drop, he, List.map_cons, List.map_nil]
    rw [hfix _ _ (by simpa using (e ρ a).2.trans_le hnk)]
    simp [List.range_succ, List.idxOf_cons]

/-- the documented result for an array of shape `(d, n, k)`: shape `(n ** d, k, d)`, and the `d`-tuples of the sub-arrays `x[a, i, :]`. -/
def DocumentedProduct {α : Type} (x r : Arr α) (d n k : ℕ) : Prop :=
  r.shape = [n ^ d, k, d] ∧
    ∃ e : Fin (n ^ d) ≃ (Fin d → Fin n), ∀ (ρ : Fin (n ^ d)) (i : Fin k) (a : Fin d), r.get [ρ, i, a] = x.get [a, e ρ a, i]

/-- **C201, three axes, refuted.** The documentation says `(d, n, ...)` in and `(n ** d, ..., d)` out. For `n ≠ k` the shape is never the documented one;
for `n = k ≥ 2` there are arrays for which the entries are not. -/
theorem C201_documented_refuted (fix : ℕ → ℕ → ℕ) (hfix : ∀ n i, i < n → fix n i = i) (d : ℕ) (hd : 1 ≤ d) :
    (∀ {α : Type} (x r : Arr α) (n k : ℕ), x.shape = [d, n, k] → n ≠ k → ndCartProd fix x none = .ok r → ¬ DocumentedProduct x r d n k) ∧
    (∀ n, 2 ≤ n → ∃ x r : Arr ℕ, x.shape = [d, n, n] ∧ ndCartProd fix x none = .ok r ∧ r.shape = [n ^ d, n, d] ∧ ¬ DocumentedProduct x r d n n) := by
  refine ⟨fun x r n k hx hnk hr hdoc => ?_, fun n hn => ?_⟩
  · obtain ⟨s, h1, h2, -⟩ := C201_value fix hfix x d n k hx
    rw [h1] at hr
    cases hr
    have := hdoc.1
    rw [h2] at this
    simp only [List.cons.injEq, and_true, true_and] at this
    exact hnk this
  · set x : Arr ℕ := ⟨[d, n, n], fun b => b.getD 1 0⟩ with hx
    obtain ⟨r, h1, h2, h3⟩ := C201_value fix hfix x d n n rfl
    obtain ⟨e, he⟩ := h3 le_rfl
    refine ⟨x, r, rfl, h1, h2, fun ⟨_, e', he'⟩ => ?_⟩
    have hpos : 0 < n ^ d := by positivity
    have a0 := he ⟨0, hpos⟩ ⟨0, by omega⟩ ⟨0, by omega⟩
    have a1 := he ⟨0, hpos⟩ ⟨1, by omega⟩ ⟨0, by omega⟩
    rw [he'] at a0 a1
    simp only [hx, List.getD_cons_succ, List.getD_cons_zero] at a0 a1
    omega

/-- **C201, three axes, where it holds.** For `n = k` and arrays that are symmetric in the last two axes, the documented result is returned. Without that, the
documented result is returned for the array with its last two axes exchanged: columns, not rows, are combined. -/
theorem C201_documented_partial {α : Type} (fix : ℕ → ℕ → ℕ) (hfix : ∀ n i, i < n → fix n i = i) (x y : Arr α) (d n : ℕ) (hx : x.shape = [d, n, n])
    (hy : ∀ a i j, y.get [a, i, j] = x.get [a, j, i]) :
    ∃ r, ndCartProd fix x none = .ok r ∧ DocumentedProduct y r d n n ∧
      ((∀ a i j, x.get [a, i, j] = x.get [a, j, i]) → DocumentedProduct x r d n n) := by
  obtain ⟨r, h1, h2, h3⟩ := C201_value fix hfix x d n n hx
  obtain ⟨e, he⟩ := h3 le_rfl
  refine ⟨r, h1, ⟨h2, e, fun ρ i a => ?_⟩, fun hs => ⟨h2, e, fun ρ i a => ?_⟩⟩
  · rw [he, hy]
  · rw [he, hs]

/-- **C201, the caller.** `moment_quadrature_nd` passes the eigenvectors, of shape `(d, z, z)`, as columns; entry `(ρ, k, a)` of the result is
component `k` of eigenvector number `i_a` of matrix `a`, as in the model `QuadND.ndCartesianProd` of the quadrature. -/
theorem C201_caller {α : Type} (fix : ℕ → ℕ → ℕ) (hfix : ∀ n i, i < n → fix n i = i) (z : ℕ) (V : List (Fin z → Fin z → α)) (x : Arr α)
    (hx : x.shape = [V.length, z, z]) (hV : ∀ (a : Fin V.length) (i j : Fin z), x.get [a, i, j] = V[a] i j) :
    ∃ r, ndCartProd fix x (some (cartInds V.length z)) = .ok r ∧ r.shape = [z ^ V.length, z, V.length] ∧
      ∀ (ρ : ℕ) (i : Fin z) (a : ℕ), ρ < z ^ V.length → a < V.length →
        ((QuadND.ndCartesianProd (V.map fun v => fun c k => v k c) (QuadND.ndCartesianProdIndices V.length z))[ρ]?.bind fun row => row[a]?.map fun col => col i)
          = some (r.get [ρ, i, a]) := by
  refine ⟨((x.transpose [2, 0, 1]).gather fix (cartInds V.length z)).diagonal12, by simp only [ndCartProd, hx]; rfl, ?_, fun ρ i a hρ ha => ?_⟩
  · simp [Arr.diagonal12, Arr.gather, Arr.transpose, cartInds, hx]
  obtain ⟨hlen, -, hmem, -⟩ := C19_cartesian_product V.length z
  have hρ' : ρ < (QuadND.ndCartesianProdIndices V.length z).length := by rw [hlen]; exact hρ
  set idx := (QuadND.ndCartesianProdIndices V.length z)[ρ] with hidx
  have hil : idx.length = V.length := (hmem _).1 (List.getElem_mem _)
  have h2 : (QuadND.ndCartesianProdIndices V.length z)[ρ]? = some idx := List.getElem?_eq_getElem hρ'
  have h3 : idx[a]? = some (idx[a]'(by omega)) := List.getElem?_eq_getElem _
  have hget : (cartInds V.length z).get [ρ, a] = (idx[a]'(by omega) : Fin z) := by
    simp only [cartInds, List.getD_cons_zero, List.getD_cons_succ, h2, h3]
  have h1 : (cartInds V.length z).shape.length = 2 := rfl
  have hL : (((x.transpose [2, 0, 1]).gather fix (cartInds V.length z)).diagonal12).get [ρ, i, a] = V[a] i (idx[a]'(by omega)) := by
    simp only [Arr.diagonal12, Arr.gather, Arr.transpose, h1, hx]
    simp only [List.headD_cons, List.getLastD_cons, List.getLastD_nil, List.tail_cons, List.dropLast, List.take, List.drop, hget, List.map_cons, List.map_nil]
    rw [hfix _ _ (by simp)]
    have := hV ⟨a, ha⟩ i (idx[a]'(by omega))
    simpa [List.range_succ, List.idxOf_cons] using this
  rw [hL]
  simp only [QuadND.ndCartesianProd, List.getElem?_map, h2, Option.map_some, Option.bind_some, List.getElem?_zipWith, h3]
  simp [ha]

/-- **C201, errors.** Arrays with four or more axes are refused; an array with fewer than two raises `ValueError` without `inds` and is refused with. -/
theorem C201_errors {α : Type} (fix : ℕ → ℕ → ℕ) (x : Arr α) (inds : Option (Arr ℕ)) :
    (4 ≤ x.shape.length → ndCartProd fix x inds = .error .notImplemented) ∧
    (x.shape.length ≤ 1 → ndCartProd fix x inds = .error (if inds.isNone then .valueError else .notImplemented)) := by
  rcases x with ⟨sh, g⟩
  constructor
  · intro h
    rcases sh with _ | ⟨a, _ | ⟨b, _ | ⟨c, _ | ⟨e, l⟩⟩⟩⟩ <;> simp at h
    cases inds <;> rfl
  · intro h
    rcases sh with _ | ⟨a, _ | ⟨b, l⟩⟩ <;> simp at h
    · cases inds <;> rfl
    · cases inds <;> rfl

/-- hypotheses of C201: clamping is an admissible `fix`; two matrices of order two. -/
example : (∀ n i : ℕ, i < n → min i (n - 1) = i) ∧
    ∃ r, ndCartProd (fun n i => min i (n - 1)) (⟨[1, 2, 2], fun b => 10 * b.getD 1 0 + b.getD 2 0⟩ : Arr ℕ) none = .ok r ∧ r.shape = [2, 2, 1] ∧
      r.get [0, 1, 0] = 10 ∧ r.get [1, 0, 0] = 1 := by
  refine ⟨fun n i h => by omega, _, rfl, ?_⟩
  decide

/-- **C07 (NumPy indices).** An index is accepted when it lies between minus the length and the length, exclusive, and then means its remainder by the length; it is the
same for lists and for the last axis of an array. -/
theorem C07_index {α : Type} (ms : List α) (i : ℤ) :
    (-(ms.length : ℤ) ≤ i ∧ i < ms.length → npGet ms i = ms[(i % ms.length).toNat]? ∧ npIdx ms.length i = some (i % ms.length).toNat ∧
      (i % ms.length).toNat < ms.length) ∧
    (¬(-(ms.length : ℤ) ≤ i ∧ i < ms.length) → npGet ms i = none ∧ npIdx ms.length i = none) := by
  refine ⟨fun h => ?_, fun h => ?_⟩
  · rcases lt_or_ge i 0 with h0 | h0
    · have e : i % (ms.length : ℤ) = i + ms.length := by
        rw [← Int.add_emod_right, Int.emod_eq_of_lt (by omega) (by omega)]
      rw [e]
      refine ⟨?_, ?_, by omega⟩
      · rw [npGet, if_neg (by omega), if_pos (by omega)]
      · rw [npIdx, if_neg (by omega), if_pos (by omega)]
    · rw [Int.emod_eq_of_lt h0 h.2]
      refine ⟨?_, ?_, by omega⟩
      · rw [npGet, if_pos h0]
      · rw [npIdx, if_pos h0, if_pos h.2]
  · rcases lt_or_ge i 0 with h0 | h0
    · exact ⟨by rw [npGet, if_neg (by omega), if_neg (by omega)], by rw [npIdx, if_neg (by omega), if_neg (by omega)]⟩
    · refine ⟨?_, by rw [npIdx, if_pos h0, if_neg (by omega)]⟩
      rw [npGet, if_pos h0]
      exact List.getElem?_eq_none (by omega)

/-- the last entry, and one before the first. -/
example : npGet [10, 20, 30] (-1) = some 30 ∧ npGet [10, 20, 30] (-4) = none := by decide

end Mfs.Props

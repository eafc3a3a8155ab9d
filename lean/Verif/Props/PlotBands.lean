import Verif.Model.PlotBands
import Verif.Props.PreyStats
import Verif.Props.PlotStats

/-!
# C197: the bands of the figure of errors and times of the Benes--Bernoulli experiment
-/

namespace Mfs.Props

open Mfs.Plots Mfs.PreyStats Mfs.PlotBands

theorem mapM_id_some (v : List ℝ) : (v.map some).mapM id = some v := by
  induction v with
  | nil => rfl
  | cons a v ih => rw [List.map_cons, List.mapM_cons, ih]; rfl

theorem npQuantile_some (q : ℝ) (v : List ℝ) (hv : v ≠ []) : npQuantile q (v.map some) = some (quantile q v) := by
  rw [npQuantile, if_neg (by simpa using hv), mapM_id_some, Option.map_some]

/-- positions of a sorted list. -/
theorem sorted_getD {s : List ℝ} (hs : s.Pairwise (· ≤ ·)) {a b : ℕ} (hab : a ≤ b) (hb : b < s.length) : s.getD a 0 ≤ s.getD b 0 := by
  rcases hab.eq_or_lt with rfl | h
  · exact le_rfl
  · rw [List.getD_eq_getElem _ _ (by omega), List.getD_eq_getElem _ _ hb]
    exact List.pairwise_iff_getElem.1 hs a b (by omega) hb h

/-- the quantile lies between two neighbours in the sorted array. -/
theorem quantile_between (q : ℝ) (h0 : 0 ≤ q) (h1 : q ≤ 1) (v : List ℝ) (hv : v ≠ []) :
    ∃ s : List ℝ, s.Pairwise (· ≤ ·) ∧ s.Perm v ∧ ⌈q * ((v.length - 1 : ℕ) : ℝ)⌉₊ < s.length ∧
      s.getD ⌊q * ((v.length - 1 : ℕ) : ℝ)⌋₊ 0 ≤ quantile q v ∧ quantile q v ≤ s.getD ⌈q * ((v.length - 1 : ℕ) : ℝ)⌉₊ 0 ∧
      quantile q v = s.getD ⌊q * ((v.length - 1 : ℕ) : ℝ)⌋₊ 0 + (q * ((v.length - 1 : ℕ) : ℝ) - ⌊q * ((v.length - 1 : ℕ) : ℝ)⌋₊)
        * (s.getD ⌈q * ((v.length - 1 : ℕ) : ℝ)⌉₊ 0 - s.getD ⌊q * ((v.length - 1 : ℕ) : ℝ)⌋₊ 0) := by
  classical
  obtain ⟨s, hs⟩ : ∃ s, s = v.insertionSort (· ≤ ·) := ⟨_, rfl⟩
  obtain ⟨h, hh⟩ : ∃ h : ℝ, h = q * ((v.length - 1 : ℕ) : ℝ) := ⟨_, rfl⟩
  have hsort : s.Pairwise (· ≤ ·) := by rw [hs]; exact List.pairwise_insertionSort _ _
  have hperm : s.Perm v := by rw [hs]; exact List.perm_insertionSort _ _
  have hn : 0 < v.length := List.length_pos_iff.2 hv
  have hlen : s.length = v.length := hperm.length_eq
  have hh0 : 0 ≤ h := by rw [hh]; positivity
  have hhn : h ≤ ((v.length - 1 : ℕ) : ℝ) := by rw [hh]; exact mul_le_of_le_one_left (Nat.cast_nonneg _) h1
  have hceil : ⌈h⌉₊ ≤ v.length - 1 := Nat.ceil_le.2 hhn
  have hfl : ⌊h⌋₊ ≤ ⌈h⌉₊ := Nat.floor_le_ceil h
  have hg0 : 0 ≤ h - ⌊h⌋₊ := sub_nonneg.2 (Nat.floor_le hh0)
  have hg1 : h - ⌊h⌋₊ ≤ 1 := by have := Nat.lt_floor_add_one h; linarith
  have hmono := sorted_getD hsort hfl (by omega)
  have hQ : quantile q v = s.getD ⌊h⌋₊ 0 + (h - ⌊h⌋₊) * (s.getD ⌈h⌉₊ 0 - s.getD ⌊h⌋₊ 0) := by
    have e : quantile q v = s.getD ⌊h⌋₊ 0 + (h - ⌊h⌋₊) * (s.getD (min (⌊h⌋₊ + 1) (v.length - 1)) 0 - s.getD ⌊h⌋₊ 0) := by
      rw [quantile, hs, hh]
    rw [e]
    by_cases hi : h = ⌊h⌋₊
    · have : h - (⌊h⌋₊ : ℝ) = 0 := by linarith
      simp only [this, zero_mul]
    · have hlt : (⌊h⌋₊ : ℝ) < h := lt_of_le_of_ne (Nat.floor_le hh0) (Ne.symm hi)
      have hc : ⌈h⌉₊ = ⌊h⌋₊ + 1 := le_antisymm (Nat.ceil_le_floor_add_one h) (Nat.lt_ceil.2 hlt)
      rw [Nat.min_eq_left (by omega), ← hc]
  rw [← hh]
  refine ⟨s, hsort, hperm, by omega, ?_, ?_, hQ⟩
  · rw [hQ]; nlinarith
  · rw [hQ]; nlinarith

/-- at least the first `i + 1` entries are at most `Q`. -/
theorem count_le (s : List ℝ) (hs : s.Pairwise (· ≤ ·)) (Q : ℝ) (i : ℕ) (hi : i < s.length) (hQ : s.getD i 0 ≤ Q) (p : ℝ → Bool) (hp : ∀ x, p x = true ↔ x ≤ Q) :
    i + 1 ≤ s.countP p := by
  have h1 : (s.take (i + 1)).countP p = (s.take (i + 1)).length := by
    rw [List.countP_eq_length]
    intro x hx
    obtain ⟨j, hj, rfl⟩ := List.getElem_of_mem hx
    rw [List.length_take] at hj
    rw [hp, List.getElem_take]
    refine le_trans ?_ hQ
    have := sorted_getD hs (show j ≤ i by omega) hi
    rwa [List.getD_eq_getElem _ _ (by omega)] at this
  have h2 := (List.take_sublist (i + 1) s).countP_le (p := p)
  rw [h1, List.length_take] at h2
  omega

/-- at least the entries from `i` on are at least `Q`. -/
theorem count_ge (s : List ℝ) (hs : s.Pairwise (· ≤ ·)) (Q : ℝ) (i : ℕ) (hQ : Q ≤ s.getD i 0) (p : ℝ → Bool) (hp : ∀ x, p x = true ↔ Q ≤ x) :
    s.length - i ≤ s.countP p := by
  have h1 : (s.drop i).countP p = (s.drop i).length := by
    rw [List.countP_eq_length]
    intro x hx
    obtain ⟨j, hj, rfl⟩ := List.getElem_of_mem hx
    rw [List.length_drop] at hj
    rw [hp, List.getElem_drop]
    refine le_trans hQ ?_
    have := sorted_getD hs (show i ≤ i + j by omega) (show i + j < s.length by omega)
    rwa [List.getD_eq_getElem s 0 (show i + j < s.length by omega)] at this
  have h2 := (List.drop_sublist i s).countP_le (p := p)
  rwa [h1, List.length_drop] at h2

open _root_.Classical in
/-- **C197 (quantiles).** The quantile of a nonempty array of `n` numbers: at least `⌊q (n - 1)⌋ + 1` of them are at most the quantile and at least
`n - ⌈q (n - 1)⌉` at least the quantile; it does not decrease with the level, and for the levels zero and one it is the smallest and the largest number. -/
theorem C197_quantile (v : List ℝ) (hv : v ≠ []) :
    (∀ q, 0 ≤ q → q ≤ 1 → ∃ Q, npQuantile q (v.map some) = some Q ∧ ⌊q * ((v.length - 1 : ℕ) : ℝ)⌋₊ + 1 ≤ v.countP (fun x => decide (x ≤ Q)) ∧
      v.length - ⌈q * ((v.length - 1 : ℕ) : ℝ)⌉₊ ≤ v.countP (fun x => decide (Q ≤ x))) ∧
    (∀ q q' Q Q', 0 ≤ q → q ≤ q' → q' ≤ 1 → npQuantile q (v.map some) = some Q → npQuantile q' (v.map some) = some Q' → Q ≤ Q') ∧
    (∃ Q ∈ v, npQuantile 0 (v.map some) = some Q ∧ ∀ x ∈ v, Q ≤ x) ∧ ∃ Q ∈ v, npQuantile 1 (v.map some) = some Q ∧ ∀ x ∈ v, x ≤ Q := by
  have hn : 0 < v.length := List.length_pos_iff.2 hv
  refine ⟨fun q h0 h1 => ?_, fun q q' Q Q' h0 hqq h1 hQ hQ' => ?_, ?_, ?_⟩
  · obtain ⟨s, hs, hp, hc, ha, hb, -⟩ := quantile_between q h0 h1 v hv
    refine ⟨_, npQuantile_some q v hv, ?_, ?_⟩
    · rw [← hp.countP_eq]
      exact count_le s hs _ _ (lt_of_le_of_lt (Nat.floor_le_ceil _) hc) ha _ fun x => by simp
    · have := count_ge s hs _ _ hb (fun x => decide (quantile q v ≤ x)) fun x => by simp
      rwa [hp.length_eq, hp.countP_eq] at this
  · rw [npQuantile_some _ v hv, Option.some_inj] at hQ hQ'
    obtain ⟨s, hs, hp, hc, ha, hb, he⟩ := quantile_between q h0 (hqq.trans h1) v hv
    obtain ⟨s', hs', hp', hc', ha', hb', he'⟩ := quantile_between q' (h0.trans hqq) h1 v hv
    obtain rfl : s = s' := (hp.trans hp'.symm).eq_of_pairwise (fun a b _ _ h1 h2 => le_antisymm h1 h2) hs hs'
    rw [← hQ, ← hQ']
    have hle : q * ((v.length - 1 : ℕ) : ℝ) ≤ q' * ((v.length - 1 : ℕ) : ℝ) := mul_le_mul_of_nonneg_right hqq (Nat.cast_nonneg _)
    generalize hh : q * ((v.length - 1 : ℕ) : ℝ) = h at *
    generalize hh' : q' * ((v.length - 1 : ℕ) : ℝ) = h' at *
    by_cases hf : ⌈h⌉₊ ≤ ⌊h'⌋₊
    · exact hb.trans ((sorted_getD hs hf (lt_of_le_of_lt (Nat.floor_le_ceil _) hc')).trans ha')
    · have e1 : ⌊h⌋₊ = ⌊h'⌋₊ := by
        have := Nat.ceil_le_floor_add_one h
        have := Nat.floor_le_floor hle
        omega
      have e2 : ⌈h⌉₊ = ⌈h'⌉₊ := by
        have := Nat.ceil_le_floor_add_one h'
        have := Nat.ceil_le_ceil hle
        omega
      rw [he, he', ← e1, ← e2]
      have := sorted_getD hs (Nat.floor_le_ceil h) hc
      nlinarith
  · obtain ⟨s, hs, hp, hc, ha, hb, he⟩ := quantile_between 0 le_rfl zero_le_one v hv
    simp only [zero_mul, Nat.floor_zero, Nat.ceil_zero, Nat.cast_zero, sub_self, add_zero] at *
    refine ⟨_, ?_, npQuantile_some 0 v hv, fun x hx => ?_⟩
    · rw [he, List.getD_eq_getElem _ _ hc]
      exact hp.mem_iff.1 (List.getElem_mem hc)
    · obtain ⟨j, hj, rfl⟩ := List.getElem_of_mem (hp.mem_iff.2 hx)
      rw [he, ← List.getD_eq_getElem s 0 hj]
      exact sorted_getD hs (Nat.zero_le _) hj
  · obtain ⟨s, hs, hp, hc, ha, hb, he⟩ := quantile_between 1 zero_le_one le_rfl v hv
    simp only [one_mul, Nat.floor_natCast, Nat.ceil_natCast, sub_self, zero_mul, add_zero] at *
    refine ⟨_, ?_, npQuantile_some 1 v hv, fun x hx => ?_⟩
    · rw [he, List.getD_eq_getElem _ _ hc]
      exact hp.mem_iff.1 (List.getElem_mem hc)
    · obtain ⟨j, hj, rfl⟩ := List.getElem_of_mem (hp.mem_iff.2 hx)
      rw [he, ← List.getD_eq_getElem s 0 hj]
      exact sorted_getD hs (by have := hp.length_eq; omega) hc

open _root_.Classical in
/-- **C197 (coverage).** The band between the two quantiles contains at least `⌊0.975 (n - 1)⌋ + 1 - ⌈0.025 (n - 1)⌉` of the `n` numbers. -/
theorem C197_coverage (v : List ℝ) (hv : v ≠ []) : ∃ a b, npQuantile 0.025 (v.map some) = some a ∧ npQuantile 0.975 (v.map some) = some b ∧ a ≤ b ∧
    ⌊(0.975 : ℝ) * ((v.length - 1 : ℕ) : ℝ)⌋₊ + 1 ≤ v.countP (fun x => decide (a ≤ x ∧ x ≤ b)) + ⌈(0.025 : ℝ) * ((v.length - 1 : ℕ) : ℝ)⌉₊ := by
  obtain ⟨h1, h2, -⟩ := C197_quantile v hv
  obtain ⟨a, ha, -, ha2⟩ := h1 0.025 (by norm_num) (by norm_num)
  obtain ⟨b, hb, hb1, -⟩ := h1 0.975 (by norm_num) (by norm_num)
  refine ⟨a, b, ha, hb, h2 _ _ _ _ (by norm_num) (by norm_num) (by norm_num) ha hb, ?_⟩
  have key : ∀ w : List ℝ, w.countP (fun x => decide (a ≤ x)) + w.countP (fun x => decide (x ≤ b)) ≤ w.countP (fun x => decide (a ≤ x ∧ x ≤ b)) + w.length := by
    intro w
    induction w with
    | nil => simp
    | cons x w ih =>
      simp only [List.countP_cons, List.length_cons, decide_eq_true_eq]
      by_cases h3 : a ≤ x <;> by_cases h4 : x ≤ b <;> simp only [h3, h4, and_self, and_true, and_false, if_true, if_false] <;> omega
  have := key v
  omega

open _root_.Classical in
/-- for the thousand errors of the experiment: at least 950. -/
example (v : List ℝ) (hv : v.length = 1000) :
    ∃ a b, npQuantile 0.025 (v.map some) = some a ∧ npQuantile 0.975 (v.map some) = some b ∧ 950 ≤ v.countP (fun x => decide (a ≤ x ∧ x ≤ b)) := by
  obtain ⟨a, b, ha, hb, -, h⟩ := C197_coverage v (by rintro rfl; simp at hv)
  refine ⟨a, b, ha, hb, ?_⟩
  have e1 : ⌊(0.975 : ℝ) * ((1000 - 1 : ℕ) : ℝ)⌋₊ = 974 := by rw [Nat.floor_eq_iff (by norm_num)]; norm_num
  have e2 : ⌈(0.025 : ℝ) * ((1000 - 1 : ℕ) : ℝ)⌉₊ = 25 := by rw [Nat.ceil_eq_iff (by norm_num)]; norm_num
  rw [hv, e1, e2] at h
  omega

/-! ### The errors -/

/-- the numbers in the kept rows. -/
noncomputable def keptRows (a : List (List Num)) : List (List ℝ) := (rmDivergent a).1.map fun r => r.map (·.getD 0)

theorem rmDivergent_eq (a : List (List Num)) : (rmDivergent a).1 = (keptRows a).map (·.map some) := by
  rw [keptRows, List.map_map]
  conv_lhs => rw [← List.map_id (rmDivergent a).1]
  refine List.map_congr_left fun r hr => ?_
  have hn := ((C164_removed a).2.1 r).1 hr
  rw [id, Function.comp, List.map_map]
  conv_lhs => rw [← List.map_id r]
  refine List.map_congr_left fun x hx => ?_
  cases x with
  | none => exact absurd hx hn.2
  | some x => rfl

/-- **C197 (means).** In the plot of the errors the value for the moment filter (the mean of the means over time) and that for the other filters (the mean of all
entries) are the same function of the errors: the average over the runs without NaN and all times. -/
theorem C197_means (a : List (List Num)) (T : ℕ) (hT : 0 < T) (hl : ∀ r ∈ a, r.length = T) (hne : ∃ r ∈ a, none ∉ r) :
    mfPoint a = otherPoint a ∧ otherPoint a = some (((keptRows a).map List.sum).sum / ((keptRows a).length * T)) := by
  have hr : ∀ r ∈ keptRows a, r.length = T := fun r hr => by
    obtain ⟨x, hx, rfl⟩ := List.mem_map.1 hr
    rw [List.length_map]
    exact hl x (((C164_removed a).2.1 x).1 hx).1
  have h0 : keptRows a ≠ [] := by
    obtain ⟨r, h1, h2⟩ := hne
    rw [keptRows, ne_eq, List.map_eq_nil_iff]
    exact List.ne_nil_of_mem (((C164_removed a).2.1 r).2 ⟨h1, h2⟩)
  rw [mfPoint, otherPoint, rmDivergent_eq]
  generalize keptRows a = rows at hr h0
  have hTr : (T : ℝ) ≠ 0 := Nat.cast_ne_zero.2 hT.ne'
  have hflat : (rows.map (·.map some)).flatten = rows.flatten.map some := (List.map_flatten ..).symm
  have hsum : rows.flatten.sum = (rows.map List.sum).sum := List.sum_flatten
  have hlen : rows.flatten.length = rows.length * T := by
    rw [List.length_flatten, List.map_congr_left hr, List.map_const', List.sum_replicate, smul_eq_mul]
  have hf0 : rows.flatten ≠ [] := by
    rw [ne_eq, ← List.length_eq_zero_iff, hlen]
    exact mul_ne_zero (by simpa using h0) hT.ne'
  have e2 : npMean (rows.map (·.map some)).flatten = some ((rows.map List.sum).sum / (rows.length * T)) := by
    rw [hflat, npMean_some _ hf0, hsum, hlen, Nat.cast_mul]
  have e1 : (rows.map (·.map some)).map npMean = (rows.map fun r => r.sum / (T : ℝ)).map some := by
    rw [List.map_map, List.map_map]
    refine List.map_congr_left fun r hrm => ?_
    have hr0 : r ≠ [] := by
      rw [ne_eq, ← List.length_eq_zero_iff, hr r hrm]; exact hT.ne'
    simp only [Function.comp, npMean_some r hr0, hr r hrm]
  refine ⟨?_, e2⟩
  rw [e2, e1, npMean_some _ (by simpa using h0), List.length_map]
  have e3 : (rows.map fun r => r.sum / (T : ℝ)).sum = (rows.map List.sum).sum / T := by
    clear e2 e1 hf0 hlen hsum hflat h0 hr
    induction rows with
    | nil => simp
    | cons r rows ih => rw [List.map_cons, List.sum_cons, ih, List.map_cons, List.sum_cons, add_div]
  rw [e3, div_div, mul_comm]

/-- a run with a NaN and one without. -/
example : mfPoint [[some 1, none], [some 1, some 3]] = some 2 := by
  obtain ⟨h1, h2⟩ := C197_means [[some 1, none], [some 1, some 3]] 2 (by norm_num) (by simp) ⟨_, List.mem_cons_of_mem _ (List.mem_singleton_self _), by simp⟩
  rw [h1, h2]
  simp [keptRows, rmDivergent, diverged]
  norm_num

theorem quantile_sorted (q : ℝ) (v : List ℝ) (hv : v.Pairwise (· ≤ ·)) (i : ℕ) (hi : ⌊q * ((v.length - 1 : ℕ) : ℝ)⌋₊ = i) :
    quantile q v = v.getD i 0 + (q * ((v.length - 1 : ℕ) : ℝ) - i) * (v.getD (min (i + 1) (v.length - 1)) 0 - v.getD i 0) := by
  subst hi
  rw [quantile, List.Pairwise.insertionSort_eq hv]

/-- **C197 (bands, refuted).** The bands of the moment filter and of the other filters are different functions of the errors: for the moment filter quantiles of
the averages over time of the runs, for the others quantiles of all errors at all times. For the same errors the first can be a point and the second the whole range. -/
theorem C197_bands_refuted : ∃ a : List (List Num), (∀ r ∈ a, none ∉ r ∧ r.length = 2) ∧ mfBand a = (some 1, some 1) ∧ otherBand a = (some 0, some 2) := by
  have hk : keptRows [[some 0, some 2], [some 0, some 2]] = [[0, 2], [0, 2]] := by simp [keptRows, rmDivergent, diverged]
  have hm : (([[0, 2], [0, 2]] : List (List ℝ)).map (·.map some)).map npMean = ([1, 1] : List ℝ).map some := by
    simp only [List.map_cons, List.map_nil]
    rw [show [some (0 : ℝ), some 2] = ([0, 2] : List ℝ).map some from rfl, npMean_some _ (by simp)]
    norm_num
  have hf : (([[0, 2], [0, 2]] : List (List ℝ)).map (·.map some)).flatten = ([0, 2, 0, 2] : List ℝ).map some := rfl
  have hq : ∀ q, quantile q [0, 2, 0, 2] = quantile q [0, 0, 2, 2] := fun q => by
    have : List.insertionSort (· ≤ ·) [(0 : ℝ), 2, 0, 2] = List.insertionSort (· ≤ ·) [0, 0, 2, 2] := by
      refine List.Perm.eq_of_pairwise (fun a b _ _ h1 h2 => le_antisymm h1 h2) (List.pairwise_insertionSort _ _) (List.pairwise_insertionSort _ _) ?_
      refine (List.perm_insertionSort _ _).trans (List.Perm.trans ?_ (List.perm_insertionSort _ _).symm)
      exact List.Perm.cons _ (List.Perm.swap _ _ _)
    simp only [quantile, this, List.length_cons]
  refine ⟨[[some 0, some 2], [some 0, some 2]], by simp, ?_, ?_⟩
  · rw [mfBand, rmDivergent_eq, hk]
    simp only [hm]
    rw [npQuantile_some _ _ (by simp), npQuantile_some _ _ (by simp), quantile_sorted 0.025 [1, 1] (by simp) 0 (by rw [Nat.floor_eq_zero]; norm_num),
      quantile_sorted 0.975 [1, 1] (by simp) 0 (by rw [Nat.floor_eq_zero]; norm_num)]
    norm_num
  · rw [otherBand, rmDivergent_eq, hk]
    simp only [hf]
    rw [npQuantile_some _ _ (by simp), npQuantile_some _ _ (by simp), hq, hq, quantile_sorted 0.025 [0, 0, 2, 2] (by simp) 0 (by rw [Nat.floor_eq_zero]; norm_num),
      quantile_sorted 0.975 [0, 0, 2, 2] (by simp) 2 (by rw [Nat.floor_eq_iff (by norm_num)]; norm_num)]
    norm_num

/-- **C197 (curve in the band, refuted).** The curve of the moment filter need not lie in its band: forty runs without error and one with a large error. -/
theorem C197_curve_refuted : ∃ (a : List (List Num)) (m lo hi : ℝ), (∀ r ∈ a, none ∉ r ∧ r.length = 1) ∧ mfPoint a = some m ∧ mfBand a = (some lo, some hi) ∧ hi < m := by
  obtain ⟨v, hv⟩ : ∃ v : List ℝ, v = List.replicate 40 0 ++ [41] := ⟨_, rfl⟩
  have hlen : v.length = 41 := by rw [hv]; simp
  have hv0 : v ≠ [] := by rw [hv]; simp
  have hr : (rmDivergent (v.map fun x => [some x])).1 = v.map fun x => [some x] := by
    rw [rmDivergent]
    refine List.filter_eq_self.2 fun r hr => ?_
    obtain ⟨x, -, rfl⟩ := List.mem_map.1 hr
    rfl
  have hm : (v.map fun x => [some x]).map npMean = v.map some := by
    rw [List.map_map]
    refine List.map_congr_left fun x _ => ?_
    have := npMean_some [x] (by simp)
    simpa using this
  have hs : v.Pairwise (· ≤ ·) := by
    rw [hv, List.pairwise_append]
    refine ⟨List.pairwise_replicate.2 (Or.inr le_rfl), by simp, ?_⟩
    intro a ha b hb
    rw [List.eq_of_mem_replicate ha, List.mem_singleton.1 hb]
    norm_num
  have hz : ∀ i < 40, v.getD i 0 = 0 := fun i hi => by
    rw [hv, List.getD_append _ _ _ _ (by simpa using hi), List.getD_eq_getElem _ _ (by simpa using hi), List.getElem_replicate]
  refine ⟨v.map fun x => [some x], 1, 0, 0, ?_, ?_, ?_, zero_lt_one⟩
  · intro r hr
    obtain ⟨x, -, rfl⟩ := List.mem_map.1 hr
    simp
  · rw [mfPoint, hr, hm, npMean_some _ hv0, hlen, hv]
    simp
  · rw [mfBand, hr]
    simp only [hm]
    rw [npQuantile_some _ _ hv0, npQuantile_some _ _ hv0, quantile_sorted 0.025 v hs 1 (by rw [hlen, Nat.floor_eq_iff (by norm_num)]; norm_num),
      quantile_sorted 0.975 v hs 39 (by rw [hlen, Nat.floor_eq_iff (by norm_num)]; norm_num), hlen, hz 1 (by norm_num), hz 39 (by norm_num), hz (min (1 + 1) (41 - 1)) (by norm_num)]
    norm_num

/-! ### The times -/

/-- the sum of the squares of the entries far from `m`. -/
theorem far_sum (v : List ℝ) (m c : ℝ) (p : ℝ → Bool) (hp : ∀ x, p x = true → c < (x - m) ^ 2) :
    (v.countP p : ℝ) * c ≤ (v.map fun x => (x - m) ^ 2).sum ∧ (0 < v.countP p → (v.countP p : ℝ) * c < (v.map fun x => (x - m) ^ 2).sum) := by
  induction v with
  | nil => simp
  | cons x v ih =>
    rw [List.countP_cons, List.map_cons, List.sum_cons]
    by_cases h : p x = true
    · have := hp x h
      simp only [h, if_true]
      push_cast
      constructor
      · nlinarith [ih.1]
      · intro _; nlinarith [ih.1]
    · simp only [h]
      have := sq_nonneg (x - m)
      simp only [Bool.false_eq_true, if_false, add_zero]
      exact ⟨by linarith [ih.1], fun h0 => by linarith [ih.2 h0]⟩

open _root_.Classical in
/-- **C197 (times).** The curve of the times is the mean, which lies in the band; less than a quarter of the times lie outside the band, for all times. -/
theorem C197_times (v : List ℝ) (hv : v ≠ []) : ∃ lo hi, timeBand (v.map some) = (some (v.sum / v.length), some lo, some hi) ∧ lo ≤ v.sum / v.length ∧
    v.sum / v.length ≤ hi ∧ v.sum / v.length - lo = hi - v.sum / v.length ∧ 4 * v.countP (fun x => decide (x < lo ∨ hi < x)) < v.length := by
  obtain ⟨m, hm⟩ : ∃ m, m = v.sum / v.length := ⟨_, rfl⟩
  obtain ⟨s, hs⟩ : ∃ s, s = Real.sqrt ((v.map fun a => (a - v.sum / v.length) ^ 2).sum / v.length) := ⟨_, rfl⟩
  have hn : (0 : ℝ) < v.length := Nat.cast_pos.2 (List.length_pos_iff.2 hv)
  have hsum : 0 ≤ (v.map fun a => (a - m) ^ 2).sum := List.sum_nonneg fun x hx => by
    obtain ⟨a, -, rfl⟩ := List.mem_map.1 hx
    exact sq_nonneg _
  have hs0 : 0 ≤ s := by rw [hs]; exact Real.sqrt_nonneg _
  have hs2 : s ^ 2 * v.length = (v.map fun a => (a - m) ^ 2).sum := by
    rw [hs, ← hm, Real.sq_sqrt (div_nonneg hsum hn.le)]
    field_simp
  refine ⟨m - 2 * s, m + 2 * s, ?_, by rw [← hm]; linarith, by rw [← hm]; linarith, by rw [← hm]; ring, ?_⟩
  · rw [timeBand, npMean_some _ hv, npStd_some _ hv, ← hs, ← hm]
    rfl
  · have hfar := far_sum v m ((2 * s) ^ 2) (fun x => decide (x < m - 2 * s ∨ m + 2 * s < x)) fun x hx => by
      rcases of_decide_eq_true hx with h | h <;> nlinarith
    rcases Nat.eq_zero_or_pos (v.countP fun x => decide (x < m - 2 * s ∨ m + 2 * s < x)) with h0 | h0
    · rw [h0]
      exact List.length_pos_iff.2 hv
    · have h1 := hfar.2 h0
      rw [← hs2] at h1
      have h2 : s ^ 2 * ((4 * v.countP (fun x => decide (x < m - 2 * s ∨ m + 2 * s < x)) : ℕ) : ℝ) < s ^ 2 * v.length := by
        push_cast
        linarith
      have h3 := lt_of_mul_lt_mul_left h2 (sq_nonneg s)
      exact_mod_cast h3

open _root_.Classical in
/-- **C197 (times, refuted).** With two deviations the band need not contain 95 percent of the times, and its lower end need not be positive, which the logarithmic
axis cannot show: five times of one second and one of thirteen. -/
theorem C197_times_refuted : ∃ (v : List ℝ) (m lo hi : ℝ), (∀ x ∈ v, 0 < x) ∧ timeBand (v.map some) = (some m, some lo, some hi) ∧ lo < 0 ∧
    (v.countP (fun x => decide (lo ≤ x ∧ x ≤ hi)) : ℝ) < 0.95 * v.length := by
  have h5 : Real.sqrt 20 < 5 := by rw [Real.sqrt_lt' (by norm_num)]; norm_num
  have h4 : 4 < Real.sqrt 20 := by rw [Real.lt_sqrt (by norm_num)]; norm_num
  refine ⟨[1, 1, 1, 1, 1, 13], 3, 3 - 2 * Real.sqrt 20, 3 + 2 * Real.sqrt 20, ?_, ?_, by linarith, ?_⟩
  · intro x hx
    fin_cases hx <;> norm_num
  · have e1 : ([1, 1, 1, 1, 1, 13] : List ℝ).sum / (([1, 1, 1, 1, 1, 13] : List ℝ).length : ℝ) = 3 := by norm_num
    have e2 : (([1, 1, 1, 1, 1, 13] : List ℝ).map fun a => (a - 3) ^ 2).sum / (([1, 1, 1, 1, 1, 13] : List ℝ).length : ℝ) = 20 := by norm_num
    rw [timeBand, npMean_some _ (by simp), npStd_some _ (by simp), e1, e2]
    rfl
  · have a1 : 3 - 2 * Real.sqrt 20 ≤ 1 ∧ 1 ≤ 3 + 2 * Real.sqrt 20 := ⟨by linarith, by linarith⟩
    have a2 : ¬ (3 - 2 * Real.sqrt 20 ≤ 13 ∧ 13 ≤ 3 + 2 * Real.sqrt 20) := fun h => by linarith [h.2]
    simp only [List.countP_cons, List.countP_nil, a1, a2, decide_true, decide_false, and_self, List.length_cons, List.length_nil]
    norm_num

end Mfs.Props

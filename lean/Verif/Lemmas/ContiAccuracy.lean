import Verif.Lemmas.ContiResampling
import Mathlib.MeasureTheory.Integral.Bochner.Set
import Mathlib.MeasureTheory.Measure.Lebesgue.Basic

/-!
# Accuracy of `continuous_resampling` for monotone functions
-/

namespace Mfs.Resampling

open Finset

/-- above a knot the interpolated values are at least the value at the knot. -/
theorem interp_lower {eps : ℝ} (heps : 0 ≤ eps) {xp fp : List ℝ} (hl : fp.length = xp.length) (hx : xp.Pairwise (· ≤ ·)) (hf : fp.Pairwise (· ≤ ·))
    {c : ℕ} (hc : c < xp.length) {x : ℝ} (h : xp.getD c 0 < x) : fp.getD c 0 ≤ interp eps x xp fp := by
  have h0 : 0 < xp.length := by omega
  rw [interp_def]
  split_ifs with h1 h2
  · exact sorted_getD hf (by omega) (by omega)
  · exact absurd (sorted_getD hx (Nat.zero_le c) hc) (by linarith)
  · obtain ⟨hi, a1, a2⟩ := interpIdx_spec hx h0 (not_lt.1 h2) (not_lt.1 h1)
    refine le_trans ?_ (interpIn_bounds heps hl hf hi a1 a2).1
    refine sorted_getD hf ?_ (by omega)
    by_contra hcon
    have : xp.getD (interpIdx x xp) 0 ≤ xp.getD c 0 := sorted_getD hx (by omega) hc
    linarith

/-- below a knot the interpolated values are at most the value at the knot. -/
theorem interp_upper {eps : ℝ} (heps : 0 ≤ eps) {xp fp : List ℝ} (hl : fp.length = xp.length) (hx : xp.Pairwise (· ≤ ·)) (hf : fp.Pairwise (· ≤ ·))
    {c : ℕ} (hc : c < xp.length) {x : ℝ} (h : x < xp.getD c 0) : interp eps x xp fp ≤ fp.getD c 0 := by
  have h0 : 0 < xp.length := by omega
  rw [interp_def]
  split_ifs with h1 h2
  · exact absurd (sorted_getD hx (show c ≤ xp.length - 1 by omega) (by omega)) (by linarith)
  · exact sorted_getD hf (Nat.zero_le _) (by omega)
  · obtain ⟨hi, a1, a2⟩ := interpIdx_spec hx h0 (not_lt.1 h2) (not_lt.1 h1)
    refine (interpIn_bounds heps hl hf hi a1 a2).2.trans ?_
    refine sorted_getD hf ?_ (by omega)
    by_contra hcon
    have : xp.getD c 0 ≤ xp.getD (interpIdx x xp - 1) 0 := sorted_getD hx (by omega) (by omega)
    linarith

theorem knot_eq (w : ℕ → ℝ) (j : ℕ) : knot w j = ∑ i ∈ range j, w i + w j / 2 := by
  induction j with
  | zero => simp [knot]
  | succ j ih => rw [knot, ih, sum_range_succ]; ring

private theorem countP_sum (n : ℕ) (p : ℕ → Prop) [DecidablePred p] :
    ((List.range n).countP (fun k => decide (p k)) : ℝ) = ∑ k ∈ range n, if p k then (1 : ℝ) else 0 := by
  induction n with
  | zero => simp
  | succ n ih =>
    rw [List.range_succ, List.countP_append, List.countP_singleton, sum_range_succ, ← ih]
    push_cast
    simp only [decide_eq_true_eq]

open _root_.Classical in
/-- the number of stratified points above a threshold. -/
theorem strata_count {n : ℕ} [NeZero n] {u : ℕ → ℝ} (hu : ∀ j < n, 0 ≤ u j ∧ u j < 1) {θ : ℝ} (h0 : 0 ≤ θ) (h1 : θ ≤ 1) :
    n * (1 - θ) - 1 ≤ (∑ j ∈ range n, if θ < (u j + j) / n then (1 : ℝ) else 0) ∧
      (∑ j ∈ range n, if θ ≤ (u j + j) / n then (1 : ℝ) else 0) ≤ n * (1 - θ) + 1 := by
  have hn : (0 : ℝ) < n := by exact_mod_cast NeZero.pos n
  constructor
  · have hb := (count_le_bounds n (n * θ) (by nlinarith) (by nlinarith)).2
    rw [countP_sum n (fun k : ℕ => (k : ℝ) ≤ n * θ)] at hb
    have : ∑ j ∈ range n, (1 - if (j : ℝ) ≤ n * θ then (1 : ℝ) else 0) ≤ ∑ j ∈ range n, if θ < (u j + j) / n then (1 : ℝ) else 0 := by
      refine sum_le_sum fun j hj => ?_
      by_cases h : (j : ℝ) ≤ n * θ
      · rw [if_pos h, sub_self]; split_ifs <;> norm_num
      · rw [if_neg h, if_pos ((lt_div_iff₀ hn).2 (by have := (hu j (mem_range.1 hj)).1; linarith))]; norm_num
    rw [sum_sub_distrib] at this
    simp only [sum_const, card_range, nsmul_eq_mul, mul_one] at this
    linarith
  · rcases h0.eq_or_lt with rfl | hpos
    · have : (∑ j ∈ range n, if (0 : ℝ) ≤ (u j + j) / n then (1 : ℝ) else 0) ≤ ∑ j ∈ range n, 1 := sum_le_sum fun j _ => by split_ifs <;> norm_num
      simp only [sum_const, card_range, nsmul_eq_mul, mul_one] at this
      linarith
    · have hb := (count_le_bounds n (n * θ - 1) (by nlinarith [mul_pos hn hpos]) (by nlinarith)).1
      rw [countP_sum n (fun k : ℕ => (k : ℝ) ≤ n * θ - 1)] at hb
      have : (∑ j ∈ range n, if θ ≤ (u j + j) / n then (1 : ℝ) else 0) ≤ ∑ j ∈ range n, (1 - if (j : ℝ) ≤ n * θ - 1 then (1 : ℝ) else 0) := by
        refine sum_le_sum fun j hj => ?_
        by_cases h : (j : ℝ) ≤ n * θ - 1
        · rw [if_pos h, sub_self, if_neg]
          rw [not_le, div_lt_iff₀ hn]
          have := (hu j (mem_range.1 hj)).2
          linarith
        · rw [if_neg h]; split_ifs <;> norm_num
      rw [sum_sub_distrib] at this
      simp only [sum_const, card_range, nsmul_eq_mul, mul_one] at this
      linarith

open _root_.Classical in
/-- the resampled mass of an up-set is close to its weight. -/
theorem conti_upset {n : ℕ} [NeZero n] {K : Type} {eps : ℝ} (heps : 0 ≤ eps) (draw : K → ℕ → ℝ) (key : K) (hu : ∀ j < n, 0 ≤ draw key j ∧ draw key j < 1)
    (s w : Fin n → ℝ) (hw0 : ∀ i, 0 ≤ w i) (hw1 : ∑ i, w i = 1) {b : ℝ} (hb : ∀ i, w i ≤ b) (U : ℝ → Prop) (hU : ∀ x y, x ≤ y → U x → U y) :
    |(∑ j, if U (Smc.resampleConti eps draw s w key j) then (1 : ℝ) else 0) / n - ∑ i, w i * if U (s i) then (1 : ℝ) else 0| ≤ 1 / n + b / 2 := by
  have hn : (0 : ℝ) < n := by exact_mod_cast NeZero.pos n
  have hnn : 0 < n := NeZero.pos n
  have hb0 : 0 ≤ b := (hw0 0).trans (hb 0)
  set idx := argsort (List.ofFn s) with hidx
  set xs := idx.map fun i => (List.ofFn s).getD i 0 with hxs
  set ws := idx.map fun i => (List.ofFn w).getD i 0 with hws
  set cs := (cumsum (avgNNplusone ws)).dropLast with hcs
  have hperm : idx.Perm (List.range n) := by simpa using argsort_perm (List.ofFn s)
  have hidxl : idx.length = n := by rw [hperm.length_eq, List.length_range]
  have hwl : ws.length = n := by rw [hws, List.length_map, hidxl]
  have hcl : cs.length = n := by rw [hcs, List.length_dropLast, cumsum_length, avg_length, hwl]; omega
  have hxl : xs.length = n := by rw [hxs, List.length_map, hidxl]
  have hwb : ∀ k < n, 0 ≤ ws.getD k 0 ∧ ws.getD k 0 ≤ b := by
    intro k hk
    have hlt : idx[k]'(by omega) < n := by
      have := hperm.mem_iff.1 (List.getElem_mem (l := idx) (n := k) (by omega))
      simpa using this
    rw [List.getD_eq_getElem _ _ (by omega)]
    simp only [hws, List.getElem_map]
    rw [List.getD_eq_getElem _ _ (by simpa using hlt), List.getElem_ofFn]
    exact ⟨hw0 _, hb _⟩
  have hws0 : ∀ a ∈ ws, 0 ≤ a := by
    intro a ha
    obtain ⟨i, -, rfl⟩ := List.mem_map.1 ha
    exact getD_nonneg _ (fun a ha => by obtain ⟨i, rfl⟩ := List.mem_ofFn.1 ha; exact hw0 i) i
  have hcsort : cs.Pairwise (· ≤ ·) := (cumsum_sorted _ (avg_nonneg ws hws0)).sublist (List.dropLast_sublist _)
  have hxsort : xs.Pairwise (· ≤ ·) := argsort_map_sorted _
  -- sums over the sorted weights
  have hsum : ∀ φ : ℝ → ℝ, ∑ i, w i * φ (s i) = ∑ k ∈ range n, ws.getD k 0 * φ (xs.getD k 0) := by
    intro φ
    have h1 : ∑ i, w i * φ (s i) = ((List.range n).map fun i => (List.ofFn w).getD i 0 * φ ((List.ofFn s).getD i 0)).sum := by
      rw [← List.sum_ofFn]
      congr 1
      refine List.ext_getElem (by simp) fun i h1 h2 => ?_
      have hi : i < n := by simpa using h1
      simp [hi]
    rw [h1, ← (hperm.map _).sum_eq, Finset.sum_range, ← List.sum_ofFn]
    congr 1
    refine List.ext_getElem (by simp [hidxl]) fun i h1 h2 => ?_
    have hi : i < n := by simpa using h2
    rw [List.getElem_map, List.getElem_ofFn, List.getD_eq_getElem ws _ (by omega), List.getD_eq_getElem xs _ (by omega)]
    simp only [hws, hxs, List.getElem_map]
  have hS1 : ∑ k ∈ range n, ws.getD k 0 = 1 := by
    have := hsum fun _ => 1
    simp only [mul_one] at this
    rw [← this, hw1]
  -- the cut
  set c := (List.range n).countP fun k => decide (¬ U (xs.getD k 0)) with hcdef
  have hck : ∀ k < n, k < c ↔ ¬ U (xs.getD k 0) := by
    intro k hk
    have := lt_countP_range (fun k => decide (¬ U (xs.getD k 0))) n (fun i j hij hj h => by
      simp only [decide_eq_true_eq] at h ⊢
      exact fun hcon => h (hU _ _ (sorted_getD hxsort hij (by omega)) hcon)) k hk
    rw [← hcdef] at this
    rw [this, decide_eq_true_eq]
  have hcn : c ≤ n := countP_range_le _ _
  have hmass : ∑ i, w i * (if U (s i) then (1 : ℝ) else 0) = 1 - ∑ k ∈ range c, ws.getD k 0 := by
    have hS2 := hS1
    rw [← Finset.sum_range_add_sum_Ico (fun k => ws.getD k 0) hcn] at hS2
    rw [hsum fun x => if U x then (1 : ℝ) else 0, ← Finset.sum_range_add_sum_Ico _ hcn, ← eq_sub_iff_add_eq'.2 hS2, Finset.sum_eq_zero fun k hk => by
        rw [if_neg ((hck k (by have := mem_range.1 hk; omega)).1 (mem_range.1 hk)), mul_zero], zero_add]
    refine Finset.sum_congr rfl fun k hk => ?_
    rw [Finset.mem_Ico] at hk
    rw [if_pos (by
      by_contra hcon
      have := (hck k hk.2).2 hcon
      omega), mul_one]
  have hknot : ∀ k < n, cs.getD k 0 = ∑ i ∈ range k, ws.getD i 0 + ws.getD k 0 / 2 := by
    intro k hk
    rw [hcs, cs_eq_knot (by omega), knot_eq]
  have hpart : ∀ k ≤ n, 0 ≤ ∑ i ∈ range k, ws.getD i 0 ∧ ∑ i ∈ range k, ws.getD i 0 ≤ 1 := by
    intro k hk
    refine ⟨Finset.sum_nonneg fun i hi => (hwb i (by have := mem_range.1 hi; omega)).1, ?_⟩
    rw [← hS1]
    exact Finset.sum_le_sum_of_subset_of_nonneg (range_subset_range.2 hk) fun i hi _ => (hwb i (mem_range.1 hi)).1
  have hout : ∀ j : Fin n, Smc.resampleConti eps draw s w key j = interp eps ((draw key j + ((j : ℕ) : ℝ)) / n) cs xs := by
    intro j
    simp only [Smc.resampleConti, continuousResampling]
    rw [List.getD_eq_getElem _ _ (by simp), List.getElem_map, List.getElem_range]
  simp only [hout]
  rw [hmass, abs_le]
  have hcount : ∀ p : ℕ → Prop, (∑ j : Fin n, if p j then (1 : ℝ) else 0) = ∑ j ∈ range n, if p j then (1 : ℝ) else 0 := fun p =>
    (Finset.sum_range (fun j : ℕ => if p j then (1 : ℝ) else 0)).symm
  rw [hcount fun j => U (interp eps ((draw key j + (j : ℝ)) / n) cs xs)]
  constructor
  · rcases hcn.lt_or_eq with hlt | heq
    · have hk := hknot c hlt
      have hsc : ∑ i ∈ range (c + 1), ws.getD i 0 = ∑ i ∈ range c, ws.getD i 0 + ws.getD c 0 := sum_range_succ _ _
      have hle1 := (hpart (c + 1) hlt).2
      have hge0 := (hpart c hcn).1
      have hwc := hwb c hlt
      have h1 := (strata_count (u := draw key) hu (θ := cs.getD c 0) (by rw [hk]; linarith) (by rw [hk]; linarith)).1
      have h2 : (∑ j ∈ range n, if cs.getD c 0 < (draw key j + j) / n then (1 : ℝ) else 0)
          ≤ ∑ j ∈ range n, if U (interp eps ((draw key j + (j : ℝ)) / n) cs xs) then (1 : ℝ) else 0 := by
        refine sum_le_sum fun j hj => ?_
        by_cases h : cs.getD c 0 < (draw key j + j) / n
        · have hUc : U (xs.getD c 0) := by
            by_contra hcon
            exact absurd ((hck c hlt).2 hcon) (lt_irrefl _)
          rw [if_pos h, if_pos (hU _ _ (interp_lower heps (by omega) hcsort hxsort (by omega) h) hUc)]
        · rw [if_neg h]; split_ifs <;> norm_num
      have h3 := h1.trans h2
      have h4 : (n * (1 - cs.getD c 0) - 1) / n ≤ (∑ j ∈ range n, if U (interp eps ((draw key j + (j : ℝ)) / n) cs xs) then (1 : ℝ) else 0) / n := by gcongr
      have h5 : (n * (1 - cs.getD c 0) - 1) / n = 1 - cs.getD c 0 - 1 / n := by field_simp
      rw [h5, hk] at h4
      linarith
    · have h1 : 0 ≤ (∑ j ∈ range n, if U (interp eps ((draw key j + (j : ℝ)) / n) cs xs) then (1 : ℝ) else 0) / n :=
        div_nonneg (sum_nonneg fun j _ => by split_ifs <;> norm_num) hn.le
      rw [heq, hS1]
      have : 0 < 1 / (n : ℝ) := by positivity
      linarith
  · rcases Nat.eq_zero_or_pos c with h0 | hpos
    · have h1 : (∑ j ∈ range n, if U (interp eps ((draw key j + (j : ℝ)) / n) cs xs) then (1 : ℝ) else 0) ≤ ∑ j ∈ range n, 1 :=
        sum_le_sum fun j _ => by split_ifs <;> norm_num
      simp only [sum_const, card_range, nsmul_eq_mul, mul_one] at h1
      have h2 : (∑ j ∈ range n, if U (interp eps ((draw key j + (j : ℝ)) / n) cs xs) then (1 : ℝ) else 0) / n ≤ 1 := by rw [div_le_one hn]; exact h1
      rw [h0, range_zero, sum_empty]
      have : 0 < 1 / (n : ℝ) := by positivity
      linarith
    · obtain ⟨d, hd⟩ : ∃ d, c = d + 1 := ⟨c - 1, by omega⟩
      have hdn : d < n := by omega
      have hk := hknot d hdn
      have hsc : ∑ i ∈ range c, ws.getD i 0 = ∑ i ∈ range d, ws.getD i 0 + ws.getD d 0 := by rw [hd]; exact sum_range_succ _ _
      have hle1 := (hpart c hcn).2
      have hge0 := (hpart d hdn.le).1
      have hwc := hwb d hdn
      have h1 := (strata_count (u := draw key) hu (θ := cs.getD d 0) (by rw [hk]; linarith) (by rw [hk]; linarith)).2
      have h2 : (∑ j ∈ range n, if U (interp eps ((draw key j + (j : ℝ)) / n) cs xs) then (1 : ℝ) else 0)
          ≤ ∑ j ∈ range n, if cs.getD d 0 ≤ (draw key j + j) / n then (1 : ℝ) else 0 := by
        refine sum_le_sum fun j hj => ?_
        by_cases h : cs.getD d 0 ≤ (draw key j + j) / n
        · rw [if_pos h]; split_ifs <;> norm_num
        · have hUd : ¬ U (xs.getD d 0) := (hck d hdn).1 (by omega)
          rw [if_neg h, if_neg fun hcon => hUd (hU _ _ (interp_upper heps (by omega) hcsort hxsort (by omega) (not_le.1 h)) hcon)]
      have h3 := h2.trans h1
      have h4 : (∑ j ∈ range n, if U (interp eps ((draw key j + (j : ℝ)) / n) cs xs) then (1 : ℝ) else 0) / n ≤ (n * (1 - cs.getD d 0) + 1) / n := by gcongr
      have h5 : (n * (1 - cs.getD d 0) + 1) / n = 1 - cs.getD d 0 + 1 / n := by field_simp
      rw [h5, hk] at h4
      linarith

open MeasureTheory in
/-- the resampled average of a bounded monotone function is close to its weighted average. -/
theorem conti_monotone {n : ℕ} [NeZero n] {K : Type} {eps : ℝ} (heps : 0 ≤ eps) (draw : K → ℕ → ℝ) (key : K) (hu : ∀ j < n, 0 ≤ draw key j ∧ draw key j < 1)
    (s w : Fin n → ℝ) (hw0 : ∀ i, 0 ≤ w i) (hw1 : ∑ i, w i = 1) {b : ℝ} (hb : ∀ i, w i ≤ b) {p : ℝ → ℝ} (hp : Monotone p) {A : ℝ} (hp0 : ∀ x, 0 ≤ p x)
    (hpA : ∀ x, p x ≤ A) :
    |(∑ j, p (Smc.resampleConti eps draw s w key j)) / n - ∑ i, w i * p (s i)| ≤ A * (1 / n + b / 2) := by
  classical
  have hA : 0 ≤ A := (hp0 0).trans (hpA 0)
  have hlay : ∀ x, ∫ c in Set.Ioc 0 A, (if c < p x then (1 : ℝ) else 0) = p x := by
    intro x
    have : (fun c : ℝ => if c < p x then (1 : ℝ) else 0) = (Set.Iio (p x)).indicator fun _ => (1 : ℝ) := by
      funext c; simp [Set.indicator_apply]
    rw [this, setIntegral_indicator measurableSet_Iio]
    have h2 : (Set.Ioc 0 A ∩ Set.Iio (p x) : Set ℝ) =ᵐ[volume] (Set.Ioc 0 (p x) : Set ℝ) := by
      refine ae_eq_set.2 ⟨?_, ?_⟩
      · have : (Set.Ioc 0 A ∩ Set.Iio (p x)) \ Set.Ioc 0 (p x) = ∅ := by
          ext c; simp only [Set.mem_sdiff, Set.mem_inter_iff, Set.mem_Ioc, Set.mem_Iio, Set.mem_empty_iff_false]; grind
        rw [this]; simp
      · refine measure_mono_null (t := {p x}) ?_ (by simp)
        intro c
        simp only [Set.mem_sdiff, Set.mem_inter_iff, Set.mem_Ioc, Set.mem_Iio, Set.mem_singleton_iff]
        have := hpA x
        grind
    rw [setIntegral_congr_set h2]
    simp [hp0 x]
  have hint : ∀ x, IntegrableOn (fun c : ℝ => if c < p x then (1 : ℝ) else 0) (Set.Ioc 0 A) := by
    intro x
    have : (fun c : ℝ => if c < p x then (1 : ℝ) else 0) = (Set.Iio (p x)).indicator fun _ => (1 : ℝ) := by
      funext c; simp [Set.indicator_apply]
    rw [this]
    exact ((integrable_const (1 : ℝ)).indicator measurableSet_Iio)
  have e : (∑ j, p (Smc.resampleConti eps draw s w key j)) / n - ∑ i, w i * p (s i)
      = ∫ c in Set.Ioc 0 A, ((∑ j, if c < p (Smc.resampleConti eps draw s w key j) then (1 : ℝ) else 0) / n - ∑ i, w i * if c < p (s i) then (1 : ℝ) else 0) := by
    rw [integral_sub ((integrable_finsetSum _ fun j _ => hint _).div_const _) (integrable_finsetSum _ fun i _ => (hint _).const_mul _), integral_div,
      integral_finsetSum _ fun j _ => hint _, integral_finsetSum _ fun i _ => (hint _).const_mul _]
    simp only [integral_const_mul, hlay]
  rw [e, ← Real.norm_eq_abs]
  refine (norm_setIntegral_le_of_norm_le_const (C := 1 / n + b / 2) (by simp) fun c _ => ?_).trans ?_
  · rw [Real.norm_eq_abs]
    exact conti_upset heps draw key hu s w hw0 hw1 hb (fun x => c < p x) fun x y hxy h => lt_of_lt_of_le h (hp hxy)
  · simp [hA, mul_comm]

end Mfs.Resampling

import Verif.Props.ResamplingVar

/-!
# C150: systematic and stratified resampling of ordered particles
-/

namespace Mfs.Props

open Mfs.Resampling

variable {ss : List ℝ → ℝ → ℕ}

theorem abel_step (φ : ℕ → ℝ) (i m : ℕ) : ∑ j ∈ Finset.range m, (if i ≤ j then φ (j + 1) - φ j else 0) = φ (max m i) - φ i := by
  induction m with
  | zero => simp
  | succ m ih =>
    rw [Finset.sum_range_succ, ih]
    by_cases h : i ≤ m
    · rw [if_pos h, max_eq_left h, max_eq_left (by omega : i ≤ m + 1)]; ring
    · rw [if_neg h, max_eq_right (by omega : m ≤ i), max_eq_right (by omega : m + 1 ≤ i)]; ring

/-- one point in each of the cells `[k, k + 1)`. -/
theorem cells_count (n : ℕ) (u : ℕ → ℝ) (hu : ∀ k, 0 ≤ u k ∧ u k < 1) (a : ℝ) (h0 : 0 ≤ a) (hn : a ≤ n) :
    |(∑ k ∈ Finset.range n, if (k : ℝ) + u k ≤ a then (1 : ℝ) else 0) - a| ≤ 1 := by
  rw [Finset.sum_ite, Finset.sum_const_zero, add_zero, Finset.sum_const, nsmul_eq_mul, mul_one]
  have hf1 := Nat.floor_le h0
  have hf2 := Nat.lt_floor_add_one a
  set f := ⌊a⌋₊ with hf
  have h1 : Finset.range f ⊆ (Finset.range n).filter fun k : ℕ => (k : ℝ) + u k ≤ a := by
    intro k hk
    have hk' : (k : ℝ) + 1 ≤ f := by exact_mod_cast Finset.mem_range.1 hk
    have hkn : (k : ℝ) < n := by linarith
    refine Finset.mem_filter.2 ⟨Finset.mem_range.2 (by exact_mod_cast hkn), ?_⟩
    linarith [(hu k).2]
  have h2 : ((Finset.range n).filter fun k : ℕ => (k : ℝ) + u k ≤ a) ⊆ Finset.range (f + 1) := by
    intro k hk
    have hk' := (Finset.mem_filter.1 hk).2
    have : (k : ℝ) < f + 1 := by linarith [(hu k).1]
    exact Finset.mem_range.2 (by exact_mod_cast this)
  have h3 := Finset.card_le_card h1
  have h4 := Finset.card_le_card h2
  rw [Finset.card_range] at h3 h4
  have h3' : (f : ℝ) ≤ ((Finset.range n).filter fun k : ℕ => (k : ℝ) + u k ≤ a).card := by exact_mod_cast h3
  have h4' : (((Finset.range n).filter fun k : ℕ => (k : ℝ) + u k ≤ a).card : ℝ) ≤ f + 1 := by exact_mod_cast h4
  rw [abs_le]
  constructor <;> linarith

theorem sum_prefix (w : List ℝ) (j : ℕ) (hj : j < w.length) : ∑ i : Fin w.length, (if (i : ℕ) ≤ j then w[i] else 0) = S w (j + 1) := by
  have h : ∀ m ≤ w.length, S w m = ∑ i ∈ Finset.range m, w.getD i 0 := by
    intro m
    induction m with
    | zero => simp [S]
    | succ m ih => intro hm; rw [S_succ, ih (by omega), Finset.sum_range_succ]
  rw [h (j + 1) (by omega), Finset.sum_fin_eq_sum_range, ← Finset.sum_subset (s₁ := Finset.range (j + 1))]
  · refine Finset.sum_congr rfl fun i hi => ?_
    have := Finset.mem_range.1 hi
    rw [dif_pos (by omega), if_pos (by simp; omega), List.getD_eq_getElem _ _ (by omega)]
    rfl
  · intro i hi
    have := Finset.mem_range.1 hi
    exact Finset.mem_range.2 (by omega)
  · intro i hi hi'
    have h1 := Finset.mem_range.1 hi
    rw [dif_pos h1, if_neg]
    simpa using hi'

/-- **C150.** Whatever the draws, the average over the particles picked by `systematic` or `stratified` differs from the weighted average by at
most the variation of the values from each particle to the next one, over the number of particles. -/
theorem C150_variation (hss : SearchSorted ss) (w : List ℝ) (hw : ∀ a ∈ w, 0 ≤ a) (hsum : w.sum = 1) (φ : ℕ → ℝ) :
    (∀ u : ℝ, 0 ≤ u → u < 1 → |((systematic ss w u).map φ).sum / w.length - ∑ i : Fin w.length, w[i] * φ i|
      ≤ (∑ j ∈ Finset.range (w.length - 1), |φ (j + 1) - φ j|) / w.length) ∧
    ∀ us : ℕ → ℝ, (∀ k, 0 ≤ us k ∧ us k < 1) → |((stratified ss w us).map φ).sum / w.length - ∑ i : Fin w.length, w[i] * φ i|
      ≤ (∑ j ∈ Finset.range (w.length - 1), |φ (j + 1) - φ j|) / w.length := by
  have hn := length_pos_of_sum w hsum
  have hn1 : (0 : ℝ) < w.length := Nat.cast_pos.2 hn
  have key : ∀ us : ℕ → ℝ, (∀ k, 0 ≤ us k ∧ us k < 1) →
      |((systematicOrStratified ss w us).map φ).sum / w.length - ∑ i : Fin w.length, w[i] * φ i|
        ≤ (∑ j ∈ Finset.range (w.length - 1), |φ (j + 1) - φ j|) / w.length := by
    intro us hus
    set n := w.length with hnd
    set idx : ℕ → ℕ := fun k => min (ss (cumsum w) (((k : ℝ) + us k) / n)) (n - 1) with hidx
    have hφ : ∀ i < n, φ i = φ (n - 1) - ∑ j ∈ Finset.range (n - 1), (if i ≤ j then φ (j + 1) - φ j else 0) := by
      intro i hi
      rw [abel_step, max_eq_left (by omega)]; ring
    have h1 : ((systematicOrStratified ss w us).map φ).sum
        = n * φ (n - 1) - ∑ j ∈ Finset.range (n - 1), (∑ k ∈ Finset.range n, if (k : ℝ) + us k ≤ n * S w (j + 1) then (1 : ℝ) else 0) * (φ (j + 1) - φ j) := by
      have hr : ∀ (m : ℕ) (a : ℕ → ℝ), ((List.range m).map a).sum = ∑ k ∈ Finset.range m, a k := by
        intro m a
        induction m with
        | zero => simp
        | succ m ih => rw [List.range_succ, List.map_append, List.sum_append, ih, Finset.sum_range_succ]; simp
      rw [systematicOrStratified, List.map_map, hr]
      have e : ∀ k ∈ Finset.range n, (φ ∘ idx) k
          = φ (n - 1) - ∑ j ∈ Finset.range (n - 1), (if (k : ℝ) + us k ≤ n * S w (j + 1) then (1 : ℝ) else 0) * (φ (j + 1) - φ j) := by
        intro k _
        have hi : idx k < n := by simp only [hidx]; omega
        rw [Function.comp, hφ _ hi]
        congr 1
        refine Finset.sum_congr rfl fun j hj => ?_
        have hj := Finset.mem_range.1 hj
        have h3 : idx k ≤ j ↔ (k : ℝ) + us k ≤ n * S w (j + 1) := by
          have h4 := lt_ss_cumsum hss w hw (((k : ℝ) + us k) / n) j (by omega)
          rw [lt_div_iff₀ hn1, mul_comm] at h4
          rw [← not_lt (a := n * S w (j + 1)), ← h4]
          simp only [hidx]
          omega
        simp only [h3]
        split_ifs <;> simp
      refine (Finset.sum_congr rfl e).trans ?_
      rw [Finset.sum_sub_distrib, Finset.sum_const, Finset.card_range, nsmul_eq_mul, Finset.sum_comm]
      congr 1
      exact Finset.sum_congr rfl fun j _ => (Finset.sum_mul _ _ _).symm
    have h2 : ∑ i : Fin n, w[i] * φ i = φ (n - 1) - ∑ j ∈ Finset.range (n - 1), S w (j + 1) * (φ (j + 1) - φ j) := by
      have e : ∀ i : Fin n, w[i] * φ i = w[i] * φ (n - 1) - ∑ j ∈ Finset.range (n - 1), (if (i : ℕ) ≤ j then w[i] else 0) * (φ (j + 1) - φ j) := by
        intro i
        rw [hφ i i.2, mul_sub, Finset.mul_sum]
        congr 1
        refine Finset.sum_congr rfl fun j _ => ?_
        split_ifs <;> simp
      simp only [e]
      rw [Finset.sum_sub_distrib, ← Finset.sum_mul, Finset.sum_comm]
      have hs1 : ∑ i : Fin n, w[i] = 1 := by
        rw [← hsum, ← List.sum_ofFn]
        congr 1
        exact List.ofFn_getElem
      rw [hs1, one_mul]
      congr 1
      refine Finset.sum_congr rfl fun j hj => ?_
      have := Finset.mem_range.1 hj
      rw [← Finset.sum_mul, sum_prefix w j (by omega)]
    rw [h1, h2]
    have e : (n * φ (n - 1) - ∑ j ∈ Finset.range (n - 1), (∑ k ∈ Finset.range n, if (k : ℝ) + us k ≤ n * S w (j + 1) then (1 : ℝ) else 0) * (φ (j + 1) - φ j)) / n
        - (φ (n - 1) - ∑ j ∈ Finset.range (n - 1), S w (j + 1) * (φ (j + 1) - φ j))
        = -(∑ j ∈ Finset.range (n - 1), ((∑ k ∈ Finset.range n, if (k : ℝ) + us k ≤ n * S w (j + 1) then (1 : ℝ) else 0) - n * S w (j + 1)) * (φ (j + 1) - φ j)) / n := by
      simp only [sub_mul, Finset.sum_sub_distrib, mul_assoc, ← Finset.mul_sum]
      field_simp
      ring
    rw [e, abs_div, abs_neg, Nat.abs_cast]
    refine div_le_div_of_nonneg_right ((Finset.abs_sum_le_sum_abs _ _).trans (Finset.sum_le_sum fun j hj => ?_)) hn1.le
    rw [abs_mul]
    have hS1 : S w (j + 1) ≤ 1 := by
      have := Finset.mem_range.1 hj
      rw [← hsum, ← S_length]; exact S_mono w hw (by omega)
    have := cells_count n us hus (n * S w (j + 1)) (mul_nonneg hn1.le (S_nonneg w hw _)) (by nlinarith)
    exact (mul_le_mul_of_nonneg_right this (abs_nonneg _)).trans (one_mul _).le
  exact ⟨fun u h0 h1 => key (fun _ => u) fun _ => ⟨h0, h1⟩, fun us hus => key us hus⟩

/-- **C150 (ordered particles).** If the particles are in increasing order, the distribution function of the resampled cloud differs from that of the
weighted one by at most one over the number of particles, everywhere and whatever the draws, and the average of a bounded monotone function by at most
its oscillation over the number of particles. -/
theorem C150_ordered (hss : SearchSorted ss) (w : List ℝ) (hw : ∀ a ∈ w, 0 ≤ a) (hsum : w.sum = 1) (x : ℕ → ℝ) (hx : Monotone x)
    (idx : List ℕ) (hidx : (∃ u : ℝ, 0 ≤ u ∧ u < 1 ∧ idx = systematic ss w u) ∨ ∃ us : ℕ → ℝ, (∀ k, 0 ≤ us k ∧ us k < 1) ∧ idx = stratified ss w us) :
    (∀ t : ℝ, |(idx.countP fun i => decide (x i ≤ t) : ℝ) / w.length - ∑ i : Fin w.length, (if x i ≤ t then w[i] else 0)| ≤ 1 / w.length) ∧
    ∀ f : ℝ → ℝ, Monotone f →
      |(idx.map fun i => f (x i)).sum / w.length - ∑ i : Fin w.length, w[i] * f (x i)| ≤ (f (x (w.length - 1)) - f (x 0)) / w.length := by
  have key : ∀ φ : ℕ → ℝ, |(idx.map φ).sum / w.length - ∑ i : Fin w.length, w[i] * φ i|
      ≤ (∑ j ∈ Finset.range (w.length - 1), |φ (j + 1) - φ j|) / w.length := by
    intro φ
    obtain ⟨h1, h2⟩ := C150_variation hss w hw hsum φ
    rcases hidx with ⟨u, h0, hu, rfl⟩ | ⟨us, hus, rfl⟩
    · exact h1 u h0 hu
    · exact h2 us hus
  refine ⟨fun t => ?_, fun f hf => ?_⟩
  · have h := key fun i => if x i ≤ t then 1 else 0
    have e1 : ∀ l : List ℕ, ((l.map fun i => if x i ≤ t then (1 : ℝ) else 0).sum) = (l.countP fun i => decide (x i ≤ t) : ℝ) := by
      intro l
      induction l with
      | nil => simp
      | cons i l ih =>
        rw [List.map_cons, List.sum_cons, ih, List.countP_cons]
        by_cases hi : x i ≤ t <;> simp [hi, add_comm]
    have e2 : ∀ i : Fin w.length, w[i] * (if x i ≤ t then (1 : ℝ) else 0) = if x i ≤ t then w[i] else 0 := fun i => by split_ifs <;> simp
    simp only [e1, e2] at h
    refine h.trans (div_le_div_of_nonneg_right ?_ (Nat.cast_nonneg _))
    have e3 : ∀ j, |(if x (j + 1) ≤ t then (1 : ℝ) else 0) - if x j ≤ t then 1 else 0|
        = (if x j ≤ t then (1 : ℝ) else 0) - if x (j + 1) ≤ t then 1 else 0 := by
      intro j
      have := hx (Nat.le_succ j)
      by_cases h1 : x (j + 1) ≤ t
      · rw [if_pos h1, if_pos (this.trans h1)]; simp
      · rw [if_neg h1]; split_ifs <;> simp
    simp only [e3]
    rw [Finset.sum_range_sub' fun j => if x j ≤ t then (1 : ℝ) else 0]
    split_ifs <;> norm_num
  · refine (key fun i => f (x i)).trans (div_le_div_of_nonneg_right (le_of_eq ?_) (Nat.cast_nonneg _))
    have : ∀ j, |f (x (j + 1)) - f (x j)| = f (x (j + 1)) - f (x j) := fun j => abs_of_nonneg (sub_nonneg.2 (hf (hx (Nat.le_succ j))))
    simp only [this]
    exact Finset.sum_range_sub (fun j => f (x j)) _

example : let w : List ℝ := [1 / 2, 1 / 8, 3 / 8]
    (∀ a ∈ w, 0 ≤ a) ∧ w.sum = 1 ∧ Monotone (fun i : ℕ => (i : ℝ)) ∧ (∃ u : ℝ, 0 ≤ u ∧ u < 1) ∧ ∃ us : ℕ → ℝ, ∀ k, 0 ≤ us k ∧ us k < 1 := by
  refine ⟨?_, by norm_num, Nat.mono_cast, ⟨1 / 2, by norm_num⟩, fun _ => 1 / 3, fun _ => by norm_num⟩
  intro a ha
  simp only [List.mem_cons, List.not_mem_nil, or_false] at ha
  rcases ha with rfl | rfl | rfl <;> norm_num

end Mfs.Props

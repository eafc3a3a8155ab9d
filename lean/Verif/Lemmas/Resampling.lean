import Verif.Model.Resampling
import Mathlib.Algebra.BigOperators.Group.List.Lemmas
import Mathlib.Algebra.Order.BigOperators.Group.List
import Mathlib.Algebra.Order.Floor.Ring
import Mathlib.Data.List.GetD
import Mathlib.Tactic.Linarith
import Mathlib.Tactic.FieldSimp
import Mathlib.Tactic.Positivity

/-!
# Lemmas on resampling
-/

namespace Mfs.Resampling

theorem countP_range_le (p : ℕ → Bool) (n : ℕ) : (List.range n).countP p ≤ n := by
  simpa using List.countP_le_length (p := p) (l := List.range n)

/-- a predicate on indices that is closed downwards holds exactly below its count. -/
theorem lt_countP_range (p : ℕ → Bool) (n : ℕ) (hp : ∀ i j, i ≤ j → j < n → p j = true → p i = true) (j : ℕ) (hj : j < n) :
    j < (List.range n).countP p ↔ p j = true := by
  induction n with
  | zero => omega
  | succ n ih =>
    rw [List.range_succ, List.countP_append, List.countP_singleton]
    have ih' := ih (fun i j h1 h2 => hp i j h1 (by omega))
    have hle := countP_range_le p n
    by_cases hn : p n = true
    · have hall : ∀ i ≤ n, p i = true := fun i hi => hp i n hi (by omega) hn
      have : (List.range n).countP p = n := by
        have := List.countP_eq_length (p := p) (l := List.range n)
        rw [List.length_range] at this
        exact this.2 fun a ha => hall a (List.mem_range.1 ha).le
      rw [this, if_pos hn]
      exact ⟨fun _ => hall j (by omega), fun _ => by omega⟩
    · rw [if_neg hn, add_zero]
      rcases Nat.lt_or_ge j n with h | h
      · exact ih' h
      · have : j = n := by omega
        subst this
        exact ⟨fun h => absurd h (by omega), fun h => absurd h hn⟩

/-- partial sums. -/
noncomputable def S (w : List ℝ) (j : ℕ) : ℝ := (w.take j).sum

theorem S_zero (w : List ℝ) : S w 0 = 0 := by simp [S]

theorem S_length (w : List ℝ) : S w w.length = w.sum := by simp [S]

theorem S_succ (w : List ℝ) (j : ℕ) : S w (j + 1) = S w j + w.getD j 0 := by
  rw [S, S]
  rcases Nat.lt_or_ge j w.length with h | h
  · rw [List.take_succ_eq_append_getElem h, List.sum_append, List.sum_singleton, List.getD_eq_getElem _ _ h]
  · rw [List.take_of_length_le (by omega), List.take_of_length_le h, List.getD_eq_default _ _ h, add_zero]

theorem getD_nonneg (w : List ℝ) (hw : ∀ a ∈ w, 0 ≤ a) (j : ℕ) : 0 ≤ w.getD j 0 := by
  rcases Nat.lt_or_ge j w.length with h | h
  · rw [List.getD_eq_getElem _ _ h]; exact hw _ (List.getElem_mem h)
  · rw [List.getD_eq_default _ _ h]

theorem S_mono (w : List ℝ) (hw : ∀ a ∈ w, 0 ≤ a) : Monotone (S w) :=
  monotone_nat_of_le_succ fun j => by rw [S_succ]; linarith [getD_nonneg w hw j]

theorem S_nonneg (w : List ℝ) (hw : ∀ a ∈ w, 0 ≤ a) (j : ℕ) : 0 ≤ S w j := S_zero w ▸ S_mono w hw (Nat.zero_le j)

theorem cumsum_eq (w : List ℝ) : cumsum w = (List.range w.length).map fun i => S w (i + 1) := rfl

@[simp] theorem cumsum_length (w : List ℝ) : (cumsum w).length = w.length := by simp [cumsum]

theorem cumsum_sorted (w : List ℝ) (hw : ∀ a ∈ w, 0 ≤ a) : (cumsum w).Pairwise (· ≤ ·) := by
  rw [cumsum_eq, List.pairwise_map]
  exact List.pairwise_lt_range.imp fun h => S_mono w hw (by omega)

variable {ss : List ℝ → ℝ → ℕ}

theorem ss_cumsum_le (hss : SearchSorted ss) (w : List ℝ) (hw : ∀ a ∈ w, 0 ≤ a) (v : ℝ) : ss (cumsum w) v ≤ w.length := by
  rw [hss _ (cumsum_sorted w hw)]
  simpa using List.countP_le_length (p := fun x => decide (x < v)) (l := cumsum w)

theorem lt_ss_cumsum (hss : SearchSorted ss) (w : List ℝ) (hw : ∀ a ∈ w, 0 ≤ a) (v : ℝ) (j : ℕ) (hj : j < w.length) :
    j < ss (cumsum w) v ↔ S w (j + 1) < v := by
  rw [hss _ (cumsum_sorted w hw), cumsum_eq, List.countP_map]
  rw [lt_countP_range _ _ _ j hj]
  · simp
  · intro i j hij _ h
    simp only [Function.comp, decide_eq_true_eq] at h ⊢
    exact lt_of_le_of_lt (S_mono w hw (by omega)) h

theorem ss_cumsum_mono (hss : SearchSorted ss) (w : List ℝ) (hw : ∀ a ∈ w, 0 ≤ a) {v v' : ℝ} (h : v ≤ v') :
    ss (cumsum w) v ≤ ss (cumsum w) v' := by
  rw [hss _ (cumsum_sorted w hw), hss _ (cumsum_sorted w hw)]
  refine List.countP_mono_left fun a _ ha => ?_
  simp only [decide_eq_true_eq] at ha ⊢
  linarith

/-- the selected index is the interval of the cumulative weights that contains `v`. -/
theorem clip_ss_eq_iff (hss : SearchSorted ss) (w : List ℝ) (hw : ∀ a ∈ w, 0 ≤ a) (v : ℝ) (hv : v ≤ w.sum) (i : ℕ) (hi : i < w.length) :
    min (ss (cumsum w) v) (w.length - 1) = i ↔ (i = 0 ∨ S w i < v) ∧ v ≤ S w (i + 1) := by
  have h1 : ss (cumsum w) v ≤ w.length - 1 := by
    by_contra hc
    have := (lt_ss_cumsum hss w hw v (w.length - 1) (by omega)).1 (by omega)
    rw [show w.length - 1 + 1 = w.length by omega, S_length] at this
    linarith
  rw [min_eq_left h1]
  have h2 := lt_ss_cumsum hss w hw v i hi
  rcases Nat.eq_zero_or_pos i with rfl | hpos
  · constructor
    · intro h; exact ⟨Or.inl rfl, not_lt.1 fun hc => by have := h2.2 hc; omega⟩
    · rintro ⟨-, h⟩; by_contra hc; exact absurd (h2.1 (by omega)) (not_lt.2 h)
  · have h3 := lt_ss_cumsum hss w hw v (i - 1) (by omega)
    rw [show i - 1 + 1 = i by omega] at h3
    constructor
    · intro h; exact ⟨Or.inr (h3.1 (by omega)), not_lt.1 fun hc => by have := h2.2 hc; omega⟩
    · rintro ⟨h4, h5⟩
      have a1 := h3.2 (h4.resolve_left (by omega))
      have a2 : ¬ i < ss (cumsum w) v := fun hc => absurd (h2.1 hc) (not_lt.2 h5)
      omega

/-- number of naturals below `n` and at most `t`. -/
theorem count_le (n : ℕ) (t : ℝ) (h1 : -1 < t) (h2 : t < n) :
    (((List.range n).countP fun k : ℕ => decide ((k : ℝ) ≤ t) : ℕ) : ℤ) = ⌊t⌋ + 1 := by
  have hp : ∀ i j : ℕ, i ≤ j → j < n → (decide ((j : ℝ) ≤ t)) = true → (decide ((i : ℝ) ≤ t)) = true := by
    intro i j hij _ h
    simp only [decide_eq_true_eq] at h ⊢
    exact le_trans (by exact_mod_cast hij) h
  have key := lt_countP_range (fun k : ℕ => decide ((k : ℝ) ≤ t)) n hp
  have hle := countP_range_le (fun k : ℕ => decide ((k : ℝ) ≤ t)) n
  set c := (List.range n).countP fun k : ℕ => decide ((k : ℝ) ≤ t) with hc
  have hf0 : -1 ≤ ⌊t⌋ := Int.le_floor.2 (by push_cast; linarith)
  have hfn : ⌊t⌋ < n := Int.floor_lt.2 (by exact_mod_cast h2)
  refine le_antisymm ?_ ?_
  · rcases Nat.eq_zero_or_pos c with h | h
    · omega
    · have := (key (c - 1) (by omega)).1 (by omega)
      simp only [decide_eq_true_eq] at this
      have : ((c - 1 : ℕ) : ℤ) ≤ ⌊t⌋ := Int.le_floor.2 (by exact_mod_cast this)
      omega
  · rcases hf0.eq_or_lt with h | h
    · omega
    · have hk : ((⌊t⌋.toNat : ℕ) : ℤ) = ⌊t⌋ := Int.toNat_of_nonneg (by omega)
      have hkr : ((⌊t⌋.toNat : ℕ) : ℝ) ≤ t := by
        calc ((⌊t⌋.toNat : ℕ) : ℝ) = ((⌊t⌋ : ℤ) : ℝ) := by exact_mod_cast hk
          _ ≤ t := Int.floor_le t
      have := (key ⌊t⌋.toNat (by omega)).2 (by simpa using hkr)
      omega

theorem count_le_bounds (n : ℕ) (t : ℝ) (h1 : -1 < t) (h2 : t ≤ n) :
    t ≤ (((List.range n).countP fun k : ℕ => decide ((k : ℝ) ≤ t) : ℕ) : ℝ) ∧
      (((List.range n).countP fun k : ℕ => decide ((k : ℝ) ≤ t) : ℕ) : ℝ) ≤ t + 1 := by
  rcases h2.lt_or_eq with h | h
  · have := count_le n t h1 h
    have hr : (((List.range n).countP fun k : ℕ => decide ((k : ℝ) ≤ t) : ℕ) : ℝ) = (⌊t⌋ : ℝ) + 1 := by exact_mod_cast this
    rw [hr]
    exact ⟨(Int.lt_floor_add_one t).le, by linarith [Int.floor_le t]⟩
  · have : (List.range n).countP (fun k : ℕ => decide ((k : ℝ) ≤ t)) = n := by
      have := List.countP_eq_length (p := fun k : ℕ => decide ((k : ℝ) ≤ t)) (l := List.range n)
      rw [List.length_range] at this
      refine this.2 fun a ha => ?_
      simp only [decide_eq_true_eq, h]
      exact_mod_cast (List.mem_range.1 ha).le
    rw [this, h]
    exact ⟨le_rfl, by linarith⟩

/-- counting an interval as a difference. -/
theorem count_Ioc (n : ℕ) (a b : ℝ) (hab : a ≤ b) :
    (List.range n).countP (fun k : ℕ => decide (a < (k : ℝ) ∧ (k : ℝ) ≤ b)) + (List.range n).countP (fun k : ℕ => decide ((k : ℝ) ≤ a))
      = (List.range n).countP fun k : ℕ => decide ((k : ℝ) ≤ b) := by
  induction n with
  | zero => rfl
  | succ n ih =>
    simp only [List.range_succ, List.countP_append, List.countP_singleton]
    rw [← ih]
    by_cases h1 : (n : ℝ) ≤ a
    · simp [h1, h1.trans hab, not_lt.2 h1]; omega
    · by_cases h2 : (n : ℝ) ≤ b
      · simp [h1, h2, not_le.1 h1]; omega
      · simp [h1, h2]

theorem systematic_count (hss : SearchSorted ss) (w : List ℝ) (hw : ∀ a ∈ w, 0 ≤ a) (hsum : w.sum = 1) (u : ℕ → ℝ)
    (hu : ∀ k < w.length, 0 ≤ u k ∧ u k < 1) (i : ℕ) (hi : i < w.length) :
    (systematicOrStratified ss w u).count i = (List.range w.length).countP fun (k : ℕ) =>
      decide ((i = 0 ∨ w.length * S w i < k + u k) ∧ (k : ℝ) + u k ≤ w.length * S w (i + 1)) := by
  rw [systematicOrStratified, List.count, List.countP_map]
  refine List.countP_congr fun k hk => ?_
  have hkn := List.mem_range.1 hk
  have hn : (0 : ℝ) < w.length := by exact_mod_cast (by omega : 0 < w.length)
  have hk' : (k : ℝ) + 1 ≤ w.length := by exact_mod_cast hkn
  have := clip_ss_eq_iff hss w hw (((k : ℝ) + u k) / w.length) (by rw [hsum, div_le_one hn]; linarith [(hu k hkn).2]) i hi
  simp only [Function.comp, beq_iff_eq, decide_eq_true_eq]
  rw [this, lt_div_iff₀ hn, div_le_iff₀ hn, mul_comm (S w i), mul_comm (S w (i + 1))]

end Mfs.Resampling

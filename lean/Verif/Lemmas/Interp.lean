import Verif.Lemmas.Resampling

/-!
# Lemmas on `argsort` and `interp`
-/

namespace Mfs.Resampling

theorem argsort_perm (l : List ℝ) : (argsort l).Perm (List.range l.length) := List.mergeSort_perm _ _

theorem map_getD_range {α : Type} (l : List α) (d : α) : (List.range l.length).map (fun i => l.getD i d) = l := by
  refine List.ext_getElem (by simp) fun i h1 h2 => ?_
  rw [List.getElem_map, List.getElem_range, List.getD_eq_getElem _ _ h2]

theorem argsort_map_perm (l : List ℝ) : ((argsort l).map fun i => l.getD i 0).Perm l := by
  have := (argsort_perm l).map fun i => l.getD i 0
  rwa [map_getD_range] at this

theorem argsort_map_sorted (l : List ℝ) : ((argsort l).map fun i => l.getD i 0).Pairwise (· ≤ ·) := by
  rw [List.pairwise_map]
  have := List.pairwise_mergeSort (le := fun i j => decide (l.getD i 0 ≤ l.getD j 0))
    (fun a b c h1 h2 => by simp only [decide_eq_true_eq] at *; linarith)
    (fun a b => by simp only [Bool.or_eq_true, decide_eq_true_eq]; exact le_total _ _) (List.range l.length)
  exact this.imp fun h => by simpa using h

theorem sorted_getD {l : List ℝ} (h : l.Pairwise (· ≤ ·)) {i j : ℕ} (hij : i ≤ j) (hj : j < l.length) : l.getD i 0 ≤ l.getD j 0 := by
  rw [List.getD_eq_getElem _ _ (by omega), List.getD_eq_getElem _ _ hj]
  rcases hij.lt_or_eq with h' | rfl
  · exact List.pairwise_iff_getElem.1 h i j (by omega) hj h'
  · exact le_rfl

/-- the index used by `interp`. -/
noncomputable def interpIdx (x : ℝ) (xp : List ℝ) : ℕ := min (max (xp.countP fun a => decide (a ≤ x)) 1) (xp.length - 1)

/-- the value of `interp` inside the range. -/
noncomputable def interpIn (eps x : ℝ) (xp fp : List ℝ) (i : ℕ) : ℝ :=
  if |xp.getD i 0 - xp.getD (i - 1) 0| ≤ eps then fp.getD (i - 1) 0
  else fp.getD (i - 1) 0 + (x - xp.getD (i - 1) 0) / (xp.getD i 0 - xp.getD (i - 1) 0) * (fp.getD i 0 - fp.getD (i - 1) 0)

theorem interp_def (eps x : ℝ) (xp fp : List ℝ) : interp eps x xp fp
    = if x > xp.getD (xp.length - 1) 0 then fp.getD (xp.length - 1) 0 else if x < xp.getD 0 0 then fp.getD 0 0
      else interpIn eps x xp fp (interpIdx x xp) := rfl

variable {eps : ℝ} {xp fp : List ℝ}

theorem interpIdx_spec (hx : xp.Pairwise (· ≤ ·)) (h0 : 0 < xp.length) {x : ℝ} (h1 : xp.getD 0 0 ≤ x) (h2 : x ≤ xp.getD (xp.length - 1) 0) :
    interpIdx x xp < xp.length ∧ xp.getD (interpIdx x xp - 1) 0 ≤ x ∧ x ≤ xp.getD (interpIdx x xp) 0 := by
  have hc : xp.countP (fun a => decide (a ≤ x)) = (List.range xp.length).countP fun i => decide (xp.getD i 0 ≤ x) := by
    conv_lhs => rw [← map_getD_range xp 0, List.countP_map]
    rfl
  have hp : ∀ i j : ℕ, i ≤ j → j < xp.length → decide (xp.getD j 0 ≤ x) = true → decide (xp.getD i 0 ≤ x) = true := by
    intro i j hij hj h
    simp only [decide_eq_true_eq] at h ⊢
    exact (sorted_getD hx hij hj).trans h
  have key := lt_countP_range _ _ hp
  simp only [decide_eq_true_eq] at key
  rw [interpIdx, hc]
  set c := (List.range xp.length).countP fun i => decide (xp.getD i 0 ≤ x)
  have hc1 : 0 < c := (key 0 h0).2 h1
  refine ⟨by omega, ?_, ?_⟩
  · exact (key _ (by omega)).1 (by omega)
  · by_cases h : c ≤ xp.length - 1
    · rw [show min (max c 1) (xp.length - 1) = c by omega]
      exact (not_le.1 fun hh => absurd ((key c (by omega)).2 hh) (lt_irrefl _)).le
    · rw [show min (max c 1) (xp.length - 1) = xp.length - 1 by omega]
      exact h2

theorem interpIn_bounds (heps : 0 ≤ eps) (hl : fp.length = xp.length) (hf : fp.Pairwise (· ≤ ·)) {x : ℝ} {i : ℕ}
    (hi : i < xp.length) (h1 : xp.getD (i - 1) 0 ≤ x) (h2 : x ≤ xp.getD i 0) :
    fp.getD (i - 1) 0 ≤ interpIn eps x xp fp i ∧ interpIn eps x xp fp i ≤ fp.getD i 0 := by
  have hm := sorted_getD hf (Nat.sub_le i 1) (hl ▸ hi)
  rw [interpIn]
  split_ifs with h
  · exact ⟨le_rfl, hm⟩
  · have hd : 0 < xp.getD i 0 - xp.getD (i - 1) 0 := by
      have : |xp.getD i 0 - xp.getD (i - 1) 0| = _ := abs_of_nonneg (by linarith)
      rw [this] at h; linarith
    have hdf : 0 ≤ fp.getD i 0 - fp.getD (i - 1) 0 := by linarith
    have q0 : 0 ≤ (x - xp.getD (i - 1) 0) / (xp.getD i 0 - xp.getD (i - 1) 0) := div_nonneg (by linarith) hd.le
    have q1 : (x - xp.getD (i - 1) 0) / (xp.getD i 0 - xp.getD (i - 1) 0) ≤ 1 := (div_le_one hd).2 (by linarith)
    have m0 := mul_nonneg q0 hdf
    have m1 := mul_le_mul_of_nonneg_right q1 hdf
    exact ⟨by linarith, by linarith⟩

theorem interp_mem (heps : 0 ≤ eps) (hl : fp.length = xp.length) (hx : xp.Pairwise (· ≤ ·)) (hf : fp.Pairwise (· ≤ ·))
    (h0 : 0 < xp.length) (x : ℝ) :
    fp.getD 0 0 ≤ interp eps x xp fp ∧ interp eps x xp fp ≤ fp.getD (xp.length - 1) 0 := by
  have h01 := sorted_getD hf (Nat.zero_le (xp.length - 1)) (by omega)
  rw [interp_def]
  split_ifs with h1 h2
  · exact ⟨h01, le_rfl⟩
  · exact ⟨le_rfl, h01⟩
  · obtain ⟨hi, a1, a2⟩ := interpIdx_spec hx h0 (not_lt.1 h2) (not_lt.1 h1)
    obtain ⟨b1, b2⟩ := interpIn_bounds heps hl hf hi a1 a2
    exact ⟨(sorted_getD hf (Nat.zero_le _) (by omega)).trans b1, b2.trans (sorted_getD hf (by omega) (by omega))⟩

theorem interpIdx_mono (xp : List ℝ) {x y : ℝ} (hxy : x ≤ y) : interpIdx x xp ≤ interpIdx y xp := by
  have : xp.countP (fun a => decide (a ≤ x)) ≤ xp.countP fun a => decide (a ≤ y) :=
    List.countP_mono_left fun a _ ha => by simp only [decide_eq_true_eq] at ha ⊢; linarith
  rw [interpIdx, interpIdx]; omega

theorem interp_mono (heps : 0 ≤ eps) (hl : fp.length = xp.length) (hx : xp.Pairwise (· ≤ ·)) (hf : fp.Pairwise (· ≤ ·))
    (h0 : 0 < xp.length) {x y : ℝ} (hxy : x ≤ y) : interp eps x xp fp ≤ interp eps y xp fp := by
  by_cases hy : y > xp.getD (xp.length - 1) 0
  · rw [interp_def eps y, if_pos hy]; exact (interp_mem heps hl hx hf h0 x).2
  by_cases hx0 : x < xp.getD 0 0
  · have hx1 : ¬ x > xp.getD (xp.length - 1) 0 := by
      have := sorted_getD hx (Nat.zero_le (xp.length - 1)) (by omega)
      simp only [gt_iff_lt, not_lt]; linarith
    rw [interp_def eps x, if_neg hx1, if_pos hx0]; exact (interp_mem heps hl hx hf h0 y).1
  have hx1 : ¬ x > xp.getD (xp.length - 1) 0 := by simp only [gt_iff_lt, not_lt] at hy ⊢; linarith
  have hy0 : ¬ y < xp.getD 0 0 := by simp only [not_lt] at hx0 ⊢; linarith
  rw [interp_def eps x, if_neg hx1, if_neg hx0, interp_def eps y, if_neg hy, if_neg hy0]
  obtain ⟨hi, a1, a2⟩ := interpIdx_spec hx h0 (not_lt.1 hx0) (not_lt.1 hx1)
  obtain ⟨hj, c1, c2⟩ := interpIdx_spec hx h0 (not_lt.1 hy0) (not_lt.1 hy)
  rcases (interpIdx_mono xp hxy).lt_or_eq with hlt | heq
  · exact ((interpIn_bounds heps hl hf hi a1 a2).2.trans (sorted_getD hf (by omega) (by omega))).trans
      (interpIn_bounds heps hl hf hj c1 c2).1
  · rw [← heq] at c1 c2 ⊢
    have hm := sorted_getD hf (Nat.sub_le (interpIdx x xp) 1) (by omega)
    rw [interpIn, interpIn]
    split_ifs with h
    · exact le_rfl
    · have hd : 0 ≤ xp.getD (interpIdx x xp) 0 - xp.getD (interpIdx x xp - 1) 0 := by linarith
      have : (x - xp.getD (interpIdx x xp - 1) 0) / (xp.getD (interpIdx x xp) 0 - xp.getD (interpIdx x xp - 1) 0)
          ≤ (y - xp.getD (interpIdx x xp - 1) 0) / (xp.getD (interpIdx x xp) 0 - xp.getD (interpIdx x xp - 1) 0) :=
        div_le_div_of_nonneg_right (by linarith) hd
      have := mul_le_mul_of_nonneg_right this (sub_nonneg.2 hm)
      linarith

theorem avg_length (x : List ℝ) : (avgNNplusone x).length = x.length + 1 := by simp [avgNNplusone]

theorem avg_nonneg (x : List ℝ) (hx : ∀ a ∈ x, 0 ≤ a) : ∀ a ∈ avgNNplusone x, 0 ≤ a := by
  intro a ha
  obtain ⟨i, hi, rfl⟩ := List.getElem_of_mem ha
  have hh : ∀ b ∈ x.map fun a => (0.5 : ℝ) * a, 0 ≤ b := by
    intro b hb
    obtain ⟨c, hc, rfl⟩ := List.mem_map.1 hb
    have := hx c hc
    positivity
  simp only [avgNNplusone, List.getElem_zipWith]
  refine add_nonneg ?_ ?_
  · have := List.getElem_mem (l := (x.map fun a => (0.5 : ℝ) * a) ++ [0]) (n := i) (by simp [avgNNplusone] at hi ⊢; omega)
    rcases List.mem_append.1 this with h | h
    · exact hh _ h
    · rw [List.mem_singleton.1 h]
  · have := List.getElem_mem (l := [0] ++ (x.map fun a => (0.5 : ℝ) * a)) (n := i) (by simp [avgNNplusone] at hi ⊢; omega)
    rcases List.mem_append.1 this with h | h
    · rw [List.mem_singleton.1 h]
    · exact hh _ h

end Mfs.Resampling

import Verif.Lemmas.Interp
import Verif.Model.Smc
import Mathlib.Topology.Algebra.Order.LiminfLimsup
import Mathlib.Topology.Instances.Real.Lemmas
import Mathlib.Topology.MetricSpace.Lipschitz
import Mathlib.Algebra.BigOperators.Intervals
import Mathlib.Tactic.Ring

/-!
# Lemmas on `continuous_resampling`: a formula without sorting by cases
-/

namespace Mfs.Resampling

open Finset

/-- `x` clipped to the unit interval. -/
noncomputable def unitClip (x : ℝ) : ℝ := max 0 (min 1 x)

theorem unitClip_one {x : ℝ} (h : 1 ≤ x) : unitClip x = 1 := by simp [unitClip, h]

theorem unitClip_zero {x : ℝ} (h : x ≤ 0) : unitClip x = 0 := by
  rw [unitClip, min_eq_right (by linarith), max_eq_left h]

theorem unitClip_mid {x : ℝ} (h0 : 0 ≤ x) (h1 : x ≤ 1) : unitClip x = x := by
  rw [unitClip, min_eq_right h1, max_eq_right h0]

theorem continuous_unitClip : Continuous unitClip := continuous_const.max (continuous_const.min continuous_id)

theorem sum_ramp (f c : ℕ → ℝ) {m k : ℕ} (hk : k < m) (h1 : ∀ j < k, c j = 1) (h0 : ∀ j, k < j → j < m → c j = 0) :
    ∑ j ∈ range m, (f (j + 1) - f j) * c j = f k - f 0 + (f (k + 1) - f k) * c k := by
  have hs : range (k + 1) ⊆ range m := range_subset_range.2 hk
  rw [← sum_subset hs fun j hj hn => by
    rw [h0 j (by simpa using hn) (mem_range.1 hj), mul_zero], sum_range_succ]
  congr 1
  rw [← sum_range_sub f k]
  exact sum_congr rfl fun j hj => by rw [h1 j (mem_range.1 hj), mul_one]

/-- `interp` without case distinctions. -/
theorem interp_ramp {eps : ℝ} (heps : 0 ≤ eps) {xp fp : List ℝ} (h0 : 0 < xp.length)
    (hstep : ∀ i, i + 1 < xp.length → eps < xp.getD (i + 1) 0 - xp.getD i 0) (x : ℝ) :
    interp eps x xp fp = fp.getD 0 0 + ∑ i ∈ range (xp.length - 1), (fp.getD (i + 1) 0 - fp.getD i 0) *
      unitClip ((x - xp.getD i 0) / (xp.getD (i + 1) 0 - xp.getD i 0)) := by
  have hmono : ∀ i j, i ≤ j → j < xp.length → xp.getD i 0 ≤ xp.getD j 0 := by
    intro i j hij
    induction j, hij using Nat.le_induction with
    | base => intro _; exact le_rfl
    | succ j _ ih => intro hj; have := hstep j hj; have := ih (by omega); linarith
  have hsort : xp.Pairwise (· ≤ ·) := List.pairwise_iff_getElem.2 fun i j hi hj hij => by
    have := hmono i j hij.le hj
    rwa [List.getD_eq_getElem _ _ hi, List.getD_eq_getElem _ _ hj] at this
  have hone : ∀ i, i + 1 < xp.length → xp.getD (i + 1) 0 ≤ x → unitClip ((x - xp.getD i 0) / (xp.getD (i + 1) 0 - xp.getD i 0)) = 1 := by
    intro i hi hx
    have := hstep i hi
    exact unitClip_one ((one_le_div (by linarith)).2 (by linarith))
  have hzero : ∀ i, i + 1 < xp.length → x ≤ xp.getD i 0 → unitClip ((x - xp.getD i 0) / (xp.getD (i + 1) 0 - xp.getD i 0)) = 0 := by
    intro i hi hx
    have := hstep i hi
    exact unitClip_zero (div_nonpos_of_nonpos_of_nonneg (by linarith) (by linarith))
  rw [interp_def]
  split_ifs with h1 h2
  · rw [sum_congr rfl fun i hi => by rw [hone i (by have := mem_range.1 hi; omega) ((hmono (i + 1) (xp.length - 1) (by have := mem_range.1 hi; omega) (by omega)).trans (le_of_lt h1)), mul_one],
      sum_range_sub (fun i => fp.getD i 0)]
    ring
  · rw [sum_eq_zero fun i hi => by rw [hzero i (by have := mem_range.1 hi; omega) ((le_of_lt h2).trans (hmono 0 i (Nat.zero_le _) (by have := mem_range.1 hi; omega))), mul_zero], add_zero]
  · obtain ⟨hi, a1, a2⟩ := interpIdx_spec hsort h0 (not_lt.1 h2) (not_lt.1 h1)
    rcases Nat.eq_zero_or_pos (interpIdx x xp) with hz | hz
    · have hl : xp.length = 1 := by rw [interpIdx] at hz; omega
      rw [hz, interpIn, if_pos (by simpa using heps), hl]
      simp
    · obtain ⟨k, hk⟩ : ∃ k, interpIdx x xp = k + 1 := ⟨interpIdx x xp - 1, by omega⟩
      rw [hk] at hi a1 a2 ⊢
      rw [Nat.add_sub_cancel] at a1
      have hs := hstep k hi
      rw [sum_ramp (fun i => fp.getD i 0) _ (k := k) (by omega) (fun j hj => hone j (by omega) ((hmono (j + 1) k hj (by omega)).trans a1))
        (fun j hj hjm => hzero j (by omega) (a2.trans (hmono (k + 1) j hj (by omega)))),
        unitClip_mid (div_nonneg (by linarith) (by linarith)) ((div_le_one (by linarith)).2 (by linarith)), interpIn, Nat.add_sub_cancel,
        if_neg (by rw [abs_of_pos (by linarith)]; linarith)]
      ring

/-- the `k`-th smallest of `n` numbers. -/
noncomputable def ordStat {n : ℕ} (s : Fin n → ℝ) (k : ℕ) : ℝ := ((argsort (List.ofFn s)).map fun i => (List.ofFn s).getD i 0).getD k 0

theorem ordStat_le_iff {n : ℕ} (s : Fin n → ℝ) {k : ℕ} (hk : k < n) (c : ℝ) : ordStat s k ≤ c ↔ k < (List.ofFn s).countP fun a => decide (a ≤ c) := by
  set l := (argsort (List.ofFn s)).map fun i => (List.ofFn s).getD i 0 with hl
  have hp : l.Perm (List.ofFn s) := argsort_map_perm _
  have hlen : l.length = n := by rw [hp.length_eq, List.length_ofFn]
  rw [← hp.countP_eq, ordStat, ← hl]
  have hc : l.countP (fun a => decide (a ≤ c)) = (List.range l.length).countP fun i => decide (l.getD i 0 ≤ c) := by
    conv_lhs => rw [← map_getD_range l 0, List.countP_map]
    rfl
  rw [hc, lt_countP_range _ _ _ k (by omega)]
  · simp
  · intro i j hij hj h
    simp only [decide_eq_true_eq] at h ⊢
    exact (sorted_getD (argsort_map_sorted _) hij hj).trans h

theorem ordStat_le_add {n : ℕ} {s t : Fin n → ℝ} {c : ℝ} (h : ∀ i, s i ≤ t i + c) {k : ℕ} (hk : k < n) : ordStat s k ≤ ordStat t k + c := by
  rw [ordStat_le_iff s hk]
  refine ((ordStat_le_iff t hk _).1 le_rfl).trans_le ?_
  rw [List.ofFn_eq_map, List.ofFn_eq_map, List.countP_map, List.countP_map]
  refine List.countP_mono_left fun i _ hi => ?_
  simp only [Function.comp_apply, decide_eq_true_eq] at hi ⊢
  linarith [h i]

theorem continuous_ordStat {n : ℕ} {k : ℕ} (hk : k < n) : Continuous fun s : Fin n → ℝ => ordStat s k := by
  refine LipschitzWith.continuous (K := 1) (LipschitzWith.of_dist_le_mul fun s t => ?_)
  rw [NNReal.coe_one, one_mul, Real.dist_eq, abs_le]
  have h : ∀ i, |s i - t i| ≤ dist s t := fun i => by rw [← Real.dist_eq]; exact dist_le_pi_dist s t i
  have h1 := ordStat_le_add (s := s) (t := t) (c := dist s t) (fun i => by linarith [(abs_le.1 (h i)).2]) hk
  have h2 := ordStat_le_add (s := t) (t := s) (c := dist s t) (fun i => by linarith [(abs_le.1 (h i)).1]) hk
  exact ⟨by linarith, by linarith⟩

theorem ordStat_mem {n : ℕ} (s : Fin n → ℝ) {k : ℕ} (hk : k < n) : ∃ i, s i = ordStat s k := by
  set l := (argsort (List.ofFn s)).map fun i => (List.ofFn s).getD i 0 with hl
  have hp : l.Perm (List.ofFn s) := argsort_map_perm _
  have hlen : l.length = n := by rw [hp.length_eq, List.length_ofFn]
  have h : l.getD k 0 ∈ l := by
    rw [List.getD_eq_getElem _ _ (by omega)]
    exact List.getElem_mem _
  obtain ⟨i, hi⟩ := (List.mem_ofFn' s _).1 (hp.mem_iff.1 h)
  exact ⟨i, hi⟩

theorem S_eq_sum (w : List ℝ) (j : ℕ) : S w j = ∑ i ∈ range j, w.getD i 0 := by
  induction j with
  | zero => simp [S_zero]
  | succ j ih => rw [S_succ, ih, sum_range_succ]

theorem avg_getD_zero {w : List ℝ} (h : 0 < w.length) : (avgNNplusone w).getD 0 0 = w.getD 0 0 / 2 := by
  cases w with
  | nil => simp at h
  | cons a w => simp [avgNNplusone]; ring

theorem avg_getD_succ {w : List ℝ} {j : ℕ} (h : j + 1 < w.length) : (avgNNplusone w).getD (j + 1) 0 = (w.getD (j + 1) 0 + w.getD j 0) / 2 := by
  rw [List.getD_eq_getElem _ _ (by rw [avg_length]; omega), List.getD_eq_getElem _ _ h, List.getD_eq_getElem _ _ (by omega)]
  simp only [avgNNplusone, List.getElem_zipWith, List.singleton_append, List.getElem_cons_succ, List.getElem_map]
  rw [List.getElem_append_left (by simpa using h), List.getElem_map]
  ring

/-- positions of the knots. -/
noncomputable def knot (w : ℕ → ℝ) : ℕ → ℝ
  | 0 => w 0 / 2
  | j + 1 => knot w j + (w (j + 1) + w j) / 2

theorem cs_eq_knot {w : List ℝ} {j : ℕ} (hj : j < w.length) : ((cumsum (avgNNplusone w)).dropLast).getD j 0 = knot (fun i => w.getD i 0) j := by
  have h1 : ∀ j, j < w.length → ((cumsum (avgNNplusone w)).dropLast).getD j 0 = S (avgNNplusone w) (j + 1) := by
    intro j hj
    rw [List.getD_eq_getElem _ _ (by simp [avg_length, hj]), List.getElem_dropLast, ← List.getD_eq_getElem _ 0, cumsum_eq,
      List.getD_eq_getElem _ _ (by simp [avg_length]; omega)]
    simp
  rw [h1 j hj]
  clear h1
  induction j with
  | zero => rw [S_succ, S_zero, zero_add, avg_getD_zero hj]; rfl
  | succ j ih => rw [S_succ, ih (by omega), avg_getD_succ hj]; rfl

/-- `continuous_resampling` when the weights are a function of the samples. -/
theorem conti_formula {n : ℕ} [NeZero n] {K : Type} {eps : ℝ} (heps : 0 ≤ eps) (draw : K → ℕ → ℝ) (s : Fin n → ℝ) (g : ℝ → ℝ) (hg : ∀ i, eps < g (s i)) (key : K) (j : Fin n) :
    Smc.resampleConti eps draw s (fun i => g (s i)) key j = ordStat s 0 + ∑ i ∈ range (n - 1), (ordStat s (i + 1) - ordStat s i) *
      unitClip (((draw key j + (j : ℕ)) / n - knot (fun i => g (ordStat s i)) i) / ((g (ordStat s (i + 1)) + g (ordStat s i)) / 2)) := by
  have hn : 0 < n := Nat.pos_of_ne_zero (NeZero.ne n)
  have hil : (argsort (List.ofFn s)).length = n := by rw [(argsort_perm _).length_eq]; simp
  have hws : ∀ i < n, ((argsort (List.ofFn s)).map fun i => (List.ofFn fun i => g (s i)).getD i 0).getD i 0 = g (ordStat s i) := by
    intro i hi
    have hb : (argsort (List.ofFn s))[i] < n := by
      have := (argsort_perm (List.ofFn s)).mem_iff.1 (List.getElem_mem (l := argsort (List.ofFn s)) (n := i) (by omega))
      simpa using this
    rw [ordStat, List.getD_eq_getElem _ _ (by simpa [hil] using hi), List.getD_eq_getElem _ _ (by simpa [hil] using hi), List.getElem_map, List.getElem_map,
      List.getD_eq_getElem _ _ (by simpa using hb), List.getD_eq_getElem _ _ (by simpa using hb), List.getElem_ofFn, List.getElem_ofFn]
  have hpos : ∀ i < n, eps < g (ordStat s i) := fun i hi => by
    obtain ⟨k, hk⟩ := ordStat_mem s hi
    rw [← hk]; exact hg k
  set ws := (argsort (List.ofFn s)).map fun i => (List.ofFn fun i => g (s i)).getD i 0 with hwsd
  have hwl : ws.length = n := by simp [hwsd, hil]
  have hcl : ((cumsum (avgNNplusone ws)).dropLast).length = n := by simp [avg_length, hwl]
  have hknot : ∀ i < n, knot (fun i => ws.getD i 0) i = knot (fun i => g (ordStat s i)) i := by
    intro i hi
    induction i with
    | zero => simp only [knot, hws 0 hi]
    | succ i ih => simp only [knot, hws _ hi, hws i (by omega), ih (by omega)]
  have hcs : ∀ i < n, ((cumsum (avgNNplusone ws)).dropLast).getD i 0 = knot (fun i => g (ordStat s i)) i := fun i hi => by
    rw [cs_eq_knot (by omega), hknot i hi]
  rw [Smc.resampleConti, continuousResampling, List.getD_eq_getElem _ _ (by simp), List.getElem_map, List.getElem_range, ← hwsd, interp_ramp heps (by omega), hcl]
  · have : ((argsort (List.ofFn s)).map fun i => (List.ofFn s).getD i 0).getD 0 0 = ordStat s 0 := rfl
    rw [this]
    congr 1
    refine sum_congr rfl fun i hi => ?_
    have hi' := mem_range.1 hi
    rw [hcs _ (by omega), hcs _ (by omega)]
    have : knot (fun i => g (ordStat s i)) (i + 1) - knot (fun i => g (ordStat s i)) i = (g (ordStat s (i + 1)) + g (ordStat s i)) / 2 := by
      simp only [knot]; ring
    rw [this]
    rfl
  · intro i hi
    rw [hcl] at hi
    rw [hcs _ hi, hcs _ (by omega)]
    have h1 := hpos (i + 1) hi
    have h2 := hpos i (by omega)
    simp only [knot]
    linarith

end Mfs.Resampling

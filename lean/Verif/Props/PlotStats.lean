import Verif.Model.PlotStats
import Mathlib.Data.List.OfFn
import Mathlib.Data.Fintype.Card
import Mathlib.Data.Fintype.BigOperators
import Mathlib.Algebra.BigOperators.Fin
import Mathlib.Algebra.Order.BigOperators.Group.Finset
import Mathlib.Tactic.Linarith
import Mathlib.Tactic.Ring
import Mathlib.Tactic.FinCases
import Mathlib.Tactic.NormNum
import Mathlib.Tactic.Positivity

/-!
# The statistics of the plotting scripts (C164)
-/

namespace Mfs.Props

open Mfs.Plots

/-- an array with `n` rows of length `T`. -/
def arr {n T : ℕ} (a : Fin n → Fin T → Num) : List (List Num) := List.ofFn fun k => List.ofFn (a k)

/-- run `k` has a NaN. -/
def Bad {n T : ℕ} (a : Fin n → Fin T → Num) (k : Fin n) : Prop := ∃ t, a k t = none

theorem diverged_ofFn {T : ℕ} (r : Fin T → Num) : diverged (List.ofFn r) = true ↔ ∃ t, r t = none := by
  simp [diverged, List.mem_ofFn]

theorem countP_ofFn {α : Type*} {n : ℕ} (f : Fin n → α) (p : α → Bool) :
    (List.ofFn f).countP p = (Finset.univ.filter fun k => p (f k) = true).card := by
  induction n with
  | zero => simp
  | succ n ih =>
    rw [List.ofFn_succ, List.countP_cons, ih, Finset.card_filter, Finset.card_filter, Fin.sum_univ_succ]
    omega

theorem zipWith_ofFn {α β γ : Type*} {n : ℕ} (f : α → β → γ) (a : Fin n → α) (b : Fin n → β) :
    List.zipWith f (List.ofFn a) (List.ofFn b) = List.ofFn fun k => f (a k) (b k) := by
  induction n with
  | zero => simp
  | succ n ih => simp [List.ofFn_succ, ih]

theorem errs_arr {n T : ℕ} (a b : Fin n → Fin T → Num) : errs (arr a) (arr b) = arr fun k t => absDiff (a k t) (b k t) := by
  simp only [errs, arr, zipWith_ofFn]

theorem absDiff_none {a b : Num} : absDiff a b = none ↔ a = none ∨ b = none := by
  cases a <;> cases b <;> simp [absDiff]

open Classical in
theorem rm_errs {n T : ℕ} (a b : Fin n → Fin T → Num) :
    (rmDivergent (errs (arr a) (arr b))).2 = (Finset.univ.filter fun k => Bad a k ∨ Bad b k).card := by
  rw [errs_arr]
  simp only [rmDivergent, arr, countP_ofFn, diverged_ofFn, absDiff_none, Bad, ← exists_or]

/-- **C164.** `rm_divergent` keeps the rows without NaN, in their order, and counts the others; a kept row has no NaN. -/
theorem C164_removed (a : List (List Num)) :
    (rmDivergent a).1.Sublist a ∧ (∀ r, r ∈ (rmDivergent a).1 ↔ r ∈ a ∧ none ∉ r) ∧ (rmDivergent a).1.length + (rmDivergent a).2 = a.length := by
  refine ⟨List.filter_sublist, fun r => ?_, ?_⟩
  · simp [rmDivergent, diverged, List.mem_filter, Option.isNone_iff_eq_none]
    intro _
    constructor
    · intro h hn; exact h none hn rfl
    · rintro h x hx rfl; exact h hx
  · rw [rmDivergent, ← List.countP_eq_length_filter]
    have := List.length_eq_countP_add_countP (l := a) (p := diverged)
    have e : (fun r => decide ¬diverged r = true) = fun r => !diverged r := by funext r; cases diverged r <;> rfl
    rw [e] at this
    simp only
    omega

open Classical in
/-- **C164.** The number printed as divergences of a filter is the number of runs in which the true filter is fine and the filter has a
NaN, minus the number of runs in which the true filter is fine and the trajectory has a NaN. -/
theorem C164_report {n T : ℕ} (trajs means filt : Fin n → Fin T → Num) :
    printedDivs (arr trajs) (arr means) (arr filt) =
      ((Finset.univ.filter fun k => ¬Bad means k ∧ Bad filt k).card : ℤ) - (Finset.univ.filter fun k => ¬Bad means k ∧ Bad trajs k).card := by
  have h : ∀ b : Fin n → Fin T → Num, (Finset.univ.filter fun k => Bad means k ∨ Bad b k).card =
      (Finset.univ.filter fun k => Bad means k).card + (Finset.univ.filter fun k => ¬Bad means k ∧ Bad b k).card := by
    intro b
    rw [← Finset.card_union_of_disjoint]
    · congr 1; ext k; simp only [Finset.mem_filter, Finset.mem_univ, true_and, Finset.mem_union]; tauto
    · rw [Finset.disjoint_filter]; tauto
  have h2 := h trajs
  rw [printedDivs, rm_errs, rm_errs, h filt]
  have e : (Finset.univ.filter fun k => Bad trajs k ∨ Bad means k) = Finset.univ.filter fun k => Bad means k ∨ Bad trajs k := by
    ext k; simp only [Finset.mem_filter, Finset.mem_univ, true_and]; tauto
  rw [e, h2]
  push_cast; ring

open Classical in
/-- **C164**, what holds: if the true filter has a NaN in every run whose trajectory has one, the number printed is the number of runs in
which only the filter failed. -/
theorem C164_report_partial {n T : ℕ} (trajs means filt : Fin n → Fin T → Num) (h : ∀ k, Bad trajs k → Bad means k) :
    printedDivs (arr trajs) (arr means) (arr filt) = (Finset.univ.filter fun k => ¬Bad means k ∧ Bad filt k).card := by
  rw [C164_report]
  have : (Finset.univ.filter fun k => ¬Bad means k ∧ Bad trajs k) = ∅ := by
    ext k; simp only [Finset.mem_filter, Finset.mem_univ, true_and, Finset.notMem_empty, iff_false]
    exact fun hk => hk.1 (h k hk.2)
  simp [this]

/-- three runs: the filter fails in the first, the simulation in the second. -/
example : ∃ trajs means filt : Fin 3 → Fin 2 → Num, (∃ k, Bad trajs k) ∧ printedDivs (arr trajs) (arr means) (arr filt) = 1 := by
  classical
  refine ⟨fun k t => if k = 1 then none else some 1, fun k t => if k = 1 ∧ t = 0 then none else some 2,
    fun k t => if k = 0 ∧ t = 1 then none else some 3, ⟨1, 0, rfl⟩, ?_⟩
  rw [C164_report_partial _ _ _ fun k => ?_]
  · have : (Finset.univ.filter fun k : Fin 3 => ¬Bad (fun (k : Fin 3) (t : Fin 2) => if k = 1 ∧ t = 0 then none else some (2 : ℝ)) k ∧
        Bad (fun (k : Fin 3) (t : Fin 2) => if k = 0 ∧ t = 1 then none else some (3 : ℝ)) k) = {0} := by
      ext k; simp only [Bad, Finset.mem_filter, Finset.mem_univ, true_and, Finset.mem_singleton, ite_eq_left_iff, reduceCtorEq, imp_false, not_not,
        exists_eq_right]
      omega
    rw [this]; rfl
  · simp [Bad]

/-- **C164**, refuted: a trajectory with a NaN gives measurements without NaN, hence a true filter without NaN; the printed number of
divergences is then too small, here negative. -/
theorem C164_report_refuted : ∃ (trajs means filt : Fin 1 → Fin 1 → Num), (∀ k, ¬Bad means k) ∧ (∀ k, ¬Bad filt k) ∧
    printedDivs (arr trajs) (arr means) (arr filt) = -1 := by
  classical
  refine ⟨fun _ _ => none, fun _ _ => some 0, fun _ _ => some 0, by simp [Bad], by simp [Bad], ?_⟩
  rw [C164_report]
  simp [Bad]

/-- the mean of the kept runs at one time. -/
theorem nanmean_some (v : List ℝ) (hv : v ≠ []) : nanmean (v.map some) = some (v.sum / v.length) := by
  have : (v.map some).filterMap id = v := by induction v <;> simp_all
  simp only [nanmean, this]
  rw [if_neg (by simpa using hv)]

open Classical in
/-- **C164.** The curve of a filter is the average over the runs of that filter without NaN. -/
theorem C164_curve {n T : ℕ} (a : Fin n → Fin T → Num) (t : Fin T) (hne : ∃ k, ¬Bad a k) :
    (curve T (arr a)).getD t none =
      some ((∑ k ∈ Finset.univ.filter fun k => ¬Bad a k, (a k t).getD 0) / (Finset.univ.filter fun k => ¬Bad a k).card) := by
  have hsum : ∀ {m : ℕ} (g : Fin m → Fin T → Num),
      (((List.ofFn fun k => List.ofFn (g k)).filter (!diverged ·)).map (·.getD (t : ℕ) none)) =
        (((List.ofFn fun k => List.ofFn (g k)).filter (!diverged ·)).map fun r => (r.getD (t : ℕ) none).getD 0).map some := by
    intro m g
    rw [List.map_map]
    refine List.map_congr_left fun r hr => ?_
    obtain ⟨hr1, hr2⟩ := List.mem_filter.1 hr
    obtain ⟨k, rfl⟩ := (List.mem_ofFn' _ _).1 hr1
    have hk : ¬∃ t, g k t = none := by rw [← diverged_ofFn]; simpa using hr2
    have e : (List.ofFn (g k)).getD (t : ℕ) none = g k t := by simp [List.getD_eq_getElem?_getD]
    simp only [e, Function.comp]
    cases h : g k t
    · exact absurd ⟨t, h⟩ hk
    · rfl
  have hs : ∀ {m : ℕ} (g : Fin m → Fin T → Num),
      (((List.ofFn fun k => List.ofFn (g k)).filter (!diverged ·)).map fun r => (r.getD (t : ℕ) none).getD 0).sum =
        ∑ k ∈ Finset.univ.filter fun k => ¬Bad g k, (g k t).getD 0 := by
    intro m g
    rw [Finset.sum_filter]
    induction m with
    | zero => simp
    | succ m ih =>
      have e : (List.ofFn (g 0)).getD (t : ℕ) none = g 0 t := by simp [List.getD_eq_getElem?_getD]
      have ih' := ih fun k => g k.succ
      rw [List.ofFn_succ, Fin.sum_univ_succ, List.filter_cons]
      have hb : (∃ t, g 0 t = none) ↔ Bad g 0 := Iff.rfl
      by_cases h0 : Bad g 0
      · have : diverged (List.ofFn (g 0)) = true := (diverged_ofFn _).2 h0
        rw [this]
        simp only [Bool.not_true, Bool.false_eq_true, if_false, not_true, h0]
        rw [ih', zero_add]; rfl
      · have : diverged (List.ofFn (g 0)) = false := by
          rw [Bool.eq_false_iff]; exact fun h => h0 ((diverged_ofFn _).1 h)
        rw [this]
        simp only [Bool.not_false, if_true, List.map_cons, List.sum_cons, not_false_eq_true, h0, e]
        rw [ih']; rfl
  have hl : ((arr a).filter (!diverged ·)).length = (Finset.univ.filter fun k => ¬Bad a k).card := by
    rw [← List.countP_eq_length_filter, arr, countP_ofFn]
    congr 1; ext k
    have := diverged_ofFn (a k)
    rw [Finset.mem_filter, Finset.mem_filter, Bad, ← this]
    simp
  have hpos : 0 < (Finset.univ.filter fun k => ¬Bad a k).card := by
    obtain ⟨k, hk⟩ := hne
    exact Finset.card_pos.2 ⟨k, by simpa using hk⟩
  have e : (curve T (arr a)).getD t none = nanmean (((arr a).filter (!diverged ·)).map (·.getD (t : ℕ) none)) := by
    simp [curve, nanmean0, rmDivergent, List.getD_eq_getElem?_getD]
  rw [e, arr, hsum, nanmean_some, hs, List.length_map, ← hl]
  · rfl
  · intro h
    have := congrArg List.length h
    rw [List.length_map] at this
    have h2 := hl
    rw [arr] at h2
    simp only [List.length_nil] at this
    omega

open Classical in
/-- **C164**, what holds for comparisons: if two filters fail in the same runs and one is better in all the others, its curve is lower. -/
theorem C164_compare_partial {n T : ℕ} (a b : Fin n → Fin T → Num) (t : Fin T) (hne : ∃ k, ¬Bad a k) (hab : ∀ k, Bad a k ↔ Bad b k)
    (h : ∀ k, ¬Bad a k → (a k t).getD 0 < (b k t).getD 0) :
    ∃ x y, (curve T (arr a)).getD t none = some x ∧ (curve T (arr b)).getD t none = some y ∧ x < y := by
  have hf : (Finset.univ.filter fun k => ¬Bad b k) = Finset.univ.filter fun k => ¬Bad a k := by
    ext k; simp [hab k]
  refine ⟨_, _, C164_curve a t hne, C164_curve b t (hne.imp fun k hk => (hab k).not.1 hk), ?_⟩
  rw [hf]
  obtain ⟨k, hk⟩ := hne
  have hk' : k ∈ Finset.univ.filter fun k => ¬Bad a k := by simpa using hk
  have hpos : (0 : ℝ) < (Finset.univ.filter fun k => ¬Bad a k).card := by exact_mod_cast Finset.card_pos.2 ⟨k, hk'⟩
  exact div_lt_div_of_pos_right (Finset.sum_lt_sum_of_nonempty ⟨k, hk'⟩ fun k hk => h k (by simpa using hk)) hpos

/-- **C164**, refuted: a filter that is worse in every run where both give a result may have the lower curve, because a run in which it
fails is left out of its own average only. -/
theorem C164_compare_refuted : ∃ (a b : Fin 2 → Fin 1 → Num), (∀ k, ¬Bad b k) ∧ (∃ k, ¬Bad a k) ∧
    (∀ k, ¬Bad a k → (b k 0).getD 0 < (a k 0).getD 0) ∧
    ∃ x y, (curve 1 (arr a)).getD 0 none = some x ∧ (curve 1 (arr b)).getD 0 none = some y ∧ x < y := by
  classical
  have hA : ¬Bad (fun (k : Fin 2) (_ : Fin 1) => if k = 0 then some (1 : ℝ) else none) 0 := by simp [Bad]
  have hA1 : Bad (fun (k : Fin 2) (_ : Fin 1) => if k = 0 then some (1 : ℝ) else none) 1 := ⟨0, rfl⟩
  have hB : ∀ k : Fin 2, ¬Bad (fun (k : Fin 2) (_ : Fin 1) => some (if k = 0 then (1 / 2 : ℝ) else 10)) k := by simp [Bad]
  refine ⟨_, _, hB, ⟨0, hA⟩, ?_, _, _, C164_curve _ 0 ⟨0, hA⟩, C164_curve _ 0 ⟨0, hB 0⟩, ?_⟩
  · rw [Fin.forall_fin_two]
    exact ⟨fun _ => by norm_num, fun h => absurd hA1 h⟩
  · have e1 : (Finset.univ.filter fun k : Fin 2 => ¬Bad (fun (k : Fin 2) (_ : Fin 1) => if k = 0 then some (1 : ℝ) else none) k) = {0} := by
      ext k
      rcases Fin.exists_fin_two.1 ⟨k, rfl⟩ with rfl | rfl
      · simpa using hA
      · simpa using hA1
    have e2 : (Finset.univ.filter fun k : Fin 2 => ¬Bad (fun (k : Fin 2) (_ : Fin 1) => some (if k = 0 then (1 / 2 : ℝ) else 10)) k) = Finset.univ := by
      ext k; simpa using hB k
    rw [e1, e2]; norm_num [Fin.sum_univ_two]

/-- **C164.** `find_valid` splits the runs: those counted as divergences and those kept are all of them, and the kept rows are those
of successful runs without an entry at or above the bound. -/
theorem C164_find_valid (ub : ℝ) (stats : List Bool) (vals : List (List Num)) (hl : stats.length = vals.length) :
    (findValid ub stats vals).1 + (findValid ub stats vals).2.length = stats.length ∧
      ∀ r, r ∈ (findValid ub stats vals).2 ↔ (true, r) ∈ stats.zip vals ∧ ∀ v : ℝ, some v ∈ r → v < ub := by
  constructor
  · simp only [findValid]
    set kept := ((stats.zip vals).filter (·.1)).map (·.2) with hk
    have h1 : kept.length = stats.count true := by
      rw [hk, List.length_map, ← List.countP_eq_length_filter]
      clear hk kept
      induction stats generalizing vals with
      | nil => simp
      | cons s ss ih =>
        rcases vals with _ | ⟨v, vs⟩
        · simp at hl
        · simp only [List.zip_cons_cons, List.countP_cons, List.count_cons]
          rw [ih vs (by simpa using hl)]
          cases s <;> simp
    have h2 := List.length_eq_countP_add_countP (l := kept) (p := fun r => r.any (ge ub))
    have e : (fun r => decide ¬List.any r (ge ub) = true) = fun r => !List.any r (ge ub) := by funext r; cases List.any r (ge ub) <;> rfl
    rw [e] at h2
    rw [← List.countP_eq_length_filter]
    have h3 : stats.count false + stats.count true = stats.length := by
      clear hl hk h1 h2 kept
      induction stats with
      | nil => rfl
      | cons s ss ih => cases s <;> simp <;> omega
    omega
  · intro r
    simp only [findValid, List.mem_filter, List.mem_map, Prod.exists]
    constructor
    · rintro ⟨⟨s, _, ⟨hm, hs⟩, rfl⟩, hr⟩
      subst hs
      refine ⟨hm, fun v hv => ?_⟩
      by_contra hc
      rw [Bool.not_eq_true', List.any_eq_false] at hr
      exact hr _ hv (by simpa [ge] using hc)
    · rintro ⟨hm, hr⟩
      refine ⟨⟨true, r, ⟨hm, rfl⟩, rfl⟩, ?_⟩
      rw [Bool.not_eq_true', List.any_eq_false]
      intro x hx
      cases x with
      | none => simp [ge]
      | some v => simpa [ge] using hr v hx

/-- **C164**, refuted: a NaN estimate reported as a success is kept. -/
theorem C164_find_valid_refuted (ub : ℝ) : findValid ub [true] [[none, none]] = (0, [[none, none]]) := by
  simp [findValid, ge]

/-- **C164 (errors).** An error is the distance of the two estimates when both are numbers, and NaN otherwise. -/
theorem C164_errors {n T : ℕ} (a b : Fin n → Fin T → Num) (k : Fin n) (t : Fin T) :
    ∃ e : Num, ((errs (arr a) (arr b))[(k : ℕ)]?).bind (·[(t : ℕ)]?) = some e ∧ (∀ x y, a k t = some x → b k t = some y → e = some |x - y|) ∧
      (a k t = none ∨ b k t = none → e = none) := by
  refine ⟨absDiff (a k t) (b k t), ?_, fun x y hx hy => ?_, absDiff_none.2⟩
  · rw [errs_arr]
    simp [arr]
  · rw [hx, hy]
    rfl

/-- **C164 (no runs left).** When every run has a NaN the whole curve is NaN. -/
theorem C164_curve_nan {n T : ℕ} (a : Fin n → Fin T → Num) (h : ∀ k, Bad a k) : curve T (arr a) = List.replicate T none := by
  have e : (rmDivergent (arr a)).1 = [] := by
    rw [rmDivergent, List.filter_eq_nil_iff]
    intro r hr
    obtain ⟨k, rfl⟩ := (List.mem_ofFn' _ _).1 hr
    simpa using (diverged_ofFn _).2 (h k)
  rw [curve, e]
  simp [nanmean0, nanmean]

-- the hypotheses are met
example := C164_curve_nan (n := 2) (T := 3) (fun _ t => if t = 1 then none else some 0) fun _ => ⟨1, by simp⟩

end Mfs.Props

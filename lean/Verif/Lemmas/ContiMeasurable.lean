import Verif.Lemmas.ContiAccuracy
import Mathlib.MeasureTheory.Constructions.BorelSpace.Real
import Mathlib.MeasureTheory.Constructions.BorelSpace.Order

/-!
# `continuous_resampling` is a measurable function of the samples, the weights and the draws
-/

namespace Mfs.Resampling

variable {Ω : Type} [MeasurableSpace Ω]

/-- a random list of fixed length with measurable entries. -/
def MeasList (m : ℕ) (L : Ω → List ℝ) : Prop := (∀ ω, (L ω).length = m) ∧ ∀ i, Measurable fun ω => (L ω).getD i 0

theorem MeasList.of_lt {m : ℕ} {L : Ω → List ℝ} (h : ∀ ω, (L ω).length = m) (h2 : ∀ i < m, Measurable fun ω => (L ω).getD i 0) : MeasList m L := by
  refine ⟨h, fun i => ?_⟩
  rcases Nat.lt_or_ge i m with hi | hi
  · exact h2 i hi
  · have : (fun ω => (L ω).getD i 0) = fun _ => (0 : ℝ) := funext fun ω => List.getD_eq_default _ _ (by rw [h]; exact hi)
    rw [this]
    exact measurable_const

theorem MeasList.getD {m : ℕ} {L : Ω → List ℝ} (h : MeasList m L) {i : Ω → ℕ} (hi : Measurable i) : Measurable fun ω => (L ω).getD (i ω) 0 := by
  have : Measurable fun p : Ω × ℕ => (L p.1).getD p.2 0 := measurable_from_prod_countable_left fun j => h.2 j
  exact this.comp (measurable_id.prodMk hi)

theorem MeasList.interpIdx {m : ℕ} {L : Ω → List ℝ} (h : MeasList m L) {x : Ω → ℝ} (hx : Measurable x) : Measurable fun ω => interpIdx (x ω) (L ω) := by
  have hc : (fun ω => Mfs.Resampling.interpIdx (x ω) (L ω)) = fun ω => min (max (∑ i ∈ Finset.range m, if (L ω).getD i 0 ≤ x ω then 1 else 0) 1) (m - 1) := by
    funext ω
    rw [Mfs.Resampling.interpIdx, h.1 ω]
    congr 2
    conv_lhs => rw [← map_getD_range (L ω) 0, List.countP_map]
    rw [h.1 ω]
    clear hx h
    induction m with
    | zero => simp
    | succ m ih =>
      rw [List.range_succ, List.countP_append, List.countP_singleton, Finset.sum_range_succ, ← ih]
      simp only [Function.comp, decide_eq_true_eq]
  rw [hc]
  have : Measurable fun ω => ∑ i ∈ Finset.range m, if (L ω).getD i 0 ≤ x ω then 1 else 0 :=
    Finset.measurable_sum _ fun i _ => Measurable.ite (measurableSet_le (h.2 i) hx) measurable_const measurable_const
  exact (measurable_from_top (f := fun k : ℕ => min (max k 1) (m - 1))).comp this

theorem MeasList.interp {m : ℕ} {L F : Ω → List ℝ} (hL : MeasList m L) (hF : MeasList m F) (eps : ℝ) {x : Ω → ℝ} (hx : Measurable x) :
    Measurable fun ω => interp eps (x ω) (L ω) (F ω) := by
  have hi := hL.interpIdx hx
  have hi1 : Measurable fun ω => Mfs.Resampling.interpIdx (x ω) (L ω) - 1 := (measurable_from_top (f := fun k : ℕ => k - 1)).comp hi
  simp only [interp_def, hL.1, interpIn]
  refine Measurable.ite (measurableSet_lt (hL.2 _) hx) (hF.2 _) (Measurable.ite (measurableSet_lt hx (hL.2 _)) (hF.2 _) ?_)
  have h1 := hL.getD hi
  have h2 := hL.getD hi1
  have h3 := hF.getD hi
  have h4 := hF.getD hi1
  exact Measurable.ite (measurableSet_le (continuous_abs.measurable.comp (h1.sub h2)) measurable_const) h4 (h4.add (((hx.sub h2).div (h1.sub h2)).mul (h3.sub h4)))

/-- comparisons that determine the order of the samples. -/
noncomputable def cmp (n : ℕ) (s : Fin n → ℝ) : Fin (n + 1) → Fin (n + 1) → Bool :=
  fun i j => decide ((List.ofFn s).getD i 0 ≤ (List.ofFn s).getD j 0)

/-- the order of the samples from the comparisons. -/
noncomputable def sortOf (n : ℕ) (M : Fin (n + 1) → Fin (n + 1) → Bool) : List ℕ :=
  (List.range n).mergeSort fun i j => M ⟨min i n, by omega⟩ ⟨min j n, by omega⟩

theorem argsort_eq_sortOf {n : ℕ} (s : Fin n → ℝ) : argsort (List.ofFn s) = sortOf n (cmp n s) := by
  have h : ∀ i : ℕ, (List.ofFn s).getD (min i n) 0 = (List.ofFn s).getD i 0 := by
    intro i
    rcases Nat.lt_or_ge i n with hi | hi
    · rw [min_eq_left hi.le]
    · rw [min_eq_right hi, List.getD_eq_default _ _ (by simp), List.getD_eq_default _ _ (by simpa using hi)]
  simp only [argsort, sortOf, cmp, h, List.length_ofFn]

theorem measList_ofFn (n : ℕ) : MeasList n (fun s : Fin n → ℝ => List.ofFn s) := by
  refine MeasList.of_lt (fun s => List.length_ofFn) fun i hi => ?_
  have : (fun s : Fin n → ℝ => (List.ofFn s).getD i 0) = fun s => s ⟨i, hi⟩ := funext fun s => by
    rw [List.getD_eq_getElem _ _ (by simpa using hi), List.getElem_ofFn]
  rw [this]
  exact measurable_pi_apply _

theorem measurable_cmp (n : ℕ) : Measurable (cmp n) := by
  refine measurable_pi_lambda _ fun i => measurable_pi_lambda _ fun j => ?_
  exact measurable_to_bool (by
    have : (fun s : Fin n → ℝ => cmp n s i j) ⁻¹' {true} = {s | (List.ofFn s).getD i 0 ≤ (List.ofFn s).getD j 0} := by
      ext s; simp [cmp]
    rw [this]
    exact measurableSet_le ((measList_ofFn n).2 i) ((measList_ofFn n).2 j))

theorem MeasList.map_getD {m : ℕ} {L : Ω → List ℝ} (h : MeasList m L) (l : List ℕ) : MeasList l.length fun ω => l.map fun i => (L ω).getD i 0 := by
  refine MeasList.of_lt (fun ω => List.length_map _) fun i hi => ?_
  have : (fun ω => (l.map fun i => (L ω).getD i 0).getD i 0) = fun ω => (L ω).getD l[i] 0 := funext fun ω => by
    rw [List.getD_eq_getElem _ _ (by simpa using hi), List.getElem_map]
  rw [this]
  exact h.2 _

theorem MeasList.knots {m : ℕ} {L : Ω → List ℝ} (h : MeasList m L) : MeasList m fun ω => (cumsum (avgNNplusone (L ω))).dropLast := by
  refine MeasList.of_lt (fun ω => by simp [avg_length, h.1]) fun i hi => ?_
  have : (fun ω => ((cumsum (avgNNplusone (L ω))).dropLast).getD i 0) = fun ω => ∑ k ∈ Finset.range i, (L ω).getD k 0 + (L ω).getD i 0 / 2 :=
    funext fun ω => by rw [cs_eq_knot (by rw [h.1]; exact hi), knot_eq]
  rw [this]
  exact (Finset.measurable_sum _ fun k _ => h.2 k).add ((h.2 i).div_const 2)

/-- one resampled value, from the comparisons. -/
noncomputable def contiVal (eps : ℝ) {n : ℕ} (M : Fin (n + 1) → Fin (n + 1) → Bool) (s w : Fin n → ℝ) (x : ℝ) : ℝ :=
  interp eps x ((cumsum (avgNNplusone ((sortOf n M).map fun i => (List.ofFn w).getD i 0))).dropLast) ((sortOf n M).map fun i => (List.ofFn s).getD i 0)

theorem resampleConti_eq {n : ℕ} [NeZero n] {K : Type} (eps : ℝ) (draw : K → ℕ → ℝ) (s w : Fin n → ℝ) (k : K) (j : Fin n) :
    Smc.resampleConti eps draw s w k j = contiVal eps (cmp n s) s w ((draw k j + ((j : ℕ) : ℝ)) / n) := by
  rw [contiVal, ← argsort_eq_sortOf]
  simp only [Smc.resampleConti, continuousResampling]
  rw [List.getD_eq_getElem _ _ (by simp), List.getElem_map, List.getElem_range]

theorem measurable_contiVal (eps : ℝ) {n : ℕ} (M : Fin (n + 1) → Fin (n + 1) → Bool) :
    Measurable fun p : (Fin n → ℝ) × (Fin n → ℝ) × ℝ => contiVal eps M p.1 p.2.1 p.2.2 := by
  have hs : MeasList n fun p : (Fin n → ℝ) × (Fin n → ℝ) × ℝ => List.ofFn p.1 :=
    ⟨fun _ => List.length_ofFn, fun i => ((measList_ofFn n).2 i).comp measurable_fst⟩
  have hw : MeasList n fun p : (Fin n → ℝ) × (Fin n → ℝ) × ℝ => List.ofFn p.2.1 :=
    ⟨fun _ => List.length_ofFn, fun i => ((measList_ofFn n).2 i).comp (measurable_fst.comp measurable_snd)⟩
  simp only [contiVal]
  generalize sortOf n M = l
  exact (hw.map_getD l).knots.interp (hs.map_getD l) eps (measurable_snd.comp measurable_snd)

theorem measurable_select {κ : Type} [Countable κ] [MeasurableSpace κ] [MeasurableSingletonClass κ] {Φ : κ → Ω → ℝ} (h : ∀ k, Measurable (Φ k)) {c : Ω → κ}
    (hc : Measurable c) : Measurable fun ω => Φ (c ω) ω := by
  have key : Measurable fun p : Ω × κ => Φ p.2 p.1 := measurable_from_prod_countable_left fun M => h M
  exact key.comp (measurable_id.prodMk hc)

theorem measurable_contiVal_cmp (eps : ℝ) (n : ℕ) :
    Measurable fun p : (Fin n → ℝ) × (Fin n → ℝ) × ℝ => contiVal eps (cmp n p.1) p.1 p.2.1 p.2.2 := by
  have hc : Measurable fun p : (Fin n → ℝ) × (Fin n → ℝ) × ℝ => cmp n p.1 := (measurable_cmp n).comp measurable_fst
  have := @measurable_select ((Fin n → ℝ) × (Fin n → ℝ) × ℝ) _ (Fin (n + 1) → Fin (n + 1) → Bool) inferInstance inferInstance inferInstance
    (fun M p => contiVal eps M p.1 p.2.1 p.2.2) (measurable_contiVal eps) (fun p => cmp n p.1) hc
  exact this

theorem measurable_resampleConti {n : ℕ} [NeZero n] {K : Type} [MeasurableSpace K] (eps : ℝ) {draw : K → ℕ → ℝ} (hd : ∀ j, Measurable fun k => draw k j) :
    Measurable fun p : (Fin n → ℝ) × (Fin n → ℝ) × K => Smc.resampleConti eps draw p.1 p.2.1 p.2.2 := by
  refine measurable_pi_iff.2 fun j => ?_
  have hx : Measurable fun p : (Fin n → ℝ) × (Fin n → ℝ) × K => (draw p.2.2 j + ((j : ℕ) : ℝ)) / n :=
    (((hd j).comp (measurable_snd.comp measurable_snd)).add_const _).div_const _
  have h := (measurable_contiVal_cmp eps n).comp (measurable_fst.prodMk ((measurable_fst.comp measurable_snd).prodMk hx))
  have e : (fun p : (Fin n → ℝ) × (Fin n → ℝ) × K => Smc.resampleConti eps draw p.1 p.2.1 p.2.2 j)
      = (fun p : (Fin n → ℝ) × (Fin n → ℝ) × ℝ => contiVal eps (cmp n p.1) p.1 p.2.1 p.2.2) ∘ fun p => (p.1, p.2.1, (draw p.2.2 j + ((j : ℕ) : ℝ)) / n) :=
    funext fun p => resampleConti_eq eps draw p.1 p.2.1 p.2.2 j
  rw [e]
  exact h

end Mfs.Resampling

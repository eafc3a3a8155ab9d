import Verif.Model.PreyStats
import Verif.Lemmas.Slln
import Verif.Props.RetryLoops

/-!
# C196: the statistics of the plots of the prey-predator experiment
-/

namespace Mfs.Props

open MeasureTheory ProbabilityTheory Measure Filter Topology Mfs.Lemmas Mfs.Retry Mfs.Prng Mfs.PreyStats

/-- the absolute error in the prey plus that in the predator at time `t`. -/
noncomputable def totErr (e : List (Fin 2 → Option ℝ)) (t : ℕ) : ℝ := ((e.getD t fun _ => none) 0).getD 0 + ((e.getD t fun _ => none) 1).getD 0

theorem sumAxis_eq {e : List (Fin 2 → Option ℝ)} (h : ¬ hasNan e) : sumAxis e = ((List.range e.length).map fun t => totErr e t).map some := by
  refine List.ext_getElem (by simp [sumAxis]) fun t h1 h2 => ?_
  have ht : t < e.length := by simpa [sumAxis] using h1
  have hx : ∀ i, ∃ a, e[t] i = some a := fun i => by
    cases hi : e[t] i with
    | none => exact absurd ⟨e[t], List.getElem_mem ht, i, hi⟩ h
    | some a => exact ⟨a, rfl⟩
  obtain ⟨a, ha⟩ := hx 0
  obtain ⟨b, hb⟩ := hx 1
  simp [sumAxis, totErr, List.getD_eq_getElem?_getD, ht, ha, hb]

theorem npMean_some (v : List ℝ) (hv : v ≠ []) : npMean (v.map some) = some (v.sum / v.length) := by
  have h : (v.map some).mapM id = some v := by
    clear hv
    induction v with
    | nil => rfl
    | cons a v ih => rw [List.map_cons, List.mapM_cons, ih]; rfl
  rw [npMean, if_neg (by simpa using hv), h, Option.map_some]

theorem npStd_some (v : List ℝ) (hv : v ≠ []) :
    npStd (v.map some) = some (Real.sqrt ((v.map fun a => (a - v.sum / v.length) ^ 2).sum / v.length)) := by
  have e : ((v.map some).map fun x : Option ℝ => x.map fun a => (a - v.sum / v.length) ^ 2) = (v.map fun a => (a - v.sum / v.length) ^ 2).map some := by
    simp [List.map_map, Function.comp_def]
  rw [npStd, npMean_some v hv, Option.bind_some, e, npMean_some _ (by simpa using hv), Option.map_some, List.length_map]

theorem sum_filter_range (p : ℕ → Prop) [DecidablePred p] (f : ℕ → ℝ) (n : ℕ) :
    (((List.range n).filter fun k => decide (p k)).map f).sum = ∑ k ∈ (Finset.range n).filter p, f k := by
  rw [Finset.sum_filter]
  induction n with
  | zero => simp
  | succ n ih =>
    rw [List.range_succ, List.filter_append, List.map_append, List.sum_append, ih, Finset.sum_range_succ]
    by_cases h : p n <;> simp [h]

theorem length_filter_range (p : ℕ → Prop) [DecidablePred p] (n : ℕ) :
    ((List.range n).filter fun k => decide (p k)).length = ((Finset.range n).filter p).card := by
  rw [Finset.card_filter]
  induction n with
  | zero => simp
  | succ n ih =>
    rw [List.range_succ, List.filter_append, List.length_append, ih, Finset.sum_range_succ]
    by_cases h : p n <;> simp [h]

theorem sum_range_map (f : ℕ → ℝ) (T : ℕ) : ((List.range T).map f).sum = ∑ t ∈ Finset.range T, f t := by
  induction T with
  | zero => simp
  | succ n ih => rw [List.range_succ, List.map_append, List.sum_append, ih, Finset.sum_range_succ]; simp

open _root_.Classical in
/-- the errors of the kept runs. -/
theorem kept_range (e : ℕ → List (Fin 2 → Option ℝ)) (n : ℕ) :
    kept ((List.range n).map e) = ((List.range n).filter fun k => decide (¬ hasNan (e k))).map e := by
  rw [kept, List.filter_map]
  congr 1
  refine List.filter_congr fun k _ => ?_
  simp

open _root_.Classical in
theorem mem_kept_index {e : ℕ → List (Fin 2 → Option ℝ)} {n k : ℕ} (h : k ∈ (List.range n).filter fun k => decide (¬ hasNan (e k))) : ¬ hasNan (e k) := by
  simpa using (List.mem_filter.1 h).2

open _root_.Classical in
/-- the array whose mean and deviation are printed. -/
theorem printed_array (e : ℕ → List (Fin 2 → Option ℝ)) (n T : ℕ) (hlen : ∀ k, (e k).length = T) :
    (kept ((List.range n).map e)).flatMap sumAxis =
      (((List.range n).filter fun k => decide (¬ hasNan (e k))).flatMap fun k => (List.range T).map fun t => totErr (e k) t).map some := by
  rw [kept_range, List.flatMap_map, List.map_flatMap]
  refine List.flatMap_congr fun k hk => ?_
  rw [sumAxis_eq (mem_kept_index hk), hlen]

theorem sum_flatMap (l : List ℕ) (f : ℕ → List ℝ) : (l.flatMap f).sum = (l.map fun k => (f k).sum).sum := by
  induction l with
  | nil => rfl
  | cons a l ih => rw [List.flatMap_cons, List.sum_append, ih, List.map_cons, List.sum_cons]

/-- the mean square deviation from the mean splits into that of the averages over time and the average of that over the runs. -/
theorem deviation_split (S R : Finset ℕ) (hS : S.Nonempty) (hR : R.Nonempty) (x : ℕ → ℕ → ℝ) (μ : ℕ → ℝ) (hμ : ∀ t, μ t = (∑ k ∈ S, x k t) / S.card) (m : ℝ) :
    (∑ k ∈ S, ∑ t ∈ R, (x k t - m) ^ 2) / (S.card * R.card) =
      (∑ t ∈ R, (μ t - m) ^ 2) / R.card + (∑ t ∈ R, (∑ k ∈ S, (x k t - μ t) ^ 2) / S.card) / R.card := by
  have hs : (S.card : ℝ) ≠ 0 := Nat.cast_ne_zero.2 hS.card_pos.ne'
  have hr : (R.card : ℝ) ≠ 0 := Nat.cast_ne_zero.2 hR.card_pos.ne'
  have h1 : ∀ t, ∑ k ∈ S, (x k t - m) ^ 2 = ∑ k ∈ S, (x k t - μ t) ^ 2 + S.card * (μ t - m) ^ 2 := fun t => by
    have e : ∀ k, (x k t - m) ^ 2 = (x k t - μ t) ^ 2 + 2 * (μ t - m) * (x k t - μ t) + (μ t - m) ^ 2 := fun k => by ring
    have z : ∑ k ∈ S, (x k t - μ t) = 0 := by
      rw [Finset.sum_sub_distrib, Finset.sum_const, nsmul_eq_mul, hμ]
      field_simp
      ring
    simp only [e, Finset.sum_add_distrib, ← Finset.mul_sum, z, Finset.sum_const, nsmul_eq_mul]
    ring
  rw [Finset.sum_comm]
  simp only [h1, Finset.sum_add_distrib, ← Finset.mul_sum, ← Finset.sum_div]
  field_simp
  ring

open _root_.Classical in
/-- **C196 (statistics).** What the plotting script prints and plots for one filter, from the errors `e k` of the runs `k < n`: the number of runs with a NaN; the
curve of the averages over the other runs of the summed absolute errors; as mean the average of this curve over time; as standard deviation the root of the
variance of the curve over time plus the average over time of the variance over the runs. If all runs have a NaN, all of these are NaN. -/
theorem C196_statistics (e : ℕ → List (Fin 2 → Option ℝ)) (n T : ℕ) (hT : 0 < T) (hlen : ∀ k, (e k).length = T) :
    let errs := (List.range n).map e
    let S := (Finset.range n).filter fun k => ¬ hasNan (e k)
    divergences errs = ((Finset.range n).filter fun k => hasNan (e k)).card ∧
    (S = ∅ → printed errs = (none, none) ∧ ∀ t < T, (curve T errs)[t]? = some none) ∧
    (S.Nonempty → ∀ (μ : ℕ → ℝ) (m : ℝ), (∀ t, μ t = (∑ k ∈ S, totErr (e k) t) / S.card) → m = (∑ t ∈ Finset.range T, μ t) / T →
      (∀ t < T, (curve T errs)[t]? = some (some (μ t))) ∧
      printed errs = (some m, some (Real.sqrt ((∑ t ∈ Finset.range T, (μ t - m) ^ 2) / T
        + (∑ t ∈ Finset.range T, (∑ k ∈ S, (totErr (e k) t - μ t) ^ 2) / S.card) / T)))) := by
  intro errs S
  obtain ⟨L, hL⟩ : ∃ L, L = (List.range n).filter fun k => decide (¬ hasNan (e k)) := ⟨_, rfl⟩
  have hLlen : L.length = S.card := by rw [hL]; exact length_filter_range (fun k => ¬ hasNan (e k)) n
  have hLsum : ∀ f : ℕ → ℝ, (L.map f).sum = ∑ k ∈ S, f k := fun f => by rw [hL]; exact sum_filter_range (fun k => ¬ hasNan (e k)) f n
  have hk : kept errs = L.map e := by rw [hL]; exact kept_range e n
  have hcol : ∀ t < T, ((kept errs).map fun e => (sumAxis e).getD t none) = (L.map fun k => totErr (e k) t).map some := fun t ht => by
    rw [hk, List.map_map, List.map_map]
    refine List.map_congr_left fun k hkm => ?_
    rw [hL] at hkm
    simp [sumAxis_eq (mem_kept_index hkm), List.getD_eq_getElem?_getD, hlen, ht]
  have harr : (kept errs).flatMap sumAxis = (L.flatMap fun k => (List.range T).map fun t => totErr (e k) t).map some := by
    rw [hL]; exact printed_array e n T hlen
  refine ⟨?_, fun hS => ?_, fun hS μ m hμ hm => ?_⟩
  · rw [divergences, List.countP_map, List.countP_eq_length_filter]
    exact length_filter_range (fun k => hasNan (e k)) n
  · have hL0 : L = [] := by rw [← List.length_eq_zero_iff, hLlen, hS, Finset.card_empty]
    refine ⟨?_, fun t ht => ?_⟩
    · simp [printed, harr, hL0, npMean, npStd]
    · simp [curve, ht, hk, hL0, npMean]
  · have hL0 : L ≠ [] := by
      rw [ne_eq, ← List.length_eq_zero_iff, hLlen]
      exact hS.card_pos.ne'
    have hs : (S.card : ℝ) ≠ 0 := Nat.cast_ne_zero.2 hS.card_pos.ne'
    have hTr : (T : ℝ) ≠ 0 := Nat.cast_ne_zero.2 hT.ne'
    refine ⟨fun t ht => ?_, ?_⟩
    · rw [curve, List.getElem?_map, List.getElem?_range ht, Option.map_some, hcol t ht, npMean_some _ (by simpa using hL0), hLsum, List.length_map, hLlen, hμ]
    · obtain ⟨v, hv⟩ : ∃ v, v = L.flatMap fun k => (List.range T).map fun t => totErr (e k) t := ⟨_, rfl⟩
      have hvs : ∀ f : ℝ → ℝ, (v.map f).sum = ∑ k ∈ S, ∑ t ∈ Finset.range T, f (totErr (e k) t) := fun f => by
        rw [hv, List.map_flatMap, sum_flatMap, ← hLsum]
        congr 1
        refine List.map_congr_left fun k _ => ?_
        rw [List.map_map, sum_range_map]
        rfl
      have hvl : (v.length : ℝ) = S.card * T := by
        have : v.length = S.card * T := by
          rw [hv, List.length_flatMap, ← hLlen]
          simp
        rw [this, Nat.cast_mul]
      have hv0 : v ≠ [] := by
        intro h
        rw [h] at hvl
        simp only [List.length_nil, Nat.cast_zero] at hvl
        exact mul_ne_zero hs hTr hvl.symm
      have hmean : v.sum / v.length = m := by
        have := hvs id
        rw [List.map_id] at this
        rw [this, hvl, hm, Finset.sum_comm]
        simp only [hμ, id, ← Finset.sum_div]
        field_simp
      have hdev := deviation_split S (Finset.range T) hS (by simpa using hT.ne') (fun k t => totErr (e k) t) μ hμ m
      rw [Finset.card_range] at hdev
      rw [printed, harr, ← hv, npMean_some _ hv0, npStd_some _ hv0, hmean, hvs, hvl, hdev]

theorem getElem?_filterMap_range {α : Type} (f : ℕ → Option α) (n : ℕ) (h : ∀ i < n, (f i).isSome) (i : ℕ) :
    ((List.range n).filterMap f)[i]? = if i < n then f i else none := by
  have hl : ∀ m ≤ n, ((List.range m).filterMap f).length = m := by
    intro m
    induction m with
    | zero => intro _; rfl
    | succ m ih =>
      intro hm
      obtain ⟨a, ha⟩ := Option.isSome_iff_exists.1 (h m hm)
      rw [List.range_succ, List.filterMap_append, List.length_append, ih (by omega)]
      simp [ha]
  have key : ∀ m ≤ n, ((List.range m).filterMap f)[i]? = if i < m then f i else none := by
    intro m
    induction m with
    | zero => intro _; simp
    | succ m ih =>
      intro hm
      obtain ⟨a, ha⟩ := Option.isSome_iff_exists.1 (h m hm)
      rw [List.range_succ, List.filterMap_append, List.getElem?_append, hl m (by omega), ih (by omega)]
      by_cases h1 : i < m
      · simp [h1, Nat.lt_succ_of_lt h1]
      · by_cases h2 : i = m
        · subst h2; simp [ha]
        · have h3 : ¬ i < m + 1 := by omega
          have h4 : i - m ≠ 0 := by omega
          obtain ⟨j, hj⟩ := Nat.exists_eq_succ_of_ne_zero h4
          simp [h1, h3, ha, hj]
  exact key n le_rfl

/-- **C196 (points).** Every tenth time is plotted, with the value of the curve at this time. -/
theorem C196_points (zoom : ℕ) (hz : 0 < zoom) (ts : List ℝ) (errs : List (List (Fin 2 → Option ℝ))) (i : ℕ) :
    (plotted zoom ts errs)[i]? = (ts[i * zoom]?).bind fun t => ((curve ts.length errs)[i * zoom]?).map fun v => (t, v) := by
  have h : ∀ {α : Type} (v : List α) (i : ℕ), (every zoom v)[i]? = v[i * zoom]? := fun v i => by
    have hlt : ∀ i, i < (v.length + zoom - 1) / zoom ↔ i * zoom < v.length := fun i => by
      rw [Nat.lt_iff_add_one_le, Nat.le_div_iff_mul_le hz, Nat.add_one_mul]
      omega
    rw [every, getElem?_filterMap_range _ _ fun i hi => by simpa using (hlt i).1 hi]
    split_ifs with hi
    · rfl
    · rw [hlt, not_lt] at hi
      exact (List.getElem?_eq_none hi).symm
  simp only [plotted, List.zip, List.getElem?_zipWith, h]
  cases ts[i * zoom]? <;> cases (curve ts.length errs)[i * zoom]? <;> rfl

/-! ### Many runs -/

variable {K : Type}

/-- the accepted data of infinitely many runs, as in `C195_law`. -/
theorem retry_law_seq {D Ω : Type} [MeasurableSpace Ω] [MeasurableSpace D] (P : Measure Ω) [IsProbabilityMeasure P] (G : Gen K) (simulate : Ω → K → D)
    (bad : D → Prop) (hbad : MeasurableSet {d | ¬ bad d}) (π : Measure D) [IsProbabilityMeasure π] (hpos : π {d | ¬ bad d} ≠ 0) (keys : ℕ → K)
    (hmeas : ∀ k j, Measurable fun ω => simulate ω (G.fst^[j] (keys k))) (hlaw : ∀ k j, P.map (fun ω => simulate ω (G.fst^[j] (keys k))) = π)
    (hind : iIndepFun (fun (p : ℕ × ℕ) ω => simulate ω (G.fst^[p.2] (keys p.1))) P) :
    ∃ data : Ω → ℕ → D, Measurable data ∧ (∀ ω k, ∃ key, data ω k = simulate ω key) ∧
      (∀ᵐ ω ∂P, ∀ k, ∃ key, simulateUntil G (simulate ω) bad (keys k) = some (key, data ω k)) ∧
      P.map data = infinitePi fun _ => π[|{d | ¬ bad d}] := by
  have hc := cond_isProbabilityMeasure hpos
  have h1 := hind.map_fun_eq_infinitePi_map fun p : ℕ × ℕ => hmeas p.1 p.2
  simp only [hlaw] at h1
  have hm1 : Measurable fun ω (p : ℕ × ℕ) => simulate ω (G.fst^[p.2] (keys p.1)) := measurable_pi_lambda _ fun p => hmeas _ _
  have h2 : P.map (fun ω k (j : ℕ) => simulate ω (G.fst^[j] (keys k))) = infinitePi fun _ : ℕ => infinitePi fun _ : ℕ => π := by
    rw [← infinitePi_map_curry (fun (_ : ℕ) (_ : ℕ) => π), ← h1, Measure.map_map (MeasurableEquiv.measurable _) hm1]
    rfl
  have hm2 : Measurable fun ω k (j : ℕ) => simulate ω (G.fst^[j] (keys k)) := measurable_pi_lambda _ fun k => measurable_pi_lambda _ fun j => hmeas _ _
  have hE : ∀ k, P.map (fun ω (j : ℕ) => simulate ω (G.fst^[j] (keys k))) = infinitePi fun _ : ℕ => π := fun k => by
    rw [← infinitePi_map_eval (fun _ : ℕ => infinitePi fun _ : ℕ => π) k, ← h2, Measure.map_map (measurable_pi_apply k) hm2]
    rfl
  refine ⟨fun ω k => (accept {d | ¬ bad d} fun j => simulate ω (G.fst^[j] (keys k))).1, ?_, fun ω k => ⟨_, rfl⟩, ?_, ?_⟩
  · exact measurable_pi_lambda _ fun k => ((measurable_accept hbad).comp (measurable_pi_lambda _ fun j => hmeas k j)).fst
  · rw [ae_all_iff]
    intro k
    have h3 := ae_exists π hbad hpos
    rw [← hE k] at h3
    filter_upwards [ae_of_ae_map (measurable_pi_lambda _ fun j => hmeas k j).aemeasurable h3] with ω hω
    exact ⟨_, simulateUntil_eq G (simulate ω) bad (keys k) hω⟩
  · have h4 := infinitePi_map_pi (fun _ : ℕ => infinitePi fun _ : ℕ => π) (f := fun _ E => (accept {d | ¬ bad d} E).1)
      fun _ => (measurable_accept hbad).fst
    have h5 : (infinitePi fun _ : ℕ => π).map (fun E => (accept {d | ¬ bad d} E).1) = π[|{d | ¬ bad d}] := by
      have := congrArg (fun μ => μ.map Prod.fst) (accept_map π hbad hpos)
      simp only [Measure.map_map measurable_fst (measurable_accept hbad), Measure.map_fst_prod, measure_univ, one_smul] at this
      exact this
    simp only [h5] at h4
    have hm3 : Measurable fun (x : ℕ → ℕ → D) i => (accept {d | ¬ bad d} (x i)).1 :=
      measurable_pi_lambda _ fun k => (measurable_accept hbad).fst.comp (measurable_pi_apply k)
    rw [← h2, Measure.map_map hm3 hm2] at h4
    exact h4

/-- the limits of the statistics from those of the averages. -/
theorem stats_limit (e : ℕ → List (Fin 2 → Option ℝ)) (T : ℕ) (hT : 0 < T) (hlen : ∀ k, (e k).length = T) (S : ℕ → Finset ℕ)
    (hS : ∀ n k, k ∈ S n ↔ k < n ∧ ¬ hasNan (e k)) (c : ℝ) (hc : 0 < c) (h0 : Tendsto (fun n : ℕ => ((S n).card : ℝ) / n) atTop (𝓝 c)) (V W : ℕ → ℝ)
    (hV : ∀ t < T, Tendsto (fun n => (∑ k ∈ S n, totErr (e k) t) / (S n).card) atTop (𝓝 (V t)))
    (hW : ∀ t < T, Tendsto (fun n => (∑ k ∈ S n, totErr (e k) t ^ 2) / (S n).card) atTop (𝓝 (W t))) :
    Tendsto (fun n : ℕ => (divergences ((List.range n).map e) : ℝ) / n) atTop (𝓝 (1 - c)) ∧
    ∃ (v : ℕ → ℕ → ℝ) (m s : ℕ → ℝ), (∀ᶠ n in atTop, (∀ t < T, (curve T ((List.range n).map e))[t]? = some (some (v n t))) ∧
        printed ((List.range n).map e) = (some (m n), some (s n))) ∧
      (∀ t < T, Tendsto (fun n => v n t) atTop (𝓝 (V t))) ∧ Tendsto m atTop (𝓝 ((∑ t ∈ Finset.range T, V t) / T)) ∧
      Tendsto s atTop (𝓝 (Real.sqrt ((∑ t ∈ Finset.range T, W t) / T - ((∑ t ∈ Finset.range T, V t) / T) ^ 2))) := by
  classical
  have hTr : (T : ℝ) ≠ 0 := Nat.cast_ne_zero.2 hT.ne'
  have hSeq : ∀ n, S n = (Finset.range n).filter fun k => ¬ hasNan (e k) := fun n => by
    ext k; rw [hS, Finset.mem_filter, Finset.mem_range]
  have hne : ∀ᶠ n in atTop, (S n).Nonempty := by
    filter_upwards [h0.eventually (lt_mem_nhds hc)] with n hn
    rw [← Finset.card_pos]
    by_contra h
    rw [Nat.not_lt, Nat.le_zero] at h
    simp [h] at hn
  have hstat := fun n => C196_statistics e n T hT hlen
  refine ⟨?_, fun n t => (∑ k ∈ S n, totErr (e k) t) / (S n).card, fun n => (∑ t ∈ Finset.range T, (∑ k ∈ S n, totErr (e k) t) / (S n).card) / T,
    fun n => Real.sqrt ((∑ t ∈ Finset.range T, (∑ k ∈ S n, totErr (e k) t ^ 2) / (S n).card) / T
      - ((∑ t ∈ Finset.range T, (∑ k ∈ S n, totErr (e k) t) / (S n).card) / T) ^ 2), ?_, hV, ?_, ?_⟩
  · refine (tendsto_const_nhds.sub h0).congr' ?_
    filter_upwards [eventually_gt_atTop 0] with n hn
    have hn' : (n : ℝ) ≠ 0 := Nat.cast_ne_zero.2 hn.ne'
    have h1 : divergences ((List.range n).map e) = ((Finset.range n).filter fun k => hasNan (e k)).card := (hstat n).1.trans (by congr)
    have h2 : ((Finset.range n).filter fun k => hasNan (e k)).card + (S n).card = n := by
      rw [hSeq, Finset.card_filter_add_card_filter_not, Finset.card_range]
    have h3 : (divergences ((List.range n).map e) : ℝ) + (S n).card = n := by
      rw [h1]; exact_mod_cast h2
    rw [← h3] at hn' ⊢
    field_simp
    ring
  · filter_upwards [hne] with n hn
    have hs : ((S n).card : ℝ) ≠ 0 := Nat.cast_ne_zero.2 hn.card_pos.ne'
    have := (hstat n).2.2
    rw [← hSeq] at this
    obtain ⟨h1, h2⟩ := this hn (fun t => (∑ k ∈ S n, totErr (e k) t) / (S n).card) _ (fun t => rfl) rfl
    refine ⟨h1, h2.trans ?_⟩
    congr 3
    have hd := deviation_split (S n) (Finset.range T) hn (by simpa using hT.ne') (fun k t => totErr (e k) t)
      (fun t => (∑ k ∈ S n, totErr (e k) t) / (S n).card) (fun t => rfl) ((∑ t ∈ Finset.range T, (∑ k ∈ S n, totErr (e k) t) / (S n).card) / T)
    rw [Finset.card_range] at hd
    rw [← hd]
    obtain ⟨m, hm⟩ : ∃ m, m = (∑ t ∈ Finset.range T, (∑ k ∈ S n, totErr (e k) t) / (S n).card) / T := ⟨_, rfl⟩
    have hm2 : ∑ t ∈ Finset.range T, ∑ k ∈ S n, totErr (e k) t = m * T * (S n).card := by
      rw [hm, ← Finset.sum_div]; field_simp
    rw [← hm, Finset.sum_comm]
    have e1 : ∀ t k, (totErr (e k) t - m) ^ 2 = totErr (e k) t ^ 2 - 2 * m * totErr (e k) t + m ^ 2 := fun t k => by ring
    simp only [e1, Finset.sum_add_distrib, Finset.sum_sub_distrib, ← Finset.mul_sum, hm2, ← Finset.sum_div, Finset.sum_const, nsmul_eq_mul, Finset.card_range]
    field_simp
    ring
  · exact (tendsto_finsetSum _ fun t ht => hV t (Finset.mem_range.1 ht)).div_const _
  · exact (((tendsto_finsetSum _ fun t ht => hW t (Finset.mem_range.1 ht)).div_const _).sub
      (((tendsto_finsetSum _ fun t ht => hV t (Finset.mem_range.1 ht)).div_const _).pow 2)).sqrt

/-- **C196 (limit).** If the simulations with the keys of all chains are independent with law `π`, then almost surely all runs of the moment filter script end, and
as their number grows: the fraction of divergences converges to the probability that the filter returns a NaN for simulated data without NaN; the curve converges
at every time to the expected summed absolute error given that neither the simulation nor the filter has a NaN; and the printed mean and standard deviation
converge to those of the summed error at a uniformly chosen time under this conditional law. -/
theorem C196_limit {Ω : Type} [MeasurableSpace Ω] [MeasurableSpace Data] (P : Measure Ω) [IsProbabilityMeasure P] (G : Gen K) (simulate : Ω → K → Data)
    (momentFilter : List Bool → List (Fin 2 → Option ℝ)) (π : Measure Data) [IsProbabilityMeasure π] (keys : ℕ → K) (T : ℕ) (hT : 0 < T)
    (hlen : ∀ ω key, (absDiff (simulate ω key).1 (momentFilter (simulate ω key).2)).length = T)
    (hmeas : ∀ k j, Measurable fun ω => simulate ω (G.fst^[j] (keys k))) (hlaw : ∀ k j, P.map (fun ω => simulate ω (G.fst^[j] (keys k))) = π)
    (hind : iIndepFun (fun (p : ℕ × ℕ) ω => simulate ω (G.fst^[p.2] (keys p.1))) P) (sim ok : Set Data) (hsim : sim = {d | ¬ hasNan d.1})
    (hok : ok = {d | ¬ hasNan (absDiff d.1 (momentFilter d.2))}) (hsim' : MeasurableSet sim) (hok' : MeasurableSet ok) (hpos : π (sim ∩ ok) ≠ 0)
    (err : ℕ → Data → ℝ) (herr : ∀ t d, err t d = totErr (absDiff d.1 (momentFilter d.2)) t)
    (herr' : ∀ t < T, Measurable (err t) ∧ MemLp (err t) 2 π) :
    ∀ᵐ ω ∂P, ∃ e : ℕ → List (Fin 2 → Option ℝ),
      (∀ n k, k < n → preyMfRun G (simulate ω) momentFilter ((List.range n).map keys) k = some (e k)) ∧
      Tendsto (fun n : ℕ => (divergences ((List.range n).map e) : ℝ) / n) atTop (𝓝 (π[|sim].real okᶜ)) ∧
      ∃ (v : ℕ → ℕ → ℝ) (m s : ℕ → ℝ), (∀ᶠ n in atTop, (∀ t < T, (curve T ((List.range n).map e))[t]? = some (some (v n t))) ∧
          printed ((List.range n).map e) = (some (m n), some (s n))) ∧
        (∀ t < T, Tendsto (fun n => v n t) atTop (𝓝 (∫ d, err t d ∂π[|sim ∩ ok]))) ∧
        ∀ M, M = (∑ t ∈ Finset.range T, ∫ d, err t d ∂π[|sim ∩ ok]) / T →
          Tendsto m atTop (𝓝 M) ∧ Tendsto s atTop (𝓝 (Real.sqrt ((∑ t ∈ Finset.range T, ∫ d, (err t d - M) ^ 2 ∂π[|sim ∩ ok]) / T))) := by
  classical
  have hTr : (T : ℝ) ≠ 0 := Nat.cast_ne_zero.2 hT.ne'
  have hps : π sim ≠ 0 := fun h => hpos (measure_mono_null Set.inter_subset_left h)
  have hρ := cond_isProbabilityMeasure hps
  have hpo : π[|sim] ok ≠ 0 := by
    rw [cond_apply hsim']
    exact mul_ne_zero (ENNReal.inv_ne_zero.2 (measure_ne_top _ _)) hpos
  have hcc : π[|sim][|ok] = π[|sim ∩ ok] := cond_cond_eq_cond_inter hsim' hok' π
  have hq := cond_isProbabilityMeasure hpos
  have hmono : ∀ {f : Data → ℝ}, Integrable f π → IntegrableOn f ok π[|sim] := fun hf =>
    ((hf.integrableOn (s := sim)).smul_measure (ENNReal.inv_ne_top.2 hps)).integrableOn
  have hmono2 : ∀ {f : Data → ℝ}, Integrable f π → Integrable f π[|sim ∩ ok] := fun hf =>
    (hf.integrableOn (s := sim ∩ ok)).smul_measure (ENNReal.inv_ne_top.2 hpos)
  obtain ⟨data, hd, hkey, hend, hdl⟩ := retry_law_seq P G simulate (fun d => hasNan d.1) (by rwa [← hsim]) π (by rwa [← hsim]) keys hmeas hlaw hind
  rw [← hsim] at hdl
  have hA : ∀ t : Fin T, _ := fun t => slln_cond P π[|sim] data hd hdl ok hok' hpo (err t) (herr' t t.2).1 (hmono ((herr' t t.2).2.integrable one_le_two))
  have hB : ∀ t : Fin T, _ := fun t => slln_cond P π[|sim] data hd hdl ok hok' hpo (fun d => err t d ^ 2) ((herr' t t.2).1.pow_const 2)
    (hmono (herr' t t.2).2.integrable_sq)
  rw [hcc] at hA hB
  filter_upwards [hend, ae_all_iff.2 hA, ae_all_iff.2 hB] with ω h1 h2 h3
  obtain ⟨e, he⟩ : ∃ e : ℕ → List (Fin 2 → Option ℝ), e = fun k => absDiff (data ω k).1 (momentFilter (data ω k).2) := ⟨_, rfl⟩
  have helen : ∀ k, (e k).length = T := fun k => by
    obtain ⟨key, hk⟩ := hkey ω k
    rw [he]
    simp only [hk]
    exact hlen ω key
  have hmem : ∀ k, data ω k ∈ ok ↔ ¬ hasNan (e k) := fun k => by rw [hok, he]; rfl
  have htot : ∀ k t, err t (data ω k) = totErr (e k) t := fun k t => by rw [herr, he]
  simp only [htot] at h2 h3
  have h0 := (h2 ⟨0, hT⟩).1
  have hc : 0 < π[|sim].real ok := by
    rw [Measure.real, ENNReal.toReal_pos_iff]
    exact ⟨pos_iff_ne_zero.2 hpo, measure_lt_top _ _⟩
  obtain ⟨k1, v, m, s, k2, k3, k4, k5⟩ := stats_limit e T hT helen (fun n => (Finset.range n).filter fun k => data ω k ∈ ok)
    (fun n k => by rw [Finset.mem_filter, Finset.mem_range, hmem]) _ hc h0 (fun t => ∫ d, err t d ∂π[|sim ∩ ok]) (fun t => ∫ d, err t d ^ 2 ∂π[|sim ∩ ok])
    (fun t ht => (h2 ⟨t, ht⟩).2) (fun t ht => (h3 ⟨t, ht⟩).2)
  refine ⟨e, fun n k hk => ?_, ?_, v, m, s, k2, k3, fun M hM => ⟨hM ▸ k4, ?_⟩⟩
  · obtain ⟨key, hkk⟩ := h1 k
    have : ((List.range n).map keys)[k]? = some (keys k) := by simp [hk]
    rw [preyMfRun, this, Option.bind_some, hkk, Option.map_some, he]
  · rwa [probReal_compl_eq_one_sub hok']
  · rw [← hM] at k5
    convert k5 using 3
    have e1 : ∀ t ∈ Finset.range T, ∫ d, (err t d - M) ^ 2 ∂π[|sim ∩ ok] = ∫ d, err t d ^ 2 ∂π[|sim ∩ ok] - 2 * M * ∫ d, err t d ∂π[|sim ∩ ok] + M ^ 2 := fun t ht => by
      have i1 := hmono2 (herr' t (Finset.mem_range.1 ht)).2.integrable_sq
      have i2 := hmono2 ((herr' t (Finset.mem_range.1 ht)).2.integrable one_le_two)
      have e2 : ∀ d, (err t d - M) ^ 2 = err t d ^ 2 - 2 * M * err t d + M ^ 2 := fun d => by ring
      simp only [e2]
      have i3 : Integrable (fun d => err t d ^ 2 - 2 * M * err t d) π[|sim ∩ ok] := i1.sub (i2.const_mul _)
      rw [integral_add i3 (integrable_const _), integral_sub i1 (i2.const_mul _), integral_const_mul]
      simp
    have e3 : ∑ t ∈ Finset.range T, ∫ d, err t d ∂π[|sim ∩ ok] = M * T := by rw [hM]; field_simp
    rw [Finset.sum_congr rfl e1, Finset.sum_add_distrib, Finset.sum_sub_distrib, ← Finset.mul_sum, e3, Finset.sum_const, Finset.card_range, nsmul_eq_mul]
    field_simp
    ring

/-- simulated data of one time step: a NaN if the draw is negative. -/
noncomputable def signData (x : ℝ) : Data := if x < 0 then ([fun _ => none], [true]) else ([fun _ => some 1], [false])

/-- the hypotheses hold for a simulation that fails with probability one half. -/
example : ∃ (_ : MeasurableSpace Data) (π : Measure Data), IsProbabilityMeasure π ∧ π ({d | ¬ hasNan d.1} ∩ {d | ¬ hasNan (absDiff d.1 [fun _ => some 0])}) ≠ 0 ∧
    ∀ᵐ ω ∂(infinitePi fun _ : ℕ × ℕ => gaussianReal 0 1), ∃ e : ℕ → List (Fin 2 → Option ℝ),
      (∀ n k, k < n → preyMfRun attemptGen (fun key => signData (ω key)) (fun _ => [fun _ => some 0]) ((List.range n).map fun k => (k, 0)) k = some (e k)) ∧
      Tendsto (fun n : ℕ => (divergences ((List.range n).map e) : ℝ) / n) atTop (𝓝 (π[|{d | ¬ hasNan d.1}].real {d | ¬ hasNan (absDiff d.1 [fun _ => some 0])}ᶜ)) := by
  let ms : MeasurableSpace Data := ⊤
  have hf : Measurable signData := Measurable.ite measurableSet_Iio measurable_const measurable_const
  have hp : IsProbabilityMeasure ((gaussianReal 0 1).map signData) := Measure.isProbabilityMeasure_map hf.aemeasurable
  have hpos : (gaussianReal 0 1).map signData ({d | ¬ hasNan d.1} ∩ {d | ¬ hasNan (absDiff d.1 [fun _ => some 0])}) ≠ 0 := by
    rw [Measure.map_apply hf trivial]
    intro h0
    have hs : Set.Ici (0 : ℝ) ⊆ signData ⁻¹' ({d | ¬ hasNan d.1} ∩ {d | ¬ hasNan (absDiff d.1 [fun _ => some 0])}) := fun x hx => by
      have hx' : ¬ x < 0 := not_lt.2 hx
      simp [signData, hx', hasNan, absDiff]
    have := (gaussianReal_absolutelyContinuous' 0 one_ne_zero) (measure_mono_null hs h0)
    simp at this
  refine ⟨ms, (gaussianReal 0 1).map signData, hp, hpos, ?_⟩
  have key := C196_limit (infinitePi fun _ : ℕ × ℕ => gaussianReal 0 1) attemptGen (fun ω key => signData (ω key)) (fun _ => [fun _ => some 0])
    ((gaussianReal 0 1).map signData) (fun k => (k, 0)) 1 one_pos (fun ω key => ?_) (fun k j => hf.comp (measurable_pi_apply _)) (fun k j => ?_) ?_ _ _ rfl rfl
    trivial trivial hpos (fun t d => totErr (absDiff d.1 [fun _ => some 0]) t) (fun t d => rfl) (fun t _ => ⟨fun _ _ => trivial, ?_⟩)
  · filter_upwards [key] with ω hω
    obtain ⟨e, h1, h2, -⟩ := hω
    exact ⟨e, h1, h2⟩
  · simp only [signData]
    split_ifs <;> simp [absDiff]
  · have := infinitePi_map_eval (fun _ : ℕ × ℕ => gaussianReal 0 1) (attemptGen.fst^[j] (k, 0))
    conv_rhs => rw [← this]
    rw [Measure.map_map hf (measurable_pi_apply _)]
    rfl
  · simp only [attemptGen_iterate, zero_add]
    exact iIndepFun_infinitePi (X := fun (_ : ℕ × ℕ) x => signData x) fun _ => hf
  · rw [memLp_map_measure_iff (Measurable.aestronglyMeasurable (f := fun d : Data => totErr (absDiff d.1 [fun _ => some 0]) t) fun _ _ => trivial) hf.aemeasurable]
    refine MemLp.of_bound ((Measurable.aestronglyMeasurable (f := fun d : Data => totErr (absDiff d.1 [fun _ => some 0]) t) fun _ _ => trivial).comp_measurable hf) 2
      (Filter.Eventually.of_forall fun x => ?_)
    rcases t with _ | t
    · by_cases hx : x < 0
      · simp [signData, hx, totErr, absDiff]
      · simp [signData, hx, totErr, absDiff]; norm_num
    · simp [totErr, absDiff]

/-! ### Comparing two filters -/

/-- **C196 (comparison).** If two filters have a NaN in the same runs and the summed error of the first is not larger in any other run, its curve is not
above that of the second. -/
theorem C196_comparison (a b : ℕ → List (Fin 2 → Option ℝ)) (n T t : ℕ) (ht : t < T) (ha : ∀ k, (a k).length = T) (hb : ∀ k, (b k).length = T)
    (hab : ∀ k < n, hasNan (a k) ↔ hasNan (b k)) (hle : ∀ k < n, ¬ hasNan (a k) → totErr (a k) t ≤ totErr (b k) t) (hne : ∃ k < n, ¬ hasNan (a k)) :
    ∃ x y, (curve T ((List.range n).map a))[t]? = some (some x) ∧ (curve T ((List.range n).map b))[t]? = some (some y) ∧ x ≤ y := by
  classical
  have h1 := (C196_statistics a n T (by omega) ha).2.2
  have h2 := (C196_statistics b n T (by omega) hb).2.2
  have hS : (Finset.range n).filter (fun k => ¬ hasNan (b k)) = (Finset.range n).filter (fun k => ¬ hasNan (a k)) :=
    Finset.filter_congr fun k hk => by rw [hab k (Finset.mem_range.1 hk)]
  rw [hS] at h2
  obtain ⟨k, hk, hk2⟩ := hne
  have hn : ((Finset.range n).filter fun k => ¬ hasNan (a k)).Nonempty := ⟨k, Finset.mem_filter.2 ⟨Finset.mem_range.2 hk, hk2⟩⟩
  refine ⟨_, _, (h1 hn _ _ (fun _ => rfl) rfl).1 t ht, (h2 hn _ _ (fun _ => rfl) rfl).1 t ht, ?_⟩
  refine div_le_div_of_nonneg_right (Finset.sum_le_sum fun k hk => ?_) (Nat.cast_nonneg _)
  obtain ⟨h3, h4⟩ := Finset.mem_filter.1 hk
  exact hle k (Finset.mem_range.1 h3) h4

/-- the errors of two runs of one step. -/
noncomputable def twoRuns (x : ℝ) (y : Option ℝ) (k : ℕ) : List (Fin 2 → Option ℝ) := [fun _ => if k = 0 then some x else y]

/-- **C196 (comparison, refuted).** The first filter has no NaN and is better in every run in which the second has none, but its curve is above that of the second,
which fails in the difficult run. -/
theorem C196_comparison_refuted : ∃ (a b : ℕ → List (Fin 2 → Option ℝ)) (n : ℕ), (∀ k, (a k).length = 1 ∧ (b k).length = 1) ∧ (∀ k < n, ¬ hasNan (a k)) ∧
    (∃ k < n, ¬ hasNan (b k)) ∧ (∀ k < n, ¬ hasNan (b k) → totErr (a k) 0 < totErr (b k) 0) ∧
    ∃ x y, (curve 1 ((List.range n).map a))[0]? = some (some x) ∧ (curve 1 ((List.range n).map b))[0]? = some (some y) ∧ y < x := by
  classical
  have ha : ∀ k, ¬ hasNan (twoRuns 1 (some 9) k) := fun k => by
    by_cases hk : k = 0 <;> simp [twoRuns, hasNan, hk]
  have hb : ∀ k, hasNan (twoRuns 2 none k) ↔ k ≠ 0 := fun k => by
    by_cases hk : k = 0 <;> simp [twoRuns, hasNan, hk]
  refine ⟨twoRuns 1 (some 9), twoRuns 2 none, 2, fun k => ⟨rfl, rfl⟩, fun k _ => ha k, ⟨0, by omega, by simp [hb]⟩, fun k _ hk => ?_, 10, 4, ?_, ?_, by norm_num⟩
  · obtain rfl : k = 0 := by simpa [hb] using hk
    simp [totErr, twoRuns]
    norm_num
  · have := (C196_statistics (twoRuns 1 (some 9)) 2 1 one_pos fun _ => rfl).2.2
    rw [Finset.filter_true_of_mem fun k _ => ha k] at this
    rw [(this ⟨0, by simp⟩ _ _ (fun _ => rfl) rfl).1 0 one_pos]
    simp [Finset.sum_range_succ, totErr, twoRuns]
    norm_num
  · have := (C196_statistics (twoRuns 2 none) 2 1 one_pos fun _ => rfl).2.2
    have hS : ∀ [DecidablePred fun k => ¬ hasNan (twoRuns 2 none k)], (Finset.range 2).filter (fun k => ¬ hasNan (twoRuns 2 none k)) = {0} := by
      intro _
      ext k
      simp only [Finset.mem_filter, Finset.mem_range, hb, not_not, Finset.mem_singleton]
      omega
    rw [hS] at this
    rw [(this ⟨0, by simp⟩ _ _ (fun _ => rfl) rfl).1 0 one_pos]
    simp [totErr, twoRuns]
    norm_num

/-- two runs with the summed errors 2 and 18: the mean 10 and the deviation 8 are printed. -/
example : printed ((List.range 2).map (twoRuns 1 (some 9))) = (some 10, some 8) := by
  classical
  have ha : ∀ k, ¬ hasNan (twoRuns 1 (some 9) k) := fun k => by
    by_cases hk : k = 0 <;> simp [twoRuns, hasNan, hk]
  have := (C196_statistics (twoRuns 1 (some 9)) 2 1 one_pos fun _ => rfl).2.2
  rw [Finset.filter_true_of_mem fun k _ => ha k] at this
  have h10 : (10 : ℝ) = (∑ k ∈ Finset.range 2, totErr (twoRuns 1 (some 9) k) 0) / (Finset.range 2).card := by
    simp [Finset.sum_range_succ, totErr, twoRuns]
    norm_num
  rw [(this ⟨0, by simp⟩ (fun t => (∑ k ∈ Finset.range 2, totErr (twoRuns 1 (some 9) k) t) / (Finset.range 2).card) 10 (fun _ => rfl) (by simpa using h10)).2]
  have e : ((∑ t ∈ Finset.range 1, ((∑ k ∈ Finset.range 2, totErr (twoRuns 1 (some 9) k) t) / ((Finset.range 2).card : ℝ) - 10) ^ 2) / ((1 : ℕ) : ℝ)
      + (∑ t ∈ Finset.range 1, (∑ k ∈ Finset.range 2, (totErr (twoRuns 1 (some 9) k) t - (∑ k ∈ Finset.range 2, totErr (twoRuns 1 (some 9) k) t) / ((Finset.range 2).card : ℝ)) ^ 2)
        / ((Finset.range 2).card : ℝ)) / ((1 : ℕ) : ℝ)) = 8 ^ 2 := by
    rw [Finset.sum_range_one, Finset.sum_range_one, ← h10]
    simp [Finset.sum_range_succ, totErr, twoRuns]
    norm_num
  rw [e, Real.sqrt_sq (by norm_num)]

/-- two filters that fail in the same run. -/
example : ∃ x y, (curve 1 ((List.range 2).map (twoRuns 1 none)))[0]? = some (some x) ∧ (curve 1 ((List.range 2).map (twoRuns 2 none)))[0]? = some (some y) ∧ x ≤ y := by
  have h : ∀ z k, hasNan (twoRuns z none k) ↔ k ≠ 0 := fun z k => by
    by_cases hk : k = 0 <;> simp [twoRuns, hasNan, hk]
  refine C196_comparison _ _ 2 1 0 one_pos (fun _ => rfl) (fun _ => rfl) (fun k _ => by rw [h, h]) (fun k _ hk => ?_) ⟨0, by omega, by simp [h]⟩
  obtain rfl : k = 0 := by simpa [h] using hk
  simp [totErr, twoRuns]
  norm_num

end Mfs.Props

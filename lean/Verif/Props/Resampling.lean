import Verif.Lemmas.Interp
import Mathlib.MeasureTheory.Integral.IntervalIntegral.Basic
import Mathlib.MeasureTheory.Integral.Pi
import Mathlib.MeasureTheory.Measure.Haar.OfBasis

/-!
# C76–C79, C90: resampling
-/

namespace Mfs.Props

open Mfs.Resampling MeasureTheory

variable {ss : List ℝ → ℝ → ℕ}

/-- the contract on `jnp.searchsorted` can be met. -/
theorem searchSorted_exists : ∃ ss : List ℝ → ℝ → ℕ, SearchSorted ss :=
  ⟨fun a v => a.countP fun x => decide (x < v), fun _ _ _ => rfl⟩

/-! ## C76 -/

/-- **C76 (range).** All schemes return `n` indices in `[0, n - 1]`, whatever the weights, the draws and `searchsorted` give. -/
theorem C76_in_range (ss : List ℝ → ℝ → ℕ) (w : List ℝ) (u : ℝ) (us : ℕ → ℝ) (vs : List ℝ) (hvs : vs.length = w.length + 1) :
    ((systematic ss w u).length = w.length ∧ ∀ i ∈ systematic ss w u, i < w.length) ∧
    ((stratified ss w us).length = w.length ∧ ∀ i ∈ stratified ss w us, i < w.length) ∧
    ((multinomial ss w vs).length = w.length ∧ ∀ i ∈ multinomial ss w vs, i < w.length) := by
  have h : ∀ us : ℕ → ℝ, (systematicOrStratified ss w us).length = w.length ∧ ∀ i ∈ systematicOrStratified ss w us, i < w.length := by
    intro us
    refine ⟨by simp [systematicOrStratified], ?_⟩
    intro i hi
    obtain ⟨k, hk, rfl⟩ := List.mem_map.1 hi
    have := List.mem_range.1 hk
    omega
  refine ⟨h _, h _, ?_, ?_⟩
  · simp [multinomial, sortedUniforms, hvs]
  · intro i hi
    obtain ⟨v, hv, rfl⟩ := List.mem_map.1 hi
    have : 0 < (sortedUniforms vs).length := List.length_pos_of_mem hv
    have h2 : (sortedUniforms vs).length = w.length := by simp [sortedUniforms, hvs]
    omega

theorem sortedUniforms_spec (vs : List ℝ) (hvs : ∀ v ∈ vs, 0 < v ∧ v < 1) :
    (sortedUniforms vs).Pairwise (· ≤ ·) ∧ ∀ v ∈ sortedUniforms vs, 0 < v ∧ v ≤ 1 := by
  set es := vs.map fun u => -Real.log u with hes
  have hpos : ∀ e ∈ es, 0 < e := by
    intro e he
    obtain ⟨v, hv, rfl⟩ := List.mem_map.1 he
    linarith [Real.log_neg (hvs v hv).1 (hvs v hv).2]
  have hnn : ∀ e ∈ es, 0 ≤ e := fun e he => (hpos e he).le
  have hsorted := cumsum_sorted es hnn
  have hlast : (cumsum es).getLastD 0 = es.sum := by
    rw [cumsum_eq]
    rcases Nat.eq_zero_or_pos es.length with h | h
    · rw [List.length_eq_zero_iff.1 h]; rfl
    · obtain ⟨n, hn⟩ : ∃ n, es.length = n + 1 := ⟨es.length - 1, by omega⟩
      rw [hn, List.range_succ, List.map_append, List.map_singleton, List.getLastD_concat, ← hn, S_length]
  have hsum : 0 ≤ es.sum := List.sum_nonneg hnn
  have hval : sortedUniforms vs = (cumsum es).dropLast.map fun x => x / es.sum := by
    show ((cumsum es).dropLast.map fun x => x / (cumsum es).getLastD 0) = _
    rw [hlast]
  rw [hval]
  refine ⟨?_, ?_⟩
  · rw [List.pairwise_map]
    exact (hsorted.sublist (List.dropLast_sublist _)).imp fun h => div_le_div_of_nonneg_right h hsum
  · intro v hv
    obtain ⟨c, hc, rfl⟩ := List.mem_map.1 hv
    have hc' := List.mem_of_mem_dropLast hc
    rw [cumsum_eq] at hc'
    obtain ⟨j, hj, rfl⟩ := List.mem_map.1 hc'
    have hj' := List.mem_range.1 hj
    have h0 : 0 < es.getD 0 0 := by
      rw [List.getD_eq_getElem _ _ (by omega)]; exact hpos _ (List.getElem_mem _)
    have h1 : 0 < S es (j + 1) := lt_of_lt_of_le (by rw [S_succ, S_zero, zero_add]; exact h0) (S_mono es hnn (by omega : 0 + 1 ≤ j + 1))
    have h2 : S es (j + 1) ≤ es.sum := by rw [← S_length]; exact S_mono es hnn (by omega)
    exact ⟨div_pos h1 (lt_of_lt_of_le h1 h2), (div_le_one (lt_of_lt_of_le h1 h2)).2 h2⟩

/-- **C76 (order).** For non-negative weights the indices are sorted. -/
theorem C76_sorted (hss : SearchSorted ss) (w : List ℝ) (hw : ∀ a ∈ w, 0 ≤ a) (u : ℝ) (us : ℕ → ℝ) (hus : ∀ k, 0 ≤ us k ∧ us k < 1)
    (vs : List ℝ) (hvs : ∀ v ∈ vs, 0 < v ∧ v < 1) :
    (systematic ss w u).Pairwise (· ≤ ·) ∧ (stratified ss w us).Pairwise (· ≤ ·) ∧ (multinomial ss w vs).Pairwise (· ≤ ·) := by
  have h : ∀ us : ℕ → ℝ, (∀ i j : ℕ, i < j → i + us i ≤ j + us j) → (systematicOrStratified ss w us).Pairwise (· ≤ ·) := by
    intro us hus
    rw [systematicOrStratified, List.pairwise_map]
    refine List.pairwise_lt_range.imp fun {a b} hab => ?_
    have := ss_cumsum_mono hss w hw (div_le_div_of_nonneg_right (hus a b hab) (Nat.cast_nonneg w.length))
    omega
  refine ⟨h _ ?_, h _ ?_, ?_⟩
  · intro i j hij
    have : (i : ℝ) ≤ j := by exact_mod_cast hij.le
    linarith
  · intro i j hij
    have : (i : ℝ) + 1 ≤ j := by exact_mod_cast hij
    linarith [(hus i).2, (hus j).1]
  · rw [multinomial, List.pairwise_map]
    refine (sortedUniforms_spec vs hvs).1.imp fun {a b} hab => ?_
    have := ss_cumsum_mono hss w hw hab
    omega

example : (∀ a ∈ ([0.2, 0, 0.8] : List ℝ), 0 ≤ a) ∧ (∀ v ∈ ([0.5, 0.1, 0.9, 0.3] : List ℝ), 0 < v ∧ v < 1) := by
  constructor <;> intro a ha <;> simp only [List.mem_cons, List.not_mem_nil, or_false] at ha
  · rcases ha with rfl | rfl | rfl <;> norm_num
  · rcases ha with rfl | rfl | rfl | rfl <;> norm_num

/-! ## C77 -/

/-- **C77 for offsets `0 < u < 1`.** Each particle is selected `⌊n w_i⌋` or `⌈n w_i⌉` times. The offset `u = 0`, which
`jax.random.uniform` may draw, is missing: see `C77_systematic_refuted`. -/
theorem C77_systematic_partial (hss : SearchSorted ss) (w : List ℝ) (hw : ∀ a ∈ w, 0 ≤ a) (hsum : w.sum = 1) (u : ℝ)
    (hu : 0 < u) (hu1 : u < 1) (i : ℕ) (hi : i < w.length) :
    ((systematic ss w u).count i : ℤ) = ⌊(w.length : ℝ) * w[i]⌋ ∨ ((systematic ss w u).count i : ℤ) = ⌈(w.length : ℝ) * w[i]⌉ := by
  have hn : (0 : ℝ) < w.length := by exact_mod_cast (by omega : 0 < w.length)
  set a := w.length * S w i - u with ha
  set b := w.length * S w (i + 1) - u with hb
  have hS0 := S_nonneg w hw i
  have hS1 := S_mono w hw (Nat.le_succ i)
  have hSn : S w (i + 1) ≤ 1 := by rw [← hsum, ← S_length]; exact S_mono w hw (by omega)
  have hba : b = a + w.length * w[i] := by
    rw [hb, S_succ, List.getD_eq_getElem _ _ hi, ha]; ring
  have hwi : 0 ≤ (w.length : ℝ) * w[i] := mul_nonneg hn.le (hw _ (List.getElem_mem hi))
  have hcount : (systematic ss w u).count i = (List.range w.length).countP fun k : ℕ => decide (a < (k : ℝ) ∧ (k : ℝ) ≤ b) := by
    rw [systematic, systematic_count hss w hw hsum _ (fun _ _ => ⟨hu.le, hu1⟩) i hi]
    refine List.countP_congr fun k _ => ?_
    simp only [decide_eq_true_eq]
    refine and_congr ?_ ?_
    · constructor
      · rintro (h | h)
        · have hk : (0 : ℝ) ≤ k := Nat.cast_nonneg k
          have : S w i = 0 := by rw [h, S_zero]
          rw [ha, this]; linarith
        · linarith
      · intro h; right; linarith
    · constructor <;> intro h <;> linarith
  have hi2 := count_Ioc w.length a b (by linarith)
  have m0 : 0 ≤ (w.length : ℝ) * S w i := mul_nonneg hn.le hS0
  have m1 : (w.length : ℝ) * S w (i + 1) ≤ w.length := by simpa using mul_le_mul_of_nonneg_left hSn hn.le
  have c1 := count_le w.length a (by linarith) (by linarith)
  have c2 := count_le w.length b (by linarith) (by linarith)
  have hc : ((systematic ss w u).count i : ℤ) = ⌊b⌋ - ⌊a⌋ := by rw [hcount]; omega
  have f1 : ⌊a⌋ + ⌊(w.length : ℝ) * w[i]⌋ ≤ ⌊b⌋ := by rw [hba]; exact Int.le_floor_add _ _
  have f2 : ⌊b⌋ ≤ ⌊a⌋ + ⌈(w.length : ℝ) * w[i]⌉ := by
    rw [← Int.floor_add_intCast, hba]
    exact Int.floor_le_floor (by linarith [Int.le_ceil ((w.length : ℝ) * w[i])])
  have f3 := Int.ceil_le_floor_add_one ((w.length : ℝ) * w[i])
  omega

/-- **C77 for every offset `0 ≤ u < 1`:** within one of `n w_i`. -/
theorem C77_systematic_within_one (hss : SearchSorted ss) (w : List ℝ) (hw : ∀ a ∈ w, 0 ≤ a) (hsum : w.sum = 1) (u : ℝ)
    (hu : 0 ≤ u) (hu1 : u < 1) (i : ℕ) (hi : i < w.length) :
    |((systematic ss w u).count i : ℝ) - w.length * w[i]| ≤ 1 := by
  have hn : (0 : ℝ) < w.length := by exact_mod_cast (by omega : 0 < w.length)
  set a := w.length * S w i - u with ha
  set b := w.length * S w (i + 1) - u with hb
  have hS0 := S_nonneg w hw i
  have hS1 := S_mono w hw (Nat.le_succ i)
  have hSn : S w (i + 1) ≤ 1 := by rw [← hsum, ← S_length]; exact S_mono w hw (by omega)
  have hba : b = a + w.length * w[i] := by
    rw [hb, S_succ, List.getD_eq_getElem _ _ hi, ha]; ring
  have hwi : 0 ≤ (w.length : ℝ) * w[i] := mul_nonneg hn.le (hw _ (List.getElem_mem hi))
  have m0 : 0 ≤ (w.length : ℝ) * S w i := mul_nonneg hn.le hS0
  have m1 : (w.length : ℝ) * S w (i + 1) ≤ w.length := by simpa using mul_le_mul_of_nonneg_left hSn hn.le
  have c1 := count_le_bounds w.length a (by linarith) (by linarith)
  have c2 := count_le_bounds w.length b (by linarith) (by linarith)
  have hi2 := count_Ioc w.length a b (by linarith)
  have hcnt := systematic_count hss w hw hsum _ (fun _ _ => ⟨hu, hu1⟩ : ∀ k < w.length, 0 ≤ (fun _ => u) k ∧ (fun _ => u) k < 1) i hi
  rw [systematic, hcnt, abs_le]
  rcases Nat.eq_zero_or_pos i with h0 | hpos
  · have : ((List.range w.length).countP fun (k : ℕ) =>
        decide ((i = 0 ∨ w.length * S w i < k + u) ∧ (k : ℝ) + u ≤ w.length * S w (i + 1)))
          = (List.range w.length).countP fun k : ℕ => decide ((k : ℝ) ≤ b) := by
      refine List.countP_congr fun k _ => ?_
      simp only [decide_eq_true_eq]
      constructor
      · rintro ⟨-, h⟩; linarith
      · intro h; exact ⟨Or.inl h0, by linarith⟩
    rw [this]
    have hSi : S w i = 0 := by rw [h0, S_zero]
    have : a = -u := by rw [ha, hSi]; ring
    constructor <;> linarith
  · have : ((List.range w.length).countP fun (k : ℕ) =>
        decide ((i = 0 ∨ w.length * S w i < k + u) ∧ (k : ℝ) + u ≤ w.length * S w (i + 1)))
          = (List.range w.length).countP fun k : ℕ => decide (a < (k : ℝ) ∧ (k : ℝ) ≤ b) := by
      refine List.countP_congr fun k _ => ?_
      simp only [decide_eq_true_eq]
      constructor
      · rintro ⟨h, h'⟩; exact ⟨by linarith [h.resolve_left (by omega)], by linarith⟩
      · rintro ⟨h, h'⟩; exact ⟨Or.inr (by linarith), by linarith⟩
    rw [this]
    have h3 : ((List.range w.length).countP (fun k : ℕ => decide (a < (k : ℝ) ∧ (k : ℝ) ≤ b)) : ℝ)
        + ((List.range w.length).countP (fun k : ℕ => decide ((k : ℝ) ≤ a)) : ℝ)
        = ((List.range w.length).countP fun k : ℕ => decide ((k : ℝ) ≤ b) : ℝ) := by exact_mod_cast hi2
    constructor <;> linarith

theorem half_half_spec (hss : SearchSorted ss) : systematic ss [1 / 2, 1 / 2] 0 = [0, 0] := by
  have hs : cumsum [1 / 2, 1 / 2] = [1 / 2, 1] := by
    simp only [cumsum, List.length_cons, List.length_nil, Nat.zero_add, Nat.reduceAdd, List.range_succ, List.range_zero]
    norm_num
  have hp : ([1 / 2, 1] : List ℝ).Pairwise (· ≤ ·) := by norm_num
  simp only [systematic, systematicOrStratified, hs, hss _ hp, List.length_cons, List.length_nil, Nat.zero_add, Nat.reduceAdd,
    List.range_succ, List.range_zero]
  norm_num

/-- **C77 fails at `u = 0`.** With two equal weights and offset 0 particle 0 is selected twice and particle 1 never, although
`n w_i = 1` is an integer. -/
theorem C77_systematic_refuted (hss : SearchSorted ss) :
    ¬ ∀ (w : List ℝ) (u : ℝ), (∀ a ∈ w, 0 ≤ a) → w.sum = 1 → 0 ≤ u → u < 1 → ∀ (i : ℕ) (hi : i < w.length),
      ((systematic ss w u).count i : ℤ) = ⌊(w.length : ℝ) * w[i]⌋ ∨ ((systematic ss w u).count i : ℤ) = ⌈(w.length : ℝ) * w[i]⌉ := by
  intro h
  have := h [1 / 2, 1 / 2] 0 (by intro a ha; simp only [List.mem_cons, List.not_mem_nil, or_false, or_self] at ha; rw [ha]; norm_num)
    (by norm_num) le_rfl one_pos 1 (by simp)
  rw [half_half_spec hss] at this
  norm_num at this

/-! ## C78 -/

/-- **C78 when the first draw is positive.** A particle of weight zero is never an ancestor. The draw `u 0 = 0`, which
`jax.random.uniform` may return, is missing: see `C78_zero_weight_refuted`. For `multinomial` all `n + 1` draws must be positive
(the logarithm of a zero draw is infinite). -/
theorem C78_zero_weight_partial (hss : SearchSorted ss) (w : List ℝ) (hw : ∀ a ∈ w, 0 ≤ a) (hsum : w.sum = 1)
    (u : ℝ) (hu : 0 < u ∧ u < 1) (us : ℕ → ℝ) (hus0 : 0 < us 0) (hus : ∀ k, 0 ≤ us k ∧ us k < 1)
    (vs : List ℝ) (hvs : ∀ v ∈ vs, 0 < v ∧ v < 1) (i : ℕ) (hi : i < w.length) (hwi : w[i] = 0) :
    i ∉ systematic ss w u ∧ i ∉ stratified ss w us ∧ i ∉ multinomial ss w vs := by
  have key : ∀ v : ℝ, 0 < v → v ≤ 1 → min (ss (cumsum w) v) (w.length - 1) ≠ i := by
    intro v h0 h1 h
    obtain ⟨h2, h3⟩ := (clip_ss_eq_iff hss w hw v (hsum ▸ h1) i hi).1 h
    have hS : S w (i + 1) = S w i := by rw [S_succ, List.getD_eq_getElem _ _ hi, hwi, add_zero]
    rcases h2 with h2 | h2
    · rw [hS, h2, S_zero] at h3; linarith
    · linarith
  have h : ∀ us : ℕ → ℝ, 0 < us 0 → (∀ k, 0 ≤ us k ∧ us k < 1) → i ∉ systematicOrStratified ss w us := by
    intro us h0 hus hmem
    obtain ⟨k, hk, he⟩ := List.mem_map.1 hmem
    have hn : (0 : ℝ) < w.length := by exact_mod_cast (by omega : 0 < w.length)
    have hk' : (k : ℝ) + 1 ≤ w.length := by exact_mod_cast List.mem_range.1 hk
    refine key _ (div_pos ?_ hn) ((div_le_one hn).2 (by linarith [(hus k).2])) he
    rcases Nat.eq_zero_or_pos k with rfl | hp
    · simpa using h0
    · have : (0 : ℝ) < k := by exact_mod_cast hp
      linarith [(hus k).1]
  refine ⟨h _ hu.1 fun _ => ⟨hu.1.le, hu.2⟩, h _ hus0 hus, fun hmem => ?_⟩
  obtain ⟨v, hv, he⟩ := List.mem_map.1 hmem
  have := (sortedUniforms_spec vs hvs).2 v hv
  exact key v this.1 this.2 he

/-- **C78 fails when the draw is 0.** With weights `[0, 1]` and offset 0 the particle of weight zero is selected. -/
theorem C78_zero_weight_refuted (hss : SearchSorted ss) :
    ∃ (w : List ℝ) (u : ℝ) (h0 : 0 < w.length), (∀ a ∈ w, 0 ≤ a) ∧ w.sum = 1 ∧ 0 ≤ u ∧ u < 1 ∧ w[0] = 0 ∧
      0 ∈ systematic ss w u ∧ 0 ∈ stratified ss w fun _ => u := by
  have hs : cumsum [0, 1] = [0, 1] := by
    simp only [cumsum, List.length_cons, List.length_nil, Nat.zero_add, Nat.reduceAdd, List.range_succ, List.range_zero]
    norm_num
  have hp : ([0, 1] : List ℝ).Pairwise (· ≤ ·) := by norm_num
  have hmem : 0 ∈ systematicOrStratified ss [0, 1] fun _ => 0 := by
    simp only [systematicOrStratified, hs, hss _ hp, List.length_cons, List.length_nil, Nat.zero_add, Nat.reduceAdd,
      List.range_succ, List.range_zero]
    norm_num
  refine ⟨[0, 1], 0, by simp, ?_, by norm_num, le_rfl, one_pos, rfl, hmem, hmem⟩
  intro a ha
  simp only [List.mem_cons, List.not_mem_nil, or_false] at ha
  rcases ha with rfl | rfl <;> norm_num

/-! ## C79 -/

/-- **C79.** `continuous_resampling` returns `nsamples` sorted values between the smallest and the largest sample. -/
theorem C79_continuous (eps : ℝ) (heps : 0 ≤ eps) (samples weights : List ℝ) (hne : samples ≠ [])
    (hw : ∀ a ∈ weights, 0 ≤ a) (m : ℕ) (u : ℕ → ℝ) (hu : ∀ k, 0 ≤ u k ∧ u k < 1) :
    (continuousResampling eps samples weights m u).length = m ∧ (continuousResampling eps samples weights m u).Pairwise (· ≤ ·) ∧
      ∀ y ∈ continuousResampling eps samples weights m u, (∃ s ∈ samples, s ≤ y) ∧ ∃ s ∈ samples, y ≤ s := by
  set idx := argsort samples with hidx
  set xs := idx.map fun i => samples.getD i 0 with hxs
  set ws := idx.map fun i => weights.getD i 0 with hws
  set cs := (cumsum (avgNNplusone ws)).dropLast with hcs
  have hidxl : idx.length = samples.length := by rw [(argsort_perm samples).length_eq, List.length_range]
  have hcl : cs.length = samples.length := by rw [hcs, List.length_dropLast, cumsum_length, avg_length, hws, List.length_map, hidxl]; omega
  have hxl : xs.length = cs.length := by rw [hxs, List.length_map, hidxl, hcl]
  have h0 : 0 < cs.length := by rw [hcl]; exact List.length_pos_iff.2 hne
  have hws0 : ∀ a ∈ ws, 0 ≤ a := by
    intro a ha
    obtain ⟨i, -, rfl⟩ := List.mem_map.1 ha
    exact getD_nonneg weights hw i
  have hcsort : cs.Pairwise (· ≤ ·) := (cumsum_sorted _ (avg_nonneg ws hws0)).sublist (List.dropLast_sublist _)
  have hxsort : xs.Pairwise (· ≤ ·) := argsort_map_sorted samples
  have hmem : ∀ j < cs.length, xs.getD j 0 ∈ samples := by
    intro j hj
    rw [List.getD_eq_getElem _ _ (by omega)]
    exact (argsort_map_perm samples).mem_iff.1 (List.getElem_mem _)
  refine ⟨by simp [continuousResampling], ?_, ?_⟩
  · rw [continuousResampling, List.pairwise_map]
    refine List.pairwise_lt_range.imp fun {a b} hab => ?_
    refine interp_mono heps hxl hcsort hxsort h0 (div_le_div_of_nonneg_right ?_ (Nat.cast_nonneg m))
    have : (a : ℝ) + 1 ≤ b := by exact_mod_cast hab
    linarith [(hu a).2, (hu b).1]
  · intro y hy
    obtain ⟨k, -, rfl⟩ := List.mem_map.1 hy
    have := interp_mem heps hxl hcsort hxsort h0 ((u k + (k : ℝ)) / m)
    exact ⟨⟨_, hmem 0 h0, this.1⟩, ⟨_, hmem (cs.length - 1) (by omega), this.2⟩⟩

/-! ## C90 -/

theorem stratum_integral (n : ℕ) (a b : ℝ) (ha : 0 ≤ a) (hab : a ≤ b) (hb : b ≤ n) :
    ∑ k ∈ Finset.range n, ∫ u in Set.Ico (0 : ℝ) 1, (if a < (k : ℝ) + u ∧ (k : ℝ) + u ≤ b then (1 : ℝ) else 0) = b - a := by
  have hint : ∀ x y : ℝ, IntervalIntegrable (fun t => (Set.Ioc a b).indicator (fun _ => (1 : ℝ)) t) volume x y := by
    intro x y
    exact ((integrable_indicator_iff measurableSet_Ioc).2 (integrableOn_const measure_Ioc_lt_top.ne)).intervalIntegrable
  have h1 : ∀ k : ℕ, ∫ u in Set.Ico (0 : ℝ) 1, (if a < (k : ℝ) + u ∧ (k : ℝ) + u ≤ b then (1 : ℝ) else 0)
      = ∫ t in ((k : ℕ) : ℝ)..((k + 1 : ℕ) : ℝ), (Set.Ioc a b).indicator (fun _ => (1 : ℝ)) t := by
    intro k
    rw [integral_Ico_eq_integral_Ioc, ← intervalIntegral.integral_of_le zero_le_one]
    have := intervalIntegral.integral_comp_add_left (a := 0) (b := 1) (fun t => (Set.Ioc a b).indicator (fun _ => (1 : ℝ)) t) (k : ℝ)
    rw [add_zero] at this
    push_cast
    rw [← this]
    simp only [Set.indicator_apply, Set.mem_Ioc]
  rw [Finset.sum_congr rfl fun k _ => h1 k, intervalIntegral.sum_integral_adjacent_intervals fun k _ => hint _ _]
  rw [Nat.cast_zero, intervalIntegral.integral_of_le (Nat.cast_nonneg n), setIntegral_indicator measurableSet_Ioc,
    Set.inter_eq_right.2 (Set.Ioc_subset_Ioc ha hb)]
  simp [hab]

theorem countP_eq_sum (n : ℕ) (p : ℕ → Prop) [DecidablePred p] :
    ((List.range n).countP (fun k => decide (p k)) : ℝ) = ∑ k ∈ Finset.range n, if p k then (1 : ℝ) else 0 := by
  induction n with
  | zero => simp
  | succ n ih =>
    rw [List.range_succ, List.countP_append, List.countP_singleton, Finset.sum_range_succ, ← ih]
    push_cast
    simp only [decide_eq_true_eq]

/-- the count as a sum of indicators. -/
theorem count_eq_sum (hss : SearchSorted ss) (w : List ℝ) (hw : ∀ a ∈ w, 0 ≤ a) (hsum : w.sum = 1) (u : ℕ → ℝ)
    (hu : ∀ k < w.length, 0 < u k ∧ u k < 1) (i : ℕ) (hi : i < w.length) :
    ((systematicOrStratified ss w u).count i : ℝ)
      = ∑ k ∈ Finset.range w.length, if w.length * S w i < (k : ℝ) + u k ∧ (k : ℝ) + u k ≤ w.length * S w (i + 1) then (1 : ℝ) else 0 := by
  rw [systematic_count hss w hw hsum u (fun k hk => ⟨(hu k hk).1.le, (hu k hk).2⟩) i hi]
  rw [List.countP_congr (q := fun k : ℕ => decide (w.length * S w i < (k : ℝ) + u k ∧ (k : ℝ) + u k ≤ w.length * S w (i + 1)))]
  · exact countP_eq_sum _ _
  · intro k hk
    simp only [decide_eq_true_eq]
    refine and_congr ⟨?_, Or.inr⟩ Iff.rfl
    rintro (h | h)
    · subst h
      rw [S_zero, mul_zero]
      have := (hu k (List.mem_range.1 hk)).1
      positivity
    · exact h

theorem stratum_measurable (a b : ℝ) (k : ℕ) : Measurable fun u : ℝ => if a < (k : ℝ) + u ∧ (k : ℝ) + u ≤ b then (1 : ℝ) else 0 :=
  Measurable.ite ((measurableSet_lt measurable_const (measurable_const.add measurable_id)).inter
    (measurableSet_le (measurable_const.add measurable_id) measurable_const)) measurable_const measurable_const

theorem stratum_integrable (μ : Measure ℝ) [IsFiniteMeasure μ] (a b : ℝ) (k : ℕ) :
    Integrable (fun u : ℝ => if a < (k : ℝ) + u ∧ (k : ℝ) + u ≤ b then (1 : ℝ) else 0) μ := by
  refine (integrable_const (1 : ℝ)).mono' (stratum_measurable a b k).aestronglyMeasurable (Filter.Eventually.of_forall fun u => ?_)
  split_ifs <;> simp

theorem stratum_total (w : List ℝ) (hw : ∀ a ∈ w, 0 ≤ a) (hsum : w.sum = 1) (i : ℕ) (hi : i < w.length) :
    ∑ k ∈ Finset.range w.length, ∫ u in Set.Ico (0 : ℝ) 1,
      (if w.length * S w i < (k : ℝ) + u ∧ (k : ℝ) + u ≤ w.length * S w (i + 1) then (1 : ℝ) else 0) = w.length * w[i] := by
  have hn : (0 : ℝ) ≤ w.length := Nat.cast_nonneg _
  have hSn : S w (i + 1) ≤ 1 := by rw [← hsum, ← S_length]; exact S_mono w hw (by omega)
  rw [stratum_integral _ _ _ (mul_nonneg hn (S_nonneg w hw i)) (mul_le_mul_of_nonneg_left (S_mono w hw (Nat.le_succ i)) hn)
    (by simpa using mul_le_mul_of_nonneg_left hSn hn), S_succ, List.getD_eq_getElem _ _ hi]
  ring

/-- **C90 (systematic).** The expected number of copies of particle `i` over a uniform offset is `n w_i`. -/
theorem C90_systematic_unbiased (hss : SearchSorted ss) (w : List ℝ) (hw : ∀ a ∈ w, 0 ≤ a) (hsum : w.sum = 1) (i : ℕ)
    (hi : i < w.length) : ∫ u in Set.Ico (0 : ℝ) 1, ((systematic ss w u).count i : ℝ) = w.length * w[i] := by
  simp only [systematic]
  rw [← stratum_total w hw hsum i hi, integral_Ico_eq_integral_Ioo, setIntegral_congr_fun measurableSet_Ioo
    (g := fun u => ∑ k ∈ Finset.range w.length,
      if w.length * S w i < (k : ℝ) + u ∧ (k : ℝ) + u ≤ w.length * S w (i + 1) then (1 : ℝ) else 0)
    (fun u hu => count_eq_sum hss w hw hsum (fun _ => u) (fun _ _ => hu) i hi),
    integral_finsetSum _ fun k _ => stratum_integrable _ _ _ k]
  simp only [integral_Ico_eq_integral_Ioo]

/-- the draws of `stratified` as a function on the naturals. -/
noncomputable def extend {n : ℕ} (u : Fin n → ℝ) (k : ℕ) : ℝ := if h : k < n then u ⟨k, h⟩ else 0

/-- **C90 (stratified).** The expected number of copies of particle `i` over independent uniform draws is `n w_i`. -/
theorem C90_stratified_unbiased (hss : SearchSorted ss) (w : List ℝ) (hw : ∀ a ∈ w, 0 ≤ a) (hsum : w.sum = 1) (i : ℕ)
    (hi : i < w.length) :
    ∫ u : Fin w.length → ℝ, ((stratified ss w (extend u)).count i : ℝ)
      ∂(Measure.pi fun _ => (volume : Measure ℝ).restrict (Set.Ico 0 1)) = w.length * w[i] := by
  have : IsProbabilityMeasure ((volume : Measure ℝ).restrict (Set.Ico 0 1)) := ⟨by simp⟩
  have hae : ∀ᵐ u : Fin w.length → ℝ ∂(Measure.pi fun _ => (volume : Measure ℝ).restrict (Set.Ico 0 1)),
      ∀ k, 0 < u k ∧ u k < 1 := by
    rw [ae_all_iff]
    intro k
    have h1 : ∀ᵐ x ∂((volume : Measure ℝ).restrict (Set.Ico 0 1)), 0 < x ∧ x < 1 := by
      rw [Measure.restrict_congr_set Ioo_ae_eq_Ico.symm]
      exact ae_restrict_mem measurableSet_Ioo
    exact (Measure.quasiMeasurePreserving_eval (fun _ : Fin w.length => (volume : Measure ℝ).restrict (Set.Ico 0 1)) k).ae h1
  rw [← stratum_total w hw hsum i hi, integral_congr_ae
    (g := fun u => ∑ k : Fin w.length,
      if w.length * S w i < ((k : ℕ) : ℝ) + u k ∧ ((k : ℕ) : ℝ) + u k ≤ w.length * S w (i + 1) then (1 : ℝ) else 0) ?_]
  · have hint : ∀ k ∈ (Finset.univ : Finset (Fin w.length)), Integrable (fun u : Fin w.length → ℝ =>
        if w.length * S w i < ((k : ℕ) : ℝ) + u k ∧ ((k : ℕ) : ℝ) + u k ≤ w.length * S w (i + 1) then (1 : ℝ) else 0)
        (Measure.pi fun _ => (volume : Measure ℝ).restrict (Set.Ico 0 1)) := fun k _ =>
      integrable_comp_eval (μ := fun _ : Fin w.length => (volume : Measure ℝ).restrict (Set.Ico 0 1)) (i := k)
        (stratum_integrable _ (w.length * S w i) (w.length * S w (i + 1)) (k : ℕ))
    rw [integral_finsetSum _ hint, ← Fin.sum_univ_eq_sum_range
      (fun k => ∫ u in Set.Ico (0 : ℝ) 1,
        (if w.length * S w i < (k : ℝ) + u ∧ (k : ℝ) + u ≤ w.length * S w (i + 1) then (1 : ℝ) else 0))]
    refine Finset.sum_congr rfl fun k _ => ?_
    exact integral_comp_eval (μ := fun _ : Fin w.length => (volume : Measure ℝ).restrict (Set.Ico 0 1)) (i := k)
      (stratum_measurable (w.length * S w i) (w.length * S w (i + 1)) (k : ℕ)).aestronglyMeasurable
  · filter_upwards [hae] with u hu
    rw [stratified, count_eq_sum hss w hw hsum (extend u) (fun k hk => by rw [extend, dif_pos hk]; exact hu _) i hi,
      ← Fin.sum_univ_eq_sum_range (fun k => if w.length * S w i < (k : ℝ) + extend u k ∧ (k : ℝ) + extend u k ≤ w.length * S w (i + 1)
        then (1 : ℝ) else 0)]
    refine Finset.sum_congr rfl fun k _ => ?_
    rw [extend, dif_pos k.2]

example : (∀ a ∈ ([0.25, 0.75] : List ℝ), 0 ≤ a) ∧ ([0.25, 0.75] : List ℝ).sum = 1 := by
  refine ⟨?_, by norm_num⟩
  intro a ha
  simp only [List.mem_cons, List.not_mem_nil, or_false] at ha
  rcases ha with rfl | rfl <;> norm_num

end Mfs.Props

import Verif.Lemmas.OrderStat
import Verif.Lemmas.Resampling
import Verif.Props.GaussianSum
import Verif.Props.SmcUnbiased
import Mathlib.MeasureTheory.Constructions.BorelSpace.Order

/-!
# C124: multinomial resampling draws independent ancestors
-/

namespace Mfs.Props

open Mfs.Resampling Mfs.OrderStat MeasureTheory

variable {ss : List ℝ → ℝ → ℕ}

/-- partial sums in the form used by `cumsum`. -/
theorem psum_eq {n : ℕ} (s0 : ℝ) (u : Fin n → ℝ) (k : Fin n) :
    psum s0 u k = s0 + S ((List.ofFn u).map fun u => -Real.log u) (k + 1) := by
  induction n generalizing s0 with
  | zero => exact k.elim0
  | succ n ih =>
    have hS : ∀ j, S ((List.ofFn u).map fun u => -Real.log u) (j + 1)
        = -Real.log (u 0) + S ((List.ofFn (Fin.tail u)).map fun u => -Real.log u) j := by
      intro j
      rw [S, S, List.ofFn_succ, List.map_cons, List.take_succ_cons, List.sum_cons]
      rfl
    refine Fin.cases ?_ (fun j => ?_) k
    · rw [psum, Fin.cons_zero, hS, Fin.val_zero, S_zero, add_zero]
    · rw [psum, Fin.cons_succ, ih, hS, Fin.val_succ]
      ring

/-- the list returned by `_sorted_uniforms`. -/
theorem sortedUniforms_ofFn {n : ℕ} (u : Fin (n + 1) → ℝ) :
    sortedUniforms (List.ofFn u) = List.ofFn fun k : Fin n => psum 0 u k.castSucc / psum 0 u (Fin.last n) := by
  have hz : cumsum ((List.ofFn u).map fun u => -Real.log u) = List.ofFn (psum 0 u) := by
    rw [cumsum_eq]
    refine List.ext_getElem (by simp) fun i h1 h2 => ?_
    simp only [List.getElem_map, List.getElem_range, List.getElem_ofFn, psum_eq, zero_add]
  simp only [sortedUniforms, hz]
  have hlast : (List.ofFn (psum 0 u)).getLastD 0 = psum 0 u (Fin.last n) := by
    rw [List.getLastD_eq_getLast?, List.getLast?_eq_getElem?, List.getElem?_eq_getElem (by simp), List.getElem_ofFn, Option.getD_some]
    congr 1
    ext
    simp
  rw [hlast]
  refine List.ext_getElem (by simp) fun i h1 h2 => ?_
  simp only [List.getElem_map, List.getElem_dropLast, List.getElem_ofFn]
  rfl

theorem length_pos_of_sum (w : List ℝ) (hsum : w.sum = 1) : 0 < w.length := by
  rcases w with _ | ⟨a, w⟩
  · simp at hsum
  · simp

/-- the ancestor chosen by a point of `(0, 1)`. -/
noncomputable def pick (ss : List ℝ → ℝ → ℕ) (w : List ℝ) (hn : 0 < w.length) (v : ℝ) : Fin w.length :=
  ⟨min (ss (cumsum w) v) (w.length - 1), by omega⟩

theorem measurable_pick (hss : SearchSorted ss) (w : List ℝ) (hw : ∀ a ∈ w, 0 ≤ a) (hn : 0 < w.length) :
    Measurable (pick ss w hn) := by
  have hm : Monotone fun v => min (ss (cumsum w) v) (w.length - 1) := fun a b hab =>
    min_le_min_right _ (ss_cumsum_mono hss w hw hab)
  refine measurable_to_countable' fun i => ?_
  have : pick ss w hn ⁻¹' {i} = (fun v => min (ss (cumsum w) v) (w.length - 1)) ⁻¹' {(i : ℕ)} := by
    ext v
    simp only [Set.mem_preimage, Set.mem_singleton_iff, pick, Fin.ext_iff]
  rw [this]
  exact hm.measurable (measurableSet_singleton _)

/-- a uniform point chooses the ancestor with the given weights. -/
theorem map_pick (hss : SearchSorted ss) (w : List ℝ) (hw : ∀ a ∈ w, 0 ≤ a) (hsum : w.sum = 1) (hn : 0 < w.length) :
    unif.map (pick ss w hn) = categorical fun i : Fin w.length => w[i] := by
  refine Measure.ext_of_singleton fun i => ?_
  have hm := measurable_pick hss w hw hn
  rw [Measure.map_apply hm (measurableSet_singleton i), categorical, Measure.finsetSum_apply, Finset.sum_eq_single i]
  · rw [Measure.smul_apply, Measure.dirac_apply_of_mem (Set.mem_singleton i), smul_eq_mul, mul_one]
    have h1 : pick ss w hn ⁻¹' {i} ∩ Set.Ioo 0 1 = Set.Ioc (S w i) (S w (i + 1)) ∩ Set.Ioo 0 1 := by
      ext v
      simp only [Set.mem_inter_iff, Set.mem_preimage, Set.mem_singleton_iff, pick, Fin.ext_iff, Set.mem_Ioc, Set.mem_Ioo]
      refine and_congr_left fun hv => ?_
      rw [clip_ss_eq_iff hss w hw v (by rw [hsum]; exact hv.2.le) i i.2]
      refine and_congr_left fun _ => ?_
      constructor
      · rintro (h | h)
        · rw [h, S_zero]; exact hv.1
        · exact h
      · exact Or.inr
    have h2 : Set.Ioc (S w i) (S w (i + 1)) ∩ Set.Ioc 0 1 = Set.Ioc (S w i) (S w (i + 1)) := by
      refine Set.inter_eq_left.2 fun v hv => ⟨(S_nonneg w hw i).trans_lt hv.1, hv.2.trans ?_⟩
      rw [← hsum, ← S_length]
      exact S_mono w hw i.2
    rw [unif, Measure.restrict_congr_set Ioo_ae_eq_Ico.symm, Measure.restrict_apply (hm (measurableSet_singleton i)), h1,
      measure_congr ((Filter.EventuallyEq.refl _ _).inter Ioo_ae_eq_Ioc), h2, Real.volume_Ioc, S_succ,
      List.getD_eq_getElem _ _ i.2, add_sub_cancel_left]
    rfl
  · intro j _ hj
    rw [Measure.smul_apply, Measure.dirac_apply' _ (measurableSet_singleton i), Set.indicator_of_notMem (by simpa using hj), smul_zero]
  · intro h; exact absurd (Finset.mem_univ _) h

/-- **C124.** Up to their order, the ancestors returned by `multinomial` are `n` independent draws from the weights: if the
`n + 1` numbers drawn by `jax.random.uniform` are independent and uniform on `[0, 1)`, every function of the multiset of ancestors has the
same expectation as for `n` independent draws with probabilities `w`. -/
theorem C124_multinomial_law (hss : SearchSorted ss) (w : List ℝ) (hw : ∀ a ∈ w, 0 ≤ a) (hsum : w.sum = 1) (F : Multiset ℕ → ENNReal) :
    ∫⁻ us : Fin (w.length + 1) → ℝ, F (multinomial ss w (List.ofFn us))
        ∂(Measure.pi fun _ => (volume : Measure ℝ).restrict (Set.Ico 0 1))
      = ∫⁻ a : Fin w.length → Fin w.length, F (List.ofFn fun k => (a k : ℕ)) ∂(Measure.pi fun _ => categorical fun i : Fin w.length => w[i]) := by
  have hn := length_pos_of_sum w hsum
  have hm := measurable_pick hss w hw hn
  set G : (Fin w.length → Fin w.length) → ENNReal := fun a => F (List.ofFn fun k => (a k : ℕ)) with hG
  have hGm : Measurable G := measurable_of_finite G
  have hpi : Measurable fun v : Fin w.length → ℝ => fun k => pick ss w hn (v k) :=
    measurable_pi_lambda _ fun k => hm.comp (measurable_pi_apply k)
  have h1 : ∀ us : Fin (w.length + 1) → ℝ, F (multinomial ss w (List.ofFn us))
      = (fun v : Fin w.length → ℝ => G fun k => pick ss w hn (v k)) fun k => psum 0 us k.castSucc / psum 0 us (Fin.last w.length) := by
    intro us
    simp only [hG, multinomial, sortedUniforms_ofFn, List.map_ofFn]
    rfl
  simp only [h1]
  have hsym : ∀ (σ : Equiv.Perm (Fin w.length)) (v : Fin w.length → ℝ),
      G (fun k => pick ss w hn ((v ∘ σ) k)) = G fun k => pick ss w hn (v k) := by
    intro σ v
    simp only [hG]
    refine congrArg F (Multiset.coe_eq_coe.2 ?_)
    exact σ.ofFn_comp_perm fun k => ((pick ss w hn (v k) : Fin w.length) : ℕ)
  refine (lintegral_sortedUniforms w.length (hGm.comp hpi) hsym).trans ?_
  have hprob : IsProbabilityMeasure (unif.map (pick ss w hn)) := Measure.isProbabilityMeasure_map hm.aemeasurable
  have h2 := Measure.pi_map_pi (μ := fun _ : Fin w.length => unif) (f := fun _ => pick ss w hn) fun _ => hm.aemeasurable
  simp only [← map_pick hss w hw hsum hn]
  rw [← h2, lintegral_map hGm hpi]
  rfl

/-- **C124 (unbiasedness).** The expected number of copies of particle `i` is `n w_i`. -/
theorem C124_multinomial_unbiased (hss : SearchSorted ss) (w : List ℝ) (hw : ∀ a ∈ w, 0 ≤ a) (hsum : w.sum = 1) (i : ℕ)
    (hi : i < w.length) :
    ∫⁻ us : Fin (w.length + 1) → ℝ, ((multinomial ss w (List.ofFn us)).count i : ENNReal)
      ∂(Measure.pi fun _ => (volume : Measure ℝ).restrict (Set.Ico 0 1)) = ENNReal.ofReal (w.length * w[i]) := by
  have hw' : ∀ j : Fin w.length, 0 ≤ w[j] := fun j => hw _ (List.getElem_mem j.2)
  have hs' : ∑ j : Fin w.length, w[j] = 1 := by rw [← hsum]; exact Fin.sum_univ_getElem w
  have hprob := categorical_prob hw' hs'
  have h := C124_multinomial_law hss w hw hsum fun m => (m.count i : ENNReal)
  simp only [Multiset.coe_count] at h
  rw [h]
  have hc : ∀ a : Fin w.length → Fin w.length, ((List.ofFn fun k => (a k : ℕ)).count i : ENNReal)
      = ∑ k, Set.indicator {⟨i, hi⟩} (1 : Fin w.length → ENNReal) (a k) := by
    intro a
    have : ∀ (n : ℕ) (f : Fin n → ℕ), ((List.ofFn f).count i : ENNReal) = ∑ k, if f k = i then 1 else 0 := by
      intro n
      induction n with
      | zero => intro f; simp
      | succ n ih =>
        intro f
        rw [List.ofFn_succ, List.count_cons, Fin.sum_univ_succ, Nat.cast_add, ih, add_comm]
        simp
    rw [this]
    refine Finset.sum_congr rfl fun k _ => ?_
    simp only [Set.indicator_apply, Set.mem_singleton_iff, Fin.ext_iff, Pi.one_apply]
  simp only [hc]
  set cat : Measure (Fin w.length) := categorical fun i : Fin w.length => w[i] with hcat
  rw [lintegral_finsetSum _ fun k _ => measurable_of_finite _]
  have hk : ∀ k : Fin w.length, ∫⁻ a : Fin w.length → Fin w.length, Set.indicator {⟨i, hi⟩} (1 : Fin w.length → ENNReal) (a k)
      ∂(Measure.pi fun _ => cat) = ENNReal.ofReal w[i] := by
    intro k
    have e : MeasurePreserving (Function.eval k) (Measure.pi fun _ : Fin w.length => cat) cat :=
      measurePreserving_eval (fun _ : Fin w.length => cat) k
    refine (e.lintegral_comp (f := Set.indicator {⟨i, hi⟩} (1 : Fin w.length → ENNReal)) (measurable_of_finite _)).trans ?_
    rw [lintegral_indicator_one (measurableSet_singleton _), hcat, categorical, Measure.finsetSum_apply,
      Finset.sum_eq_single ⟨i, hi⟩]
    · simp
    · intro j _ hj
      rw [Measure.smul_apply, Measure.dirac_apply' _ (measurableSet_singleton _), Set.indicator_of_notMem (by simpa using hj), smul_zero]
    · intro h; exact absurd (Finset.mem_univ _) h
  simp only [hk]
  rw [Finset.sum_const, Finset.card_univ, Fintype.card_fin, nsmul_eq_mul, ENNReal.ofReal_mul (Nat.cast_nonneg _), ENNReal.ofReal_natCast]

/-- **C124 (bootstrap filter).** Multinomial resampling meets the hypotheses of `C107_bootstrap_unbiased` when a key gives `n + 1` independent
uniform draws. -/
theorem C124_multinomial_scheme {K : Type} [MeasurableSpace K] {n : ℕ} [NeZero n] (ν' : Measure K) [IsProbabilityMeasure ν']
    (resampling : (Fin n → ℝ) → K → Fin n → ℕ) (draws : K → Fin (n + 1) → ℝ) (hd : Measurable draws)
    (hlaw : ν'.map draws = Measure.pi fun _ => (volume : Measure ℝ).restrict (Set.Ico 0 1))
    (hr : ∀ w k j, resampling w k j = (multinomial ssCount (List.ofFn w) (List.ofFn (draws k))).getD j 0) :
    Measurable (fun p : (Fin n → ℝ) × K => resampling p.1 p.2) ∧ (∀ w k j, resampling w k j < n) ∧
    ∀ w : Fin n → ℝ, (∀ i, 0 ≤ w i) → ∑ i, w i = 1 → ∀ i : Fin n, ∑ j, ν' {k | resampling w k j = i} = ENNReal.ofReal (n * w i) := by
  have hn : 0 < n := Nat.pos_of_ne_zero (NeZero.ne n)
  have hss : SearchSorted ssCount := fun _ _ _ => rfl
  have hmul : ∀ (w : Fin n → ℝ) k, multinomial ssCount (List.ofFn w) (List.ofFn (draws k))
      = List.ofFn fun j : Fin n => min (ssCount (cumsum (List.ofFn w)) (psum 0 (draws k) j.castSucc / psum 0 (draws k) (Fin.last n))) (n - 1) := by
    intro w k
    rw [multinomial, sortedUniforms_ofFn, List.map_ofFn, List.length_ofFn]
    rfl
  have hidx : ∀ w k (j : Fin n), resampling w k j
      = min (ssCount (cumsum (List.ofFn w)) (psum 0 (draws k) j.castSucc / psum 0 (draws k) (Fin.last n))) (n - 1) := by
    intro w k j
    rw [hr, hmul, List.getD_eq_getElem _ _ (by simp), List.getElem_ofFn]
  have hp : Measurable fun k => psum 0 (draws k) := (measurable_psum (n + 1)).comp (measurable_const.prodMk hd)
  have hmeas : Measurable fun p : (Fin n → ℝ) × K => resampling p.1 p.2 := by
    refine measurable_pi_lambda _ fun j => ?_
    simp only [hidx]
    have h1 : Measurable fun p : (Fin n → ℝ) × K => (p.1, psum 0 (draws p.2) j.castSucc / psum 0 (draws p.2) (Fin.last n)) :=
      measurable_fst.prodMk (((measurable_pi_iff.1 hp _).div (measurable_pi_iff.1 hp _)).comp measurable_snd)
    exact (measurable_ssCount.comp h1).min measurable_const
  refine ⟨hmeas, fun w k j => by rw [hidx]; omega, fun w hw hw1 i => ?_⟩
  have hset : ∀ j : Fin n, MeasurableSet {k | resampling w k j = i} := fun j =>
    (measurable_pi_iff.1 (hmeas.comp (measurable_const (a := w) |>.prodMk measurable_id)) j) (measurableSet_singleton (i : ℕ))
  have hcnt : ∀ (N : ℕ) (f : Fin N → ℕ), ((List.ofFn f).count (i : ℕ) : ENNReal) = ∑ k, if f k = i then 1 else 0 := by
    intro N
    induction N with
    | zero => intro f; simp
    | succ N ih =>
      intro f
      rw [List.ofFn_succ, List.count_cons, Fin.sum_univ_succ, Nat.cast_add, ih, add_comm]
      simp
  have hcount : ∀ k, ((multinomial ssCount (List.ofFn w) (List.ofFn (draws k))).count (i : ℕ) : ENNReal)
      = ∑ j, Set.indicator {k | resampling w k j = i} 1 k := by
    intro k
    rw [hmul, hcnt]
    refine Finset.sum_congr rfl fun j _ => ?_
    simp only [Set.indicator_apply, Set.mem_ofPred_eq, hidx, Pi.one_apply]
  have h1 : ∑ j, ν' {k | resampling w k j = i}
      = ∫⁻ k, ((multinomial ssCount (List.ofFn w) (List.ofFn (draws k))).count (i : ℕ) : ENNReal) ∂ν' := by
    simp only [hcount]
    rw [lintegral_finsetSum _ fun j _ => measurable_one.indicator (hset j)]
    simp only [lintegral_indicator_one (hset _)]
  have hwl : ∀ a ∈ List.ofFn w, 0 ≤ a := by
    intro a ha
    obtain ⟨i, rfl⟩ := List.mem_ofFn.1 ha
    exact hw i
  have hsum : (List.ofFn w).sum = 1 := by rw [List.sum_ofFn, hw1]
  have hlen : (List.ofFn w).length = n := List.length_ofFn
  have hgen : ∀ (W : List ℝ) (m : ℕ) (D : K → Fin (m + 1) → ℝ), W.length = m → (∀ a ∈ W, 0 ≤ a) → W.sum = 1 → Measurable D →
      ν'.map D = Measure.pi (fun _ => (volume : Measure ℝ).restrict (Set.Ico 0 1)) → ∀ (j : ℕ) (hj : j < W.length),
      ∫⁻ k, ((multinomial ssCount W (List.ofFn (D k))).count j : ENNReal) ∂ν' = ENNReal.ofReal (m * W[j]) := by
    intro W m D hW hW0 hW1 hD hDl j hj
    subst hW
    have h := C124_multinomial_unbiased hss W hW0 hW1 j hj
    rw [← hDl, lintegral_map _ hD] at h
    · exact h
    · have hmW := measurable_pick hss W hW0 (length_pos_of_sum W hW1)
      have hps : ∀ k : Fin (W.length + 1), Measurable fun us : Fin (W.length + 1) → ℝ => psum 0 us k := fun k =>
        measurable_pi_iff.1 ((measurable_psum (W.length + 1)).comp (measurable_const.prodMk measurable_id)) k
      have hG : Measurable fun a : Fin W.length → Fin W.length => ((List.ofFn fun k => (a k : ℕ)).count j : ENNReal) :=
        measurable_of_finite _
      have hv : Measurable fun us : Fin (W.length + 1) → ℝ => fun k : Fin W.length =>
          pick ssCount W (length_pos_of_sum W hW1) (psum 0 us k.castSucc / psum 0 us (Fin.last W.length)) :=
        measurable_pi_lambda _ fun k => hmW.comp ((hps _).div (hps _))
      have he : (fun us : Fin (W.length + 1) → ℝ => ((multinomial ssCount W (List.ofFn us)).count j : ENNReal))
          = (fun a : Fin W.length → Fin W.length => ((List.ofFn fun k => (a k : ℕ)).count j : ENNReal)) ∘ fun us k =>
            pick ssCount W (length_pos_of_sum W hW1) (psum 0 us k.castSucc / psum 0 us (Fin.last W.length)) := by
        funext us
        simp only [multinomial, sortedUniforms_ofFn, List.map_ofFn, Function.comp_apply]
        rfl
      rw [he]
      exact hG.comp hv
  have h2 := hgen (List.ofFn w) n draws hlen hwl hsum hd hlaw i (by rw [hlen]; exact i.2)
  rw [List.getElem_ofFn] at h2
  rw [h1, h2]

/-- non-vacuity: three particles, weights `1/2, 1/4, 1/4`. On average half of the three ancestors are particle `0`; the expected value is
`3/2`. -/
example : ∫⁻ us : Fin 4 → ℝ, ((multinomial ssCount [1 / 2, 1 / 4, 1 / 4] (List.ofFn us)).count 0 : ENNReal)
    ∂(Measure.pi fun _ => (volume : Measure ℝ).restrict (Set.Ico 0 1)) = ENNReal.ofReal (3 / 2) := by
  have h := C124_multinomial_unbiased (ss := ssCount) (fun _ _ _ => rfl) [1 / 2, 1 / 4, 1 / 4] (by simp) (by norm_num) 0 (by simp)
  refine h.trans (congrArg _ ?_)
  norm_num

/-- two particles of equal weights: both ancestors are particle `0` with probability `1/4`, as for two independent draws. -/
example : ∫⁻ us : Fin 3 → ℝ, (if ((multinomial ssCount [1 / 2, 1 / 2] (List.ofFn us) : List ℕ) : Multiset ℕ) = {0, 0} then 1 else 0 : ENNReal)
    ∂(Measure.pi fun _ => (volume : Measure ℝ).restrict (Set.Ico 0 1)) = ENNReal.ofReal (1 / 4) := by
  have h := C124_multinomial_law (ss := ssCount) (fun _ _ _ => rfl) [1 / 2, 1 / 2] (by simp) (by norm_num) fun m => if m = {0, 0} then 1 else 0
  refine h.trans ?_
  have hw' : ∀ j : Fin 2, 0 ≤ ([1 / 2, 1 / 2] : List ℝ)[j] := by intro j; fin_cases j <;> norm_num
  have hprob := categorical_prob hw' (by norm_num [Fin.sum_univ_two])
  have hiff : ∀ a : Fin 2 → Fin 2, ((List.ofFn fun k => (a k : ℕ) : List ℕ) : Multiset ℕ) = {0, 0} ↔ a = fun _ => 0 := by decide
  have hset : ∀ a : Fin 2 → Fin 2, (if ((List.ofFn fun k => (a k : ℕ) : List ℕ) : Multiset ℕ) = {0, 0} then 1 else 0 : ENNReal)
      = Set.indicator {fun _ => 0} (1 : (Fin 2 → Fin 2) → ENNReal) a := by
    intro a
    simp only [hiff, Set.indicator_apply, Set.mem_singleton_iff, Pi.one_apply]
  refine (lintegral_congr hset).trans ?_
  rw [lintegral_indicator_one (measurableSet_singleton _)]
  refine (Measure.pi_singleton (fun _ : Fin 2 => categorical fun i : Fin 2 => ([1 / 2, 1 / 2] : List ℝ)[i]) fun _ => 0).trans ?_
  have h0 : categorical (fun i : Fin 2 => ([1 / 2, 1 / 2] : List ℝ)[i]) {0} = ENNReal.ofReal (1 / 2) := by
    simp [categorical, Fin.sum_univ_two]
  rw [Fin.prod_univ_two, h0, ← ENNReal.ofReal_mul (by norm_num)]
  norm_num

end Mfs.Props

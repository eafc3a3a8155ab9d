import Verif.Props.Multinomial
import Mathlib.Probability.Moments.Variance
import Mathlib.MeasureTheory.Integral.IntervalIntegral.Basic
import Mathlib.MeasureTheory.Integral.Pi

/-!
# C147: the variance of the resampling schemes
-/

namespace Mfs.Props

open Mfs.Resampling Mfs.OrderStat MeasureTheory ProbabilityTheory

variable {ss : List ℝ → ℝ → ℕ}

/-- mean square error of an average of independent terms. -/
theorem integral_sq_mean_pi {Ω : Type} [MeasurableSpace Ω] {n : ℕ} (hn : 0 < n) (μ : Fin n → Measure Ω) [∀ i, IsProbabilityMeasure (μ i)]
    (X : Fin n → Ω → ℝ) (hX : ∀ k, MemLp (X k) 2 (μ k)) (c : ℝ) (hc : ∑ k, ∫ x, X k x ∂(μ k) = n * c) :
    ∫ u, ((∑ k, X k (u k)) / n - c) ^ 2 ∂(Measure.pi μ) = (∑ k, variance (X k) (μ k)) / (n : ℝ) ^ 2 := by
  have hn0 : (n : ℝ) ≠ 0 := Nat.cast_ne_zero.2 hn.ne'
  have hmp : ∀ k, MeasurePreserving (fun u : Fin n → Ω => u k) (Measure.pi μ) (μ k) := fun k => measurePreserving_eval μ k
  have hXp : ∀ k, MemLp (fun u : Fin n → Ω => X k (u k)) 2 (Measure.pi μ) := fun k => (hX k).comp_measurePreserving (hmp k)
  have hm : ∫ u, ∑ k, X k (u k) ∂(Measure.pi μ) = n * c := by
    rw [integral_finsetSum _ fun k _ => (hXp k).integrable one_le_two, ← hc]
    refine Finset.sum_congr rfl fun k _ => ?_
    exact integral_comp_eval (μ := μ) (i := k) (hX k).aestronglyMeasurable
  have hae : AEMeasurable (∑ k, fun u : Fin n → Ω => X k (u k)) (Measure.pi μ) := by
    have := Finset.aemeasurable_sum (μ := Measure.pi μ) Finset.univ (f := fun (k : Fin n) (u : Fin n → Ω) => X k (u k))
      fun k _ => (hXp k).aestronglyMeasurable.aemeasurable
    exact this
  rw [← variance_sum_pi hX, variance_eq_integral hae]
  simp only [Finset.sum_apply]
  rw [hm, ← integral_div]
  refine integral_congr_ae (Filter.Eventually.of_forall fun u => ?_)
  simp only
  field_simp

theorem memLp_pick (hss : SearchSorted ss) (w : List ℝ) (hw : ∀ a ∈ w, 0 ≤ a) (hn : 0 < w.length) (φ : Fin w.length → ℝ) {f : ℝ → ℝ}
    (hf : Measurable f) (μ : Measure ℝ) [IsProbabilityMeasure μ] (p : ENNReal) : MemLp (fun u => φ (pick ss w hn (f u))) p μ := by
  refine MemLp.of_bound ?_ (∑ i, |φ i|) (Filter.Eventually.of_forall fun u => ?_)
  · exact ((measurable_of_finite φ).comp ((measurable_pick hss w hw hn).comp hf)).aestronglyMeasurable
  · rw [Real.norm_eq_abs]
    exact Finset.single_le_sum (f := fun i => |φ i|) (fun i _ => abs_nonneg _) (Finset.mem_univ _)

theorem integral_categorical {k : ℕ} {w : Fin k → ℝ} (hw : ∀ i, 0 ≤ w i) (φ : Fin k → ℝ) : ∫ i, φ i ∂(categorical w) = ∑ i, w i * φ i := by
  rw [categorical, integral_finsetSum_measure fun i _ => ((integrable_dirac (by simp)).smul_measure ENNReal.ofReal_ne_top)]
  refine Finset.sum_congr rfl fun i _ => ?_
  rw [integral_smul_measure, integral_dirac, ENNReal.toReal_ofReal (hw i), smul_eq_mul]

/-- integrating over the strata is integrating over `[0, 1)`. -/
theorem strata_integral (hss : SearchSorted ss) (w : List ℝ) (hw : ∀ a ∈ w, 0 ≤ a) (hsum : w.sum = 1) (hn : 0 < w.length)
    (φ : Fin w.length → ℝ) :
    ∑ k : Fin w.length, ∫ u, φ (pick ss w hn (((k : ℕ) + u) / w.length)) ∂unif = w.length * ∑ i : Fin w.length, w[i] * φ i := by
  have hn0 : (w.length : ℝ) ≠ 0 := Nat.cast_ne_zero.2 hn.ne'
  have hpm := measurable_pick hss w hw hn
  have hw' : ∀ j : Fin w.length, 0 ≤ w[j] := fun j => hw _ (List.getElem_mem j.2)
  set ψ : ℝ → ℝ := fun v => φ (pick ss w hn v) with hψ
  have hψm : Measurable ψ := (measurable_of_finite φ).comp hpm
  have hi : ∀ a b : ℝ, IntervalIntegrable ψ volume a b := by
    intro a b
    rw [intervalIntegrable_iff]
    refine Measure.integrableOn_of_bounded (M := ∑ i, |φ i|) measure_Ioc_lt_top.ne hψm.aestronglyMeasurable
      (Filter.Eventually.of_forall fun u => ?_)
    rw [Real.norm_eq_abs]
    exact Finset.single_le_sum (f := fun i => |φ i|) (fun i _ => abs_nonneg _) (Finset.mem_univ _)
  have h1 : ∀ k : ℕ, ∫ u, ψ ((k + u) / w.length) ∂unif = w.length * ∫ v in ((k : ℝ) / w.length)..((k + 1 : ℕ) : ℝ) / w.length, ψ v := by
    intro k
    rw [unif, integral_Ico_eq_integral_Ioc, ← intervalIntegral.integral_of_le zero_le_one]
    have := intervalIntegral.integral_comp_add_div (f := ψ) (a := 0) (b := 1) hn0 ((k : ℝ) / w.length)
    rw [smul_eq_mul, zero_div, add_zero, ← add_div] at this
    rw [Nat.cast_succ, ← this]
    refine intervalIntegral.integral_congr fun u _ => ?_
    simp only [add_div]
  have h2 : ∑ k : Fin w.length, ∫ u, ψ (((k : ℕ) + u) / w.length) ∂unif = w.length * ∫ v in (0 : ℝ)..1, ψ v := by
    simp only [h1]
    rw [Fin.sum_univ_eq_sum_range (fun k => (w.length : ℝ) * ∫ v in ((k : ℝ) / w.length)..((k + 1 : ℕ) : ℝ) / w.length, ψ v),
      ← Finset.mul_sum, intervalIntegral.sum_integral_adjacent_intervals (a := fun k : ℕ => (k : ℝ) / w.length) fun k _ => hi _ _]
    simp [div_self hn0]
  rw [h2, ← integral_categorical hw', ← map_pick hss w hw hsum hn, integral_map hpm.aemeasurable (measurable_of_finite φ).aestronglyMeasurable,
    unif, integral_Ico_eq_integral_Ioc, intervalIntegral.integral_of_le zero_le_one]

theorem stratified_map_sum (w : List ℝ) (hn : 0 < w.length) (φ : ℕ → ℝ) (u : Fin w.length → ℝ) :
    ((stratified ss w (extend u)).map φ).sum = ∑ k : Fin w.length, φ (pick ss w hn ((((k : ℕ) : ℝ) + u k) / w.length)) := by
  rw [stratified, systematicOrStratified, List.map_map, ← List.sum_ofFn]
  congr 1
  refine List.ext_getElem (by simp) fun i h1 h2 => ?_
  have hi : i < w.length := by simpa using h2
  simp [extend, hi, pick]

theorem measurable_stratified_sum (hss : SearchSorted ss) (w : List ℝ) (hw : ∀ a ∈ w, 0 ≤ a) (hn : 0 < w.length) (φ : ℕ → ℝ) :
    Measurable fun u : Fin w.length → ℝ => ((stratified ss w (extend u)).map φ).sum := by
  simp only [stratified_map_sum w hn φ]
  exact Finset.measurable_sum _ fun k _ => (measurable_of_finite fun i : Fin w.length => φ i).comp
    ((measurable_pick hss w hw hn).comp (((measurable_pi_apply k).const_add _).div_const _))

theorem multinomial_map_sum (w : List ℝ) (hn : 0 < w.length) (φ : ℕ → ℝ) (us : Fin (w.length + 1) → ℝ) :
    ((multinomial ss w (List.ofFn us)).map φ).sum
      = ∑ k : Fin w.length, φ (pick ss w hn (psum 0 us k.castSucc / psum 0 us (Fin.last w.length))) := by
  rw [multinomial, sortedUniforms_ofFn, List.map_ofFn, List.map_ofFn, List.sum_ofFn]
  rfl

theorem measurable_multinomial_sum (hss : SearchSorted ss) (w : List ℝ) (hw : ∀ a ∈ w, 0 ≤ a) (hn : 0 < w.length) (φ : ℕ → ℝ) :
    Measurable fun us : Fin (w.length + 1) → ℝ => ((multinomial ss w (List.ofFn us)).map φ).sum := by
  simp only [multinomial_map_sum w hn φ]
  have hps : ∀ k : Fin (w.length + 1), Measurable fun us : Fin (w.length + 1) → ℝ => psum 0 us k := fun k =>
    measurable_pi_iff.1 ((measurable_psum (w.length + 1)).comp (measurable_const.prodMk measurable_id)) k
  exact Finset.measurable_sum _ fun k _ => (measurable_of_finite fun i : Fin w.length => φ i).comp
    ((measurable_pick hss w hw hn).comp ((hps _).div (hps _)))

/-- **C147 (stratified).** The mean square error of the average of `φ` over the ancestors chosen by `stratified` is at most the one of
independent draws, `Var_w φ / n`. -/
theorem C147_stratified (hss : SearchSorted ss) (w : List ℝ) (hw : ∀ a ∈ w, 0 ≤ a) (hsum : w.sum = 1) (φ : ℕ → ℝ) :
    ∫ u : Fin w.length → ℝ, (((stratified ss w (extend u)).map φ).sum / w.length - ∑ i : Fin w.length, w[i] * φ i) ^ 2
        ∂(Measure.pi fun _ => (volume : Measure ℝ).restrict (Set.Ico 0 1))
      ≤ (∑ i : Fin w.length, w[i] * (φ i - ∑ i : Fin w.length, w[i] * φ i) ^ 2) / w.length := by
  have hn := length_pos_of_sum w hsum
  have hn0 : (w.length : ℝ) ≠ 0 := Nat.cast_ne_zero.2 hn.ne'
  set c := ∑ i : Fin w.length, w[i] * φ i with hc
  have hw' : ∀ j : Fin w.length, 0 ≤ w[j] := fun j => hw _ (List.getElem_mem j.2)
  have hm : ∀ k : Fin w.length, Measurable fun u : ℝ => (((k : ℕ) : ℝ) + u) / w.length := fun k => (measurable_id.const_add _).div_const _
  simp only [stratified_map_sum w hn φ]
  have h := integral_sq_mean_pi hn (fun _ => unif) (fun (k : Fin w.length) (u : ℝ) => φ (pick ss w hn ((((k : ℕ) : ℝ) + u) / w.length)))
    (fun k => memLp_pick hss w hw hn (fun i => φ i) (hm k) unif 2) c (strata_integral hss w hw hsum hn fun i => φ i)
  refine h.le.trans ?_
  have h2 := strata_integral hss w hw hsum hn fun i => (φ i - c) ^ 2
  have h3 : ∑ k : Fin w.length, variance (fun u : ℝ => φ (pick ss w hn ((((k : ℕ) : ℝ) + u) / w.length))) unif
      ≤ w.length * ∑ i : Fin w.length, w[i] * (φ i - c) ^ 2 := by
    rw [← h2]
    refine Finset.sum_le_sum fun k _ => ?_
    have hL := memLp_pick hss w hw hn (fun i => φ i) (hm k) unif 2
    rw [← variance_sub_const hL.aestronglyMeasurable c]
    exact variance_le_expectation_sq (hL.aestronglyMeasurable.sub aestronglyMeasurable_const)
  calc _ ≤ (w.length * ∑ i : Fin w.length, w[i] * (φ i - c) ^ 2) / (w.length : ℝ) ^ 2 := by gcongr
    _ = _ := by field_simp

/-- **C147 (multinomial).** For `multinomial` the mean square error is `Var_w φ / n`. -/
theorem C147_multinomial (hss : SearchSorted ss) (w : List ℝ) (hw : ∀ a ∈ w, 0 ≤ a) (hsum : w.sum = 1) (φ : ℕ → ℝ) :
    ∫ us : Fin (w.length + 1) → ℝ, (((multinomial ss w (List.ofFn us)).map φ).sum / w.length - ∑ i : Fin w.length, w[i] * φ i) ^ 2
        ∂(Measure.pi fun _ => (volume : Measure ℝ).restrict (Set.Ico 0 1))
      = (∑ i : Fin w.length, w[i] * (φ i - ∑ i : Fin w.length, w[i] * φ i) ^ 2) / w.length := by
  have hn := length_pos_of_sum w hsum
  have hn0 : (w.length : ℝ) ≠ 0 := Nat.cast_ne_zero.2 hn.ne'
  set c := ∑ i : Fin w.length, w[i] * φ i with hc
  have hw' : ∀ j : Fin w.length, 0 ≤ w[j] := fun j => hw _ (List.getElem_mem j.2)
  have hs' : ∑ j : Fin w.length, w[j] = 1 := by rw [← hsum]; exact Fin.sum_univ_getElem w
  have hprob := categorical_prob hw' hs'
  have hcat := integral_categorical hw'
  have h := C124_multinomial_law hss w hw hsum fun m => ENNReal.ofReal (((m.map φ).sum / w.length - c) ^ 2)
  simp only [Multiset.map_coe, Multiset.sum_coe] at h
  set cat : Measure (Fin w.length) := categorical fun i : Fin w.length => w[i] with hcatd
  rw [integral_eq_lintegral_of_nonneg_ae (Filter.Eventually.of_forall fun _ => sq_nonneg _), h]
  · rw [← integral_eq_lintegral_of_nonneg_ae (Filter.Eventually.of_forall fun _ => sq_nonneg _) (measurable_of_finite _).aestronglyMeasurable]
    simp only [List.map_ofFn, List.sum_ofFn, Function.comp]
    have hmean : ∫ i : Fin w.length, φ i ∂cat = c := by rw [hcat]
    have hL : MemLp (fun i : Fin w.length => φ i) 2 cat := MemLp.of_discrete
    refine (integral_sq_mean_pi hn (fun _ => cat) (fun _ i => φ i) (fun _ => hL) c ?_).trans ?_
    · rw [hmean]; simp
    · rw [variance_eq_integral hL.aestronglyMeasurable.aemeasurable, hmean, hcat fun i => (φ i - c) ^ 2]
      simp only [Finset.sum_const, Finset.card_univ, Fintype.card_fin, nsmul_eq_mul]
      field_simp
  · exact (((measurable_multinomial_sum hss w hw hn φ).div_const _).sub_const _).pow_const _ |>.aestronglyMeasurable

/-- the weights of the counterexample: `1 / (4 m), 3 / (4 m), 1 / (4 m), …`. -/
noncomputable def altWeights (m : ℕ) : List ℝ := List.ofFn fun i : Fin (2 * m) => if (i : ℕ) % 2 = 0 then 1 / (4 * m : ℝ) else 3 / (4 * m)

theorem altWeights_S (m : ℕ) (hm : 0 < m) (i : ℕ) (hi : i ≤ m) :
    S (altWeights m) (2 * i) = 2 * i / (2 * m) ∧ (i < m → S (altWeights m) (2 * i + 1) = (2 * i + 1 / 2) / (2 * m)) := by
  have hm0 : (m : ℝ) ≠ 0 := Nat.cast_ne_zero.2 hm.ne'
  have hg : ∀ k, k < 2 * m → (altWeights m).getD k 0 = if k % 2 = 0 then 1 / (4 * m : ℝ) else 3 / (4 * m) := by
    intro k hk
    rw [altWeights, List.getD_eq_getElem _ _ (by simpa using hk), List.getElem_ofFn]
  have hodd : ∀ i, i < m → S (altWeights m) (2 * i) = 2 * i / (2 * m) → S (altWeights m) (2 * i + 1) = (2 * i + 1 / 2) / (2 * m) := by
    intro i hi h
    rw [S_succ, h, hg _ (by omega), if_pos (by omega)]
    field_simp
    ring
  induction i with
  | zero => exact ⟨by simp [S_zero], fun h => hodd 0 h (by simp [S_zero])⟩
  | succ i ih =>
    obtain ⟨-, h2⟩ := ih (by omega)
    have h : S (altWeights m) (2 * (i + 1)) = 2 * (i + 1 : ℕ) / (2 * m) := by
      rw [show 2 * (i + 1) = 2 * i + 1 + 1 by ring, S_succ, h2 (by omega), hg _ (by omega), if_neg (by omega)]
      push_cast
      field_simp
      ring
    exact ⟨h, fun hlt => hodd _ hlt h⟩

/-- **C147 (systematic).** No such bound for `systematic`: for every even number of particles there are weights and a function with values in
`{0, 1}` for which the mean square error is `1 / 16`, so that it does not decrease with the number of particles. -/
theorem C147_systematic_refuted (hss : SearchSorted ss) (m : ℕ) (hm : 0 < m) :
    ∃ w : List ℝ, w.length = 2 * m ∧ (∀ a ∈ w, 0 < a) ∧ w.sum = 1 ∧ ∃ φ : ℕ → ℝ, (∀ i, φ i = 0 ∨ φ i = 1) ∧
      ∫ u in Set.Ico (0 : ℝ) 1, (((systematic ss w u).map φ).sum / w.length - ∑ i : Fin w.length, w[i] * φ i) ^ 2 = 1 / 16 := by
  have hm1 : (0 : ℝ) < m := Nat.cast_pos.2 hm
  set w := altWeights m with hwd
  have hlen : w.length = 2 * m := by simp [hwd, altWeights]
  have hpos : ∀ a ∈ w, 0 < a := by
    intro a ha
    obtain ⟨i, rfl⟩ := List.mem_ofFn.1 ha
    split_ifs <;> positivity
  have hw : ∀ a ∈ w, 0 ≤ a := fun a ha => (hpos a ha).le
  have hsum : w.sum = 1 := by
    rw [← S_length, hlen, (altWeights_S m hm m le_rfl).1]
    field_simp
  set φ : ℕ → ℝ := fun i => if i % 2 = 0 then 1 else 0 with hφ
  refine ⟨w, hlen, hpos, hsum, φ, fun i => by simp only [hφ]; split_ifs <;> simp, ?_⟩
  -- pairs of terms
  have hpair : ∀ (k : ℕ) (a : ℕ → ℝ), ((List.range (2 * k)).map a).sum = ∑ i ∈ Finset.range k, (a (2 * i) + a (2 * i + 1)) := by
    intro k a
    induction k with
    | zero => simp
    | succ k ih =>
      rw [show 2 * (k + 1) = 2 * k + 1 + 1 by ring, List.range_succ, List.range_succ, Finset.sum_range_succ, ← ih]
      simp
  have hc : ∑ i : Fin w.length, w[i] * φ i = 1 / 4 := by
    have e : ∑ i : Fin w.length, w[i] * φ i = ((List.range (2 * m)).map fun i => w.getD i 0 * φ i).sum := by
      rw [← hlen, ← List.sum_ofFn]
      congr 1
      refine List.ext_getElem (by simp) fun i h1 h2 => ?_
      have hi : i < w.length := by simpa using h1
      simp [hi]
    rw [e, hpair]
    have : ∀ i ∈ Finset.range m, w.getD (2 * i) 0 * φ (2 * i) + w.getD (2 * i + 1) 0 * φ (2 * i + 1) = 1 / (4 * m : ℝ) := by
      intro i hi
      have hi := Finset.mem_range.1 hi
      have h1 : φ (2 * i) = 1 := by simp [hφ]
      have h2 : φ (2 * i + 1) = 0 := by simp only [hφ]; rw [if_neg (by omega)]
      have h3 : w.getD (2 * i) 0 = 1 / (4 * m : ℝ) := by
        rw [hwd, altWeights, List.getD_eq_getElem _ _ (by simp; omega), List.getElem_ofFn]
        rw [if_pos (by simp)]
      rw [h1, h2, h3]
      ring
    rw [Finset.sum_congr rfl this, Finset.sum_const, Finset.card_range, nsmul_eq_mul]
    field_simp
  have hmean : ∀ u ∈ Set.Ioo (0 : ℝ) 1, ((systematic ss w u).map φ).sum / w.length = if u ≤ 1 / 2 then 1 / 2 else 0 := by
    intro u hu
    have hS := fun i hi => altWeights_S m hm i hi
    rw [← hwd] at hS
    have hv : ∀ k : ℕ, k < 2 * m → ((k : ℝ) + u) / w.length ≤ w.sum := by
      intro k hk
      rw [hsum, hlen, div_le_one (by positivity)]
      have : (k : ℝ) + 1 ≤ (2 * m : ℕ) := by exact_mod_cast hk
      linarith [hu.2]
    have h2m : ((w.length : ℕ) : ℝ) = 2 * m := by rw [hlen]; push_cast; ring
    have hE : ∀ i, i < m → min (ss (cumsum w) ((((2 * i : ℕ) : ℝ) + u) / w.length)) (w.length - 1) = if u ≤ 1 / 2 then 2 * i else 2 * i + 1 := by
      intro i hi
      split_ifs with h
      · rw [clip_ss_eq_iff hss w hw _ (hv _ (by omega)) _ (by omega), (hS i hi.le).1, (hS i hi.le).2 hi, h2m]
        refine ⟨Or.inr ?_, ?_⟩
        · refine div_lt_div_of_pos_right ?_ (by positivity); push_cast; linarith [hu.1]
        · refine div_le_div_of_nonneg_right ?_ (by positivity); push_cast; linarith
      · rw [clip_ss_eq_iff hss w hw _ (hv _ (by omega)) _ (by omega), (hS i hi.le).2 hi,
          show 2 * i + 1 + 1 = 2 * (i + 1) by ring, (hS (i + 1) hi).1, h2m]
        refine ⟨Or.inr ?_, ?_⟩
        · refine div_lt_div_of_pos_right ?_ (by positivity); push_cast; linarith [not_le.1 h]
        · refine div_le_div_of_nonneg_right ?_ (by positivity); push_cast; linarith [hu.2]
    have hO : ∀ i, i < m → min (ss (cumsum w) ((((2 * i + 1 : ℕ) : ℝ) + u) / w.length)) (w.length - 1) = 2 * i + 1 := by
      intro i hi
      rw [clip_ss_eq_iff hss w hw _ (hv _ (by omega)) _ (by omega), (hS i hi.le).2 hi,
        show 2 * i + 1 + 1 = 2 * (i + 1) by ring, (hS (i + 1) hi).1, h2m]
      refine ⟨Or.inr ?_, ?_⟩
      · refine div_lt_div_of_pos_right ?_ (by positivity); push_cast; linarith [hu.1]
      · refine div_le_div_of_nonneg_right ?_ (by positivity); push_cast; linarith [hu.2]
    have e : ((systematic ss w u).map φ).sum
        = ((List.range (2 * m)).map fun k : ℕ => φ (min (ss (cumsum w) (((k : ℝ) + u) / w.length)) (w.length - 1))).sum := by
      rw [systematic, systematicOrStratified, List.map_map, ← hlen]
      rfl
    rw [e, hpair]
    have hterm : ∀ i ∈ Finset.range m, φ (min (ss (cumsum w) ((((2 * i : ℕ) : ℝ) + u) / w.length)) (w.length - 1))
        + φ (min (ss (cumsum w) ((((2 * i + 1 : ℕ) : ℝ) + u) / w.length)) (w.length - 1)) = if u ≤ 1 / 2 then 1 else 0 := by
      intro i hi
      have hi := Finset.mem_range.1 hi
      have h2 : φ (2 * i + 1) = 0 := by simp only [hφ]; rw [if_neg (by omega)]
      rw [hE i hi, hO i hi, h2]
      split_ifs
      · simp [hφ]
      · rw [h2]; simp
    rw [Finset.sum_congr rfl hterm, Finset.sum_const, Finset.card_range, nsmul_eq_mul, h2m]
    split_ifs
    · field_simp
    · simp
  rw [hc, integral_Ico_eq_integral_Ioo, setIntegral_congr_fun (g := fun _ => (1 / 16 : ℝ)) measurableSet_Ioo]
  · simp
  · intro u hu
    simp only [hmean u hu]
    split_ifs <;> norm_num

example : SearchSorted ssCount ∧ (∀ a ∈ ([0.25, 0.75] : List ℝ), 0 ≤ a) ∧ ([0.25, 0.75] : List ℝ).sum = 1 := by
  refine ⟨fun _ _ _ => rfl, ?_, by norm_num⟩
  intro a ha
  simp only [List.mem_cons, List.not_mem_nil, or_false] at ha
  rcases ha with rfl | rfl <;> norm_num

end Mfs.Props

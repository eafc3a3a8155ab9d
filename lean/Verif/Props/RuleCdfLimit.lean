import Verif.Lemmas.Polya
import Verif.Props.RuleCdf
import Verif.Props.GaussRuleLaw

/-!
# C205: the cumulative weights of the rule converge uniformly to the distribution function
-/

namespace Mfs.Props

open Mfs.Spec Mfs.Quad1 Mfs.Converge Polynomial MeasureTheory ProbabilityTheory Filter Topology

theorem ruleMeas_Iic {n : ℕ} {r : (Fin n → ℝ) × (Fin n → ℝ)} (hr : PosRule r) (x : ℝ) :
    (ruleMeas r).real (Set.Iic x) = ∑ i with r.2 i ≤ x, r.1 i := by
  rw [← integral_indicator_one measurableSet_Iic, hr.integral, integ, Finset.sum_filter]
  refine Finset.sum_congr rfl fun i _ => ?_
  by_cases h : r.2 i ≤ x
  · rw [if_pos h, Set.indicator_of_mem (show r.2 i ∈ Set.Iic x from h), Pi.one_apply, mul_one]
  · rw [if_neg h, Set.indicator_of_notMem (show r.2 i ∉ Set.Iic x from h), mul_zero]

theorem inf_of_atomless (μ : Measure ℝ) [IsProbabilityMeasure μ] (hatom : ∀ x, μ {x} = 0) (t : Finset ℝ) : μ (t : Set ℝ)ᶜ ≠ 0 := by
  intro h
  have h0 : μ (t : Set ℝ) = 0 := by
    rw [← Set.biUnion_of_singleton (t : Set ℝ)]
    exact (measure_biUnion_null_iff t.countable_toSet).2 fun x _ => hatom x
  have := prob_compl_eq_one_sub (μ := μ) t.measurableSet
  rw [h, h0, tsub_zero] at this
  exact zero_ne_one this

variable (B : Backend) (hB : B.Valid) (μ : Measure ℝ) [IsProbabilityMeasure μ] (hμ : ∃ c : ℝ, 0 < c ∧ Integrable (fun x => Real.exp (c * |x|)) μ)
  (hatom : ∀ x, μ {x} = 0) (m s : ℕ → ℝ) (hs : ∀ N, s N ≠ 0) (sort ldl : Bool) (ms : ℕ → List ℝ)
  (hl : Tendsto (fun N => (ms N).length) atTop atTop) (hms : ∀ N, ∀ k < (ms N).length, (ms N).getD k 0 = ∫ x, ((x - m N) / s N) ^ k ∂μ)

include hB hμ hatom hs hl hms

/-- C205. For a law without atoms and with an exponential moment, the cumulative weights of the rule from more and more of its moments converge to
its distribution function uniformly on the line. -/
theorem C205_uniform (ε : ℝ) (hε : 0 < ε) :
    ∀ᶠ N in atTop, ∀ x, |∑ i with (momentQuadrature B (ms N) (m N) (s N) sort ldl).2 i ≤ x, (momentQuadrature B (ms N) (m N) (s N) sort ldl).1 i -
      μ.real (Set.Iic x)| ≤ ε := by
  have hinf := inf_of_atomless μ hatom
  obtain ⟨n0, hn0⟩ := eventually_atTop.1 (hl.eventually_ge_atTop 2)
  have h := fun N => rule_of_lawK B hB μ (SomeExpMoment.pow hμ) hinf (ms (N + n0)) (hn0 _ (by omega)) (m (N + n0)) (s (N + n0)) (hs _) (hms _) sort ldl
  have hprob : ∀ N, IsProbabilityMeasure (ruleMeas (momentQuadrature B (ms (N + n0)) (m (N + n0)) (s (N + n0)) sort ldl)) := fun N => (h N).1.isProb
  have hw : ∀ f : BoundedContinuousFunction ℝ ℝ,
      Tendsto (fun N => ∫ x, f x ∂ruleMeas (momentQuadrature B (ms (N + n0)) (m (N + n0)) (s (N + n0)) sort ldl)) atTop (𝓝 (∫ x, f x ∂μ)) := by
    intro f
    have key := C191_rule_converges B hB μ hμ hinf f f.continuous ⟨‖f‖, 0, fun x => by
      have := f.norm_coe_le_norm x
      rw [Real.norm_eq_abs] at this
      have h0 := norm_nonneg f
      rw [pow_zero]
      linarith⟩ m s hs sort ldl ms hl hms
    refine ((tendsto_add_atTop_iff_nat n0).2 key).congr fun N => ?_
    rw [(h N).1.integral]
  have hu := Polya.uniform_of_weak μ hatom hw ε hε
  obtain ⟨N0, hN0⟩ := eventually_atTop.1 hu
  refine eventually_atTop.2 ⟨N0 + n0, fun N hN x => ?_⟩
  obtain ⟨M, rfl⟩ : ∃ M, N = M + n0 := ⟨N - n0, by omega⟩
  have := hN0 M (by omega) x
  rwa [ruleMeas_Iic (h M).1] at this

/-- C205. All weights of the rule converge to zero, uniformly. -/
theorem C205_weights (ε : ℝ) (hε : 0 < ε) : ∀ᶠ N in atTop, ∀ i, (momentQuadrature B (ms N) (m N) (s N) sort ldl).1 i ≤ ε := by
  filter_upwards [C205_uniform B hB μ hμ hatom m s hs sort ldl ms hl hms (ε / 3) (by positivity), hl.eventually_ge_atTop 2] with N hN h2 i
  have hr := (rule_of_lawK B hB μ (SomeExpMoment.pow hμ) (inf_of_atomless μ hatom) (ms N) h2 (m N) (s N) (hs N) (hms N) sort ldl).1
  set r := momentQuadrature B (ms N) (m N) (s N) sort ldl
  have hc := (Polya.cdf_continuous μ hatom).continuousAt (x := r.2 i)
  obtain ⟨δ, hδ, hδ'⟩ := Metric.continuousAt_iff.1 hc (ε / 3) (by positivity)
  have hy := hδ' (x := r.2 i - δ / 2) (by rw [Real.dist_eq, sub_sub_cancel_left, abs_neg, abs_of_pos (by positivity)]; linarith)
  rw [Real.dist_eq, cdf_eq_real, cdf_eq_real] at hy
  have h1 := hN (r.2 i)
  have h3 := hN (r.2 i - δ / 2)
  have hsum : ∑ j with r.2 j ≤ r.2 i - δ / 2, r.1 j + r.1 i ≤ ∑ j with r.2 j ≤ r.2 i, r.1 j := by
    classical
    rw [add_comm, ← Finset.sum_insert (by simpa using hδ)]
    refine Finset.sum_le_sum_of_subset_of_nonneg (fun j hj => ?_) fun j _ _ => (hr.pos j).le
    rcases Finset.mem_insert.1 hj with rfl | hj
    · simp
    · have := (Finset.mem_filter.1 hj).2
      simp only [Finset.mem_filter, Finset.mem_univ, true_and]
      linarith
  have a1 := (abs_le.1 h1).2
  have a2 := (abs_le.1 h3).1
  have a3 := (abs_lt.1 hy).1
  linarith

omit hB hμ hatom hs hl hms

/-- C205, for a normal law: the rule from its first `2 (N + 1)` moments. -/
theorem C205_normal (B : Backend) (hB : B.Valid) (m₀ : ℝ) (v : NNReal) (hv : v ≠ 0) (m s : ℕ → ℝ) (hs : ∀ N, s N ≠ 0) (sort ldl : Bool)
    (ms : ℕ → List ℝ) (hms : ms = fun N => (List.range (2 * (N + 1))).map fun k => ∫ x, ((x - m N) / s N) ^ k ∂gaussianReal m₀ v)
    (ε : ℝ) (hε : 0 < ε) : ∀ᶠ N in atTop,
      (∀ x, |∑ i with (momentQuadrature B (ms N) (m N) (s N) sort ldl).2 i ≤ x, (momentQuadrature B (ms N) (m N) (s N) sort ldl).1 i -
        (gaussianReal m₀ v).real (Set.Iic x)| ≤ ε) ∧ ∀ i, (momentQuadrature B (ms N) (m N) (s N) sort ldl).1 i ≤ ε := by
  have hexp : ∃ c : ℝ, 0 < c ∧ Integrable (fun x => Real.exp (c * |x|)) (gaussianReal m₀ v) := by
    refine ⟨1, one_pos, ?_⟩
    refine ((integrable_exp_mul_gaussianReal 1).add (integrable_exp_mul_gaussianReal (-1))).mono' (by fun_prop) (Eventually.of_forall fun x => ?_)
    rw [Real.norm_eq_abs, abs_of_pos (Real.exp_pos _), Pi.add_apply]
    rcases abs_cases x with h | h
    · rw [h.1]
      linarith [Real.exp_pos (-1 * x)]
    · rw [h.1, mul_neg, ← neg_mul]
      linarith [Real.exp_pos (1 * x)]
  have hat : ∀ x, gaussianReal m₀ v {x} = 0 := fun x => (nullSingletonClass_gaussianReal hv).measure_singleton x
  have hl : Tendsto (fun N => (ms N).length) atTop atTop := by
    subst hms
    simp only [List.length_map, List.length_range]
    exact tendsto_atTop_mono (fun N => show N ≤ 2 * (N + 1) by omega) tendsto_id
  have hmm : ∀ N, ∀ k < (ms N).length, (ms N).getD k 0 = ∫ x, ((x - m N) / s N) ^ k ∂gaussianReal m₀ v := by
    subst hms
    intro N k hk
    simp only [List.length_map, List.length_range] at hk
    simp [List.getD_eq_getElem?_getD, hk]
  filter_upwards [C205_uniform B hB _ hexp hat m s hs sort ldl ms hl hmm ε hε, C205_weights B hB _ hexp hat m s hs sort ldl ms hl hmm ε hε]
    with N h1 h2
  exact ⟨h1, h2⟩

end Mfs.Props

import Verif.Spec.ProperScore
import Verif.Props.FilterLik
import Verif.Props.FilterLikND
import Verif.Props.ConvergeLine
import Verif.Props.BenesTme

/-!
# C208: the negative log-likelihood of the moment filters is a proper score
-/

namespace Mfs.Props

open Mfs.Spec Mfs.Filter1 Mfs.Converge Mfs.SsModels Mfs.Moments1 Mfs.Tme Mfs.Benes MeasureTheory ProbabilityTheory Filter Topology

theorem kl_point {p q : ℝ} (hp : 0 ≤ p) (hq : 0 < q) :
    0 ≤ p * (Real.log p - Real.log q) - p + q ∧ (p * (Real.log p - Real.log q) - p + q = 0 → p = q) := by
  rcases hp.eq_or_lt with rfl | hp
  · exact ⟨by simpa using hq.le, fun h => absurd (by simpa using h) hq.ne'⟩
  · have e : p * (Real.log p - Real.log q) - p + q = p * ((q / p - 1) - Real.log (q / p)) := by
      rw [Real.log_div hq.ne' hp.ne']
      field_simp
      ring
    rw [e]
    refine ⟨mul_nonneg hp.le (sub_nonneg.2 (Real.log_le_sub_one_of_pos (by positivity))), fun h => ?_⟩
    by_contra hne
    have h1 : q / p ≠ 1 := fun h' => hne ((div_eq_one_iff_eq hp.ne').1 h').symm
    have := Real.log_lt_sub_one_of_pos (by positivity) h1
    have h2 : 0 < p * ((q / p - 1) - Real.log (q / p)) := mul_pos hp (sub_pos.2 this)
    exact h2.ne' h

/-- likelihoods that sum to one give a proper score. -/
theorem properScore_of_hasSum {D : Type} {nell : D → ℝ} (h : HasSum (fun z => Real.exp (-nell z)) 1) : ProperScore nell := by
  intro p hp hp1
  refine ⟨fun hs => ?_, fun c A hA => ?_⟩
  · have hS := hs.hasSum
    have hf : HasSum (fun z => p z * (Real.log (p z) - Real.log (Real.exp (-nell z))) - p z + Real.exp (-nell z)) (∑' z, p z * (nell z + Real.log (p z))) := by
      have := (hS.sub hp1).add h
      simp only [sub_add_cancel] at this
      simpa only [Real.log_exp, sub_neg_eq_add, add_comm (nell _)] using this
    have hnn := fun z => (kl_point (hp z) (Real.exp_pos (-nell z))).1
    refine ⟨hf.nonneg hnn, fun h0 z => ?_, fun he => ?_⟩
    · rw [h0] at hf
      exact ((kl_point (hp z) (Real.exp_pos (-nell z))).2 (congrFun ((hasSum_zero_iff_of_nonneg hnn).1 hf) z)).symm
    · have : ∀ z, p z * (nell z + Real.log (p z)) = 0 := fun z => by
        rw [← he z, Real.log_exp]; ring
      simp [this]
  · have h1 : ∀ z, A.indicator p z ≤ Real.exp (-c) * Real.exp (-nell z) := fun z => by
      by_cases hz : z ∈ A
      · rw [Set.indicator_of_mem hz]
        rcases (hp z).eq_or_lt with h0 | h0
        · rw [← h0]; positivity
        · rw [← Real.exp_add, ← Real.exp_log h0, Real.exp_le_exp]
          linarith [hA z hz]
      · rw [Set.indicator_of_notMem hz]; positivity
    have h2 := h.mul_left (Real.exp (-c))
    rw [mul_one] at h2
    exact hasSum_le h1 (hp1.summable.indicator A).hasSum h2

variable {Y : Type}

/-- **C208 (one dimension).** For discrete measurements with a positive probability mass function, the negative log-likelihood that each of the three filters returns is a proper score of the
measurement sequences of length `T`, whatever the moments, the model moments and the number of moments. -/
theorem C208_filters (B : Backend) (hB : B.Valid) (stable : Bool) (pdf : Y → ℝ → ℝ) (hpos : ∀ y x, 0 < pdf y x) (hsum : ∀ x, HasSum (fun y => pdf y x) 1) (T : ℕ) :
    (∀ (P : ℝ → ℕ → ℝ) (rms0 : List ℝ), 2 ≤ rms0.length → ProperScore fun ys : Fin T → Y => (filterRms B P pdf rms0 (List.ofFn ys) stable).2) ∧
    (∀ (P : ℝ → ℕ → ℝ → ℝ) (cm : ℝ → ℝ) (cms0 : List ℝ) (m0 : ℝ), 2 ≤ cms0.length → ProperScore fun ys : Fin T → Y => (filterCms B P cm pdf cms0 m0 (List.ofFn ys) stable).2) ∧
    (∀ (P : ℝ → ℕ → ℝ → ℝ → ℝ) (cm cv : ℝ → ℝ) (scms0 : List ℝ) (m0 s0 : ℝ), 2 ≤ scms0.length →
      ProperScore fun ys : Fin T → Y => (filterScms B P cm cv pdf scms0 m0 s0 (List.ofFn ys) stable).2) := by
  obtain ⟨h1, h2, h3⟩ := C99_likelihood_normalised B hB stable pdf hpos hsum T
  exact ⟨fun P r hr => properScore_of_hasSum (h1 P r hr), fun P cm r m hr => properScore_of_hasSum (h2 P cm r m hr),
    fun P cm cv r m s hr => properScore_of_hasSum (h3 P cm cv r m s hr)⟩

/-- **C208 (several dimensions).** The same for the multidimensional filters, as long as the predictive probabilities that occur are positive. -/
theorem C208_nd (B : Backend) (hB : B.Valid) (stable : Bool) (pdf : Y → List ℝ → ℝ) (hsum : ∀ x, HasSum (fun y => pdf y x) 1) (T : ℕ) (mis : List (List ℕ))
    (inds : List (List (List ℤ))) (hd : 2 ≤ inds.length) (hz : 0 < (inds.getD 0 []).length) (ms0 m0 s0 : List ℝ) (hl : mis.length = ms0.length) (Pr : FilterND.CondMoments Unit)
    (Pc : FilterND.CondMoments (List ℝ)) (Ps : FilterND.CondMoments (List ℝ × List ℝ)) (cm : List ℝ → List ℝ) (cmv : List ℝ → List ℝ × List ℝ) :
    let dim := (mis.headD []).length
    ((∀ ys, ∀ l ∈ liks (FilterND.nextRms B stable pdf mis inds Pr) (FilterND.likRms B stable pdf mis inds Pr) ms0 ys, 0 < l) →
      ∃ nell : (Fin T → Y) → ℝ, (∀ ys, ∃ recs, FilterND.filterRms B Pr pdf (List.ofFn ys) (mis, inds) ms0 stable = .ok (recs, nell ys)) ∧ ProperScore nell) ∧
    ((∀ ys, ∀ l ∈ liks (FilterND.nextCms B stable pdf dim mis inds Pc cm) (FilterND.likCms B stable pdf dim mis inds Pc cm) (ms0, m0) ys, 0 < l) →
      ∃ nell : (Fin T → Y) → ℝ, (∀ ys, ∃ recs, FilterND.filterCms B Pc cm pdf (List.ofFn ys) (mis, inds) ms0 m0 stable = .ok (recs, nell ys)) ∧ ProperScore nell) ∧
    ((∀ ys, ∀ l ∈ liks (FilterND.nextScms B stable pdf dim mis inds Ps cmv) (FilterND.likScms B stable pdf dim mis inds Ps cmv) (ms0, m0, s0) ys, 0 < l) →
      ∃ nell : (Fin T → Y) → ℝ, (∀ ys, ∃ recs, FilterND.filterScms B Ps cmv pdf (List.ofFn ys) (mis, inds) ms0 m0 s0 stable = .ok (recs, nell ys)) ∧ ProperScore nell) := by
  intro dim
  obtain ⟨h1, h2, h3⟩ := C138_nd_likelihood_normalised B hB stable pdf hsum T mis inds hd hz ms0 m0 s0 hl Pr Pc Ps cm cmv
  refine ⟨fun h => ?_, fun h => ?_, fun h => ?_⟩
  · obtain ⟨n, a, b⟩ := h1 h; exact ⟨n, a, properScore_of_hasSum b⟩
  · obtain ⟨n, a, b⟩ := h2 h; exact ⟨n, a, properScore_of_hasSum b⟩
  · obtain ⟨n, a, b⟩ := h3 h; exact ⟨n, a, properScore_of_hasSum b⟩

/-- **C208 (parameters).** For finitely many possible measurements: if the data have the law that the filter assigns to them with one set of model moments, no other set of model moments,
of whatever order, has a smaller expected negative log-likelihood. -/
theorem C208_parameters [Fintype Y] (B : Backend) (hB : B.Valid) (stable : Bool) (pdf pdf' : Y → ℝ → ℝ) (hpos : ∀ y x, 0 < pdf y x) (hsum : ∀ x, ∑ y, pdf y x = 1)
    (hpos' : ∀ y x, 0 < pdf' y x) (hsum' : ∀ x, ∑ y, pdf' y x = 1) (T : ℕ) (P P' : ℝ → ℕ → ℝ) (rms0 rms0' : List ℝ) (hr : 2 ≤ rms0.length) (hr' : 2 ≤ rms0'.length) :
    let nell := fun ys : Fin T → Y => (filterRms B P pdf rms0 (List.ofFn ys) stable).2
    let nell' := fun ys : Fin T → Y => (filterRms B P' pdf' rms0' (List.ofFn ys) stable).2
    ∑ ys, Real.exp (-nell ys) * nell ys ≤ ∑ ys, Real.exp (-nell ys) * nell' ys := by
  intro nell nell'
  have hs : ∀ x, HasSum (fun y => pdf y x) 1 := fun x => by simpa [hsum x] using hasSum_fintype fun y => pdf y x
  have hs' : ∀ x, HasSum (fun y => pdf' y x) 1 := fun x => by simpa [hsum' x] using hasSum_fintype fun y => pdf' y x
  have h1 := (C99_likelihood_normalised B hB stable pdf hpos hs T).1 P rms0 hr
  have h2 := (((C208_filters B hB stable pdf' hpos' hs' T).1 P' rms0' hr') (fun ys => Real.exp (-nell ys)) (fun _ => (Real.exp_pos _).le) h1).1 (hasSum_fintype _).summable
  have h3 := h2.1
  rw [tsum_fintype, ← sub_nonneg] at h3
  have e : ∑ ys, Real.exp (-nell ys) * (nell' ys + Real.log (Real.exp (-nell ys))) = ∑ ys, Real.exp (-nell ys) * nell' ys - ∑ ys, Real.exp (-nell ys) * nell ys := by
    rw [← Finset.sum_sub_distrib]
    refine Finset.sum_congr rfl fun ys _ => ?_
    rw [Real.log_exp]; ring
  have h4 : 0 ≤ ∑ ys, Real.exp (-nell ys) * (nell' ys + Real.log (Real.exp (-nell ys))) := by simpa using h3
  rw [e] at h4
  linarith

/-- **C208 (limit).** For finitely many possible measurements and the models of C133, the excess of the expected negative log-likelihood over the entropy of the exact law of the data — the
Kullback–Leibler divergence of the filter's law from it — tends to zero as the number of moments grows. -/
theorem C208_limit [Fintype Y] (B : Backend) (hB : B.Valid) (stable : Bool) (K : Kernel ℝ ℝ) [IsMarkovKernel K] (hK : GoodKernel K) (μ : Measure ℝ) [IsProbabilityMeasure μ]
    (hμ : ∀ c : ℝ, Integrable (fun x => Real.exp (c * x)) μ) (hinf : ∀ s : Finset ℝ, μ (s : Set ℝ)ᶜ ≠ 0) (pdf : Y → ℝ → ℝ) (hpc : ∀ y, Continuous (pdf y))
    (hpdf : ∀ y x, 0 < pdf y x) (hpb : ∀ y, ∃ G, ∀ x, pdf y x ≤ G) (T : ℕ) :
    let p : (Fin T → Y) → ℝ := fun ys => ∫ x, markovE K pdf (fun _ => 1) (List.ofFn ys) x ∂μ
    (∀ P : ℝ → ℕ → ℝ, (∀ x k, P x k = ∫ z, z ^ k ∂K x) →
      Tendsto (fun N => ∑ ys, p ys * ((filterRms B P pdf ((List.range N).map fun k => ∫ x, x ^ k ∂μ) (List.ofFn ys) stable).2 + Real.log (p ys))) atTop (𝓝 0)) ∧
    (∀ (P : ℝ → ℕ → ℝ → ℝ) (cm : ℝ → ℝ) (m0 : ℝ), (∀ x k m, P x k m = ∫ z, (z - m) ^ k ∂K x) →
      Tendsto (fun N => ∑ ys, p ys * ((filterCms B P cm pdf ((List.range N).map fun k => ∫ x, (x - m0) ^ k ∂μ) m0 (List.ofFn ys) stable).2 + Real.log (p ys))) atTop (𝓝 0)) ∧
    (∀ (P : ℝ → ℕ → ℝ → ℝ → ℝ) (cm cv : ℝ → ℝ) (m0 s0 : ℝ), s0 ≠ 0 → (∀ x k m s, P x k m s = ∫ z, ((z - m) / s) ^ k ∂K x) → (∀ x, 0 < cv x) →
      Tendsto (fun N => ∑ ys, p ys * ((filterScms B P cm cv pdf ((List.range N).map fun k => ∫ x, ((x - m0) / s0) ^ k ∂μ) m0 s0 (List.ofFn ys) stable).2 + Real.log (p ys)))
        atTop (𝓝 0)) := by
  intro p
  have key : ∀ f : ℕ → (Fin T → Y) → ℝ, (∀ ys, Tendsto (fun N => f N ys) atTop (𝓝 (-Real.log (p ys)))) →
      Tendsto (fun N => ∑ ys, p ys * (f N ys + Real.log (p ys))) atTop (𝓝 0) := fun f hf => by
    have := tendsto_finsetSum (Finset.univ : Finset (Fin T → Y)) fun ys _ => ((hf ys).add_const (Real.log (p ys))).const_mul (p ys)
    simpa using this
  have C := fun ys : Fin T → Y => C133_filters_converge B hB stable K hK.1 hK.2 hK.3 hK.4 μ hμ hinf pdf hpc hpdf hpb (List.ofFn ys)
  exact ⟨fun P hP => key _ fun ys => ((C ys).2.1 P hP).1, fun P cm m0 hP => key _ fun ys => ((C ys).2.2.1 P cm m0 hP).1,
    fun P cm cv m0 s0 hs hP hcv => key _ fun ys => ((C ys).2.2.2 P cm cv m0 s0 hs hP hcv).1⟩

theorem benesBool_hasSum (x : ℝ) : HasSum (fun y : Bool => benesBool y x) 1 := by
  have h := hasSum_fintype fun y : Bool => benesBool y x
  rw [benesBool_eq] at h ⊢
  simpa using h

/-- **C208 (the Benes–Bernoulli experiment).** With a Taylor moment expansion of sufficient order the negative log-likelihood of the moment filter is a proper score of the binary measurements for
every number of moments; the exact law `p` of `T` measurements of the continuous-time model is a probability; and the expected negative log-likelihood of data from the model is never below
the entropy of `p` and tends to it as the number of moments grows. -/
theorem C208_benes (B : Backend) (hB : B.Valid) (stable : Bool) (dt : ℝ) (hdt : 0 < dt) (order : ℕ → ℕ) (ho : ∀ N, 2 * N ≤ order N + 1) (meanCov : ℝ → ℝ × ℝ) (T : ℕ) :
    let μ := mixture [⟨-0.5, 0.05, 0.5⟩, ⟨0.5, 0.05, 0.5⟩]
    let lik := fun (y : Bool) (x : ℝ) => if y then 1 / (1 + Real.exp (-x ^ 3 / 5)) else 1 - 1 / (1 + Real.exp (-x ^ 3 / 5))
    let p : (Fin T → Bool) → ℝ := fun ys => ∫ x, markovE (benesKernel dt) lik (fun _ => 1) (List.ofFn ys) x ∂μ
    let F := fun N => sdeCondMomentsTme (expectation benesDrift dispersion1 dt (order N)) meanCov
    let nell := fun N (ys : Fin T → Bool) => (filterRms B (F N).raw benesBool (init1 N).rms (List.ofFn ys) stable).2
    (∀ N, 1 ≤ N → ProperScore (nell N)) ∧ (∀ ys, 0 < p ys) ∧ ∑ ys, p ys = 1 ∧
    (∀ N, 1 ≤ N → -∑ ys, p ys * Real.log (p ys) ≤ ∑ ys, p ys * nell N ys) ∧
    Tendsto (fun N => ∑ ys, p ys * nell N ys) atTop (𝓝 (-∑ ys, p ys * Real.log (p ys))) := by
  intro μ lik p F nell
  have hlen : ∀ N, (init1 N).rms.length = 2 * N := fun N => by simp [init1, GaussianSum1D.new]
  have hsum : ∀ N, 1 ≤ N → HasSum (fun ys => Real.exp (-nell N ys)) 1 := fun N hN =>
    (C99_likelihood_normalised B hB stable benesBool benesBool_pos benesBool_hasSum T).1 _ _ (by rw [hlen]; omega)
  have C := fun ys : Fin T → Bool => (C154_benes_exact_filter B hB stable dt hdt order ho meanCov (List.ofFn ys)).2.1
  have hpos : ∀ ys, 0 < p ys := fun ys => (C ys).1
  have hlim : ∀ ys, Tendsto (fun N => nell N ys) atTop (𝓝 (-Real.log (p ys))) := fun ys => (C ys).2.1
  have hone : ∑ ys, p ys = 1 := by
    have h1 : Tendsto (fun N => ∑ ys, Real.exp (-nell N ys)) atTop (𝓝 (∑ ys, p ys)) := by
      refine tendsto_finsetSum _ fun ys _ => ?_
      have := (Real.continuous_exp.tendsto _).comp (hlim ys).neg
      rwa [neg_neg, Real.exp_log (hpos ys)] at this
    refine tendsto_nhds_unique h1 (tendsto_const_nhds.congr' ?_)
    filter_upwards [eventually_ge_atTop 1] with N hN
    have := (hsum N hN).tsum_eq
    rw [tsum_fintype] at this
    exact this.symm
  have hscore : ∀ N, 1 ≤ N → ProperScore (nell N) := fun N hN => properScore_of_hasSum (hsum N hN)
  refine ⟨hscore, hpos, hone, fun N hN => ?_, ?_⟩
  · have hp1 : HasSum p 1 := by simpa [hone] using hasSum_fintype p
    have := ((hscore N hN p (fun ys => (hpos ys).le) hp1).1 (hasSum_fintype _).summable).1
    rw [tsum_fintype] at this
    simp only [mul_add, Finset.sum_add_distrib] at this
    linarith
  · have := tendsto_finsetSum (Finset.univ : Finset (Fin T → Bool)) fun ys _ => (hlim ys).const_mul (p ys)
    simpa using this

/-- the measurement model of the experiment, with the first moments of a standard normal law. -/
example (T : ℕ) : ProperScore fun ys : Fin T → Bool => (filterRms theBackend (fun x k => x ^ k) benesBool [1, 0, 1, 0, 3, 0] (List.ofFn ys) false).2 :=
  (C208_filters theBackend theBackend_valid false benesBool benesBool_pos benesBool_hasSum T).1 _ _ (by norm_num)

theorem liks_forall {S : Type} {next : S → Y → S} {lik : S → Y → ℝ} (h : ∀ s y, 0 < lik s y) (ys : List Y) : ∀ s, ∀ l ∈ liks next lik s ys, 0 < l := by
  induction ys with
  | nil => simp [liks]
  | cons y ys ih =>
    intro s l hl
    rw [liks, List.mem_cons] at hl
    rcases hl with rfl | hl
    · exact h s y
    · exact ih _ l hl

/-- positive predictive probabilities in two dimensions: measurements that do not depend on the state. -/
example (mis : List (List ℕ)) (inds : List (List (List ℤ))) (hd : 2 ≤ inds.length) (hz : 0 < (inds.getD 0 []).length) (ms0 : List ℝ) (P : FilterND.CondMoments Unit) :
    ∀ ys, ∀ l ∈ liks (FilterND.nextRms theBackend false (fun (y : Bool) _ => if y then 1 / 3 else 2 / 3) mis inds P)
      (FilterND.likRms theBackend false (fun (y : Bool) _ => if y then 1 / 3 else 2 / 3) mis inds P) ms0 ys, 0 < l := by
  intro ys
  refine liks_forall (fun s y => ?_) ys ms0
  have hw := C22_nd_weights_sum_one theBackend theBackend_valid (FilterND.predRms theBackend false mis inds P s) inds hd hz none none false false
  have : ∀ (r : List (ℝ × List ℝ)) (c : ℝ), integND r (fun _ => c) = (r.map (·.1)).sum * c := fun r c => by rw [integND, List.sum_map_mul_right]
  rw [FilterND.likRms, this, FilterND.ruleRms, hw]
  cases y <;> norm_num

/-- two parameters of the measurement model. -/
example (T : ℕ) := C208_parameters theBackend theBackend_valid false (fun (y : Bool) (_ : ℝ) => if y then 1 / 3 else 2 / 3) benesBool (by intro y x; cases y <;> norm_num)
  (by intro x; simp; norm_num) benesBool_pos (fun x => by have := (benesBool_hasSum x).tsum_eq; rwa [tsum_fintype] at this) T (fun x k => x ^ k) (fun x k => (2 * x) ^ k)
  [1, 0, 1, 0] [1, 0, 1, 0, 3, 0] (by norm_num) (by norm_num)

/-- the hypotheses of the limit: the Benes transition. -/
example (T : ℕ) (hm : IsMarkovKernel (benesKernel 0.01)) := C208_limit theBackend theBackend_valid false (benesKernel 0.01) (goodKernel_benes (by norm_num)) (gaussianReal 0 1)
  (gaussianReal_expMoments 0 1) (gaussianReal_inf 0 one_ne_zero) benesBool benesBool_continuous benesBool_pos (fun y => ⟨1, benesBool_le y⟩) T

end Mfs.Props

import Mathlib.Probability.CDF
import Mathlib.MeasureTheory.Measure.Portmanteau
import Mathlib.Topology.Order.IntermediateValue

/-!
Pointwise convergence of distribution functions to a continuous one is uniform (Pólya).
-/

namespace Mfs.Polya

open Filter Topology MeasureTheory ProbabilityTheory

theorem uniform {G : ℕ → ℝ → ℝ} {F : ℝ → ℝ} (hG : ∀ N, Monotone (G N)) (h0 : ∀ N x, 0 ≤ G N x) (h1 : ∀ N x, G N x ≤ 1)
    (hF : Monotone F) (hFc : Continuous F) (hF0 : Tendsto F atBot (𝓝 0)) (hF1 : Tendsto F atTop (𝓝 1))
    (hlim : ∀ x, Tendsto (fun N => G N x) atTop (𝓝 (F x))) (ε : ℝ) (hε : 0 < ε) :
    ∀ᶠ N in atTop, ∀ x, |G N x - F x| ≤ ε := by
  obtain ⟨K, hK⟩ := exists_nat_gt (3 / ε)
  have hK0 : (0 : ℝ) < K := (by positivity : (0 : ℝ) < 3 / ε).trans hK
  have hKε : 3 / (K : ℝ) < ε := by
    rw [div_lt_iff₀ hε] at hK
    rw [div_lt_iff₀ hK0]
    linarith
  have hF0' : ∀ x, 0 ≤ F x := fun x => hF.le_of_tendsto hF0 x
  have hF1' : ∀ x, F x ≤ 1 := fun x => hF.ge_of_tendsto hF1 x
  -- the quantiles
  have ht : ∀ j : ℕ, ∃ t, 0 < j → j < K → F t = j / K := by
    intro j
    by_cases hj : 0 < j ∧ j < K
    · have ha : (0 : ℝ) < j / K := div_pos (by exact_mod_cast hj.1) hK0
      have hb : (j : ℝ) / K < 1 := (div_lt_one hK0).2 (by exact_mod_cast hj.2)
      obtain ⟨a, hA⟩ := (hF0.eventually_lt_const ha).exists
      obtain ⟨b, hB⟩ := (hF1.eventually_const_lt hb).exists
      have hab : a ≤ b := by
        by_contra h
        exact absurd (hF (not_le.1 h).le) (not_le.2 (hA.trans hB))
      obtain ⟨t, -, ht⟩ := intermediate_value_Icc hab hFc.continuousOn ⟨hA.le, hB.le⟩
      exact ⟨t, fun _ _ => ht⟩
    · exact ⟨0, fun h1 h2 => absurd ⟨h1, h2⟩ hj⟩
  choose t ht using ht
  have hev : ∀ᶠ N in atTop, ∀ j < K, |G N (t j) - F (t j)| < 1 / K := by
    have := (Finset.range K).eventually_all.2 fun j (_ : j ∈ Finset.range K) =>
      Metric.tendsto_nhds.1 (hlim (t j)) (1 / K) (by positivity)
    filter_upwards [this] with N h j hj
    have := h j (Finset.mem_range.2 hj)
    rwa [Real.dist_eq] at this
  filter_upwards [hev] with N hN x
  set j := ⌊F x * K⌋₊ with hj
  have hjl : (j : ℝ) ≤ F x * K := Nat.floor_le (mul_nonneg (hF0' x) hK0.le)
  have hju : F x * K < j + 1 := Nat.lt_floor_add_one _
  have hl : (j : ℝ) / K ≤ F x := (div_le_iff₀ hK0).2 hjl
  have hu : F x < ((j + 1 : ℕ) : ℝ) / K := (lt_div_iff₀ hK0).2 (by push_cast; exact hju)
  have e3 : 3 / (K : ℝ) = 1 / K + 1 / K + 1 / K := by ring
  have ep : (0 : ℝ) < 1 / K := by positivity
  have eu : ((j + 1 : ℕ) : ℝ) / K = j / K + 1 / K := by push_cast; ring
  rw [abs_le]
  constructor
  · -- lower bound
    by_cases hj1 : 1 < j
    · have hjK : j - 1 < K := by
        have : (j : ℝ) ≤ K := hjl.trans (by nlinarith [hF1' x])
        have : j ≤ K := by exact_mod_cast this
        omega
      have hq := ht (j - 1) (by omega) hjK
      have ec : ((j - 1 : ℕ) : ℝ) / K = j / K - 1 / K := by
        rw [Nat.cast_sub (by omega)]; push_cast; ring
      have hlt : t (j - 1) ≤ x := by
        by_contra h
        have := hF (not_le.1 h).le
        rw [hq, ec] at this
        linarith
      have h2 := hG N hlt
      have h3 := (abs_lt.1 (hN (j - 1) hjK)).1
      rw [hq, ec] at h3
      linarith
    · have : (j : ℝ) ≤ 1 := by exact_mod_cast not_lt.1 hj1
      have : F x < 2 / K := by rw [lt_div_iff₀ hK0]; linarith
      have e2 : 2 / (K : ℝ) = 1 / K + 1 / K := by ring
      linarith [h0 N x]
  · by_cases hjK : j + 1 < K
    · have hq := ht (j + 1) (by omega) hjK
      have hlt : x ≤ t (j + 1) := by
        by_contra h
        have := hF (not_le.1 h).le
        rw [hq] at this
        linarith
      have h2 := hG N hlt
      have h3 := (abs_lt.1 (hN (j + 1) hjK)).2
      rw [hq] at h3
      linarith
    · have : (K : ℝ) ≤ j + 1 := by exact_mod_cast not_lt.1 hjK
      have : 1 ≤ ((j + 1 : ℕ) : ℝ) / K := (one_le_div hK0).2 (by push_cast; exact this)
      linarith [h1 N x]

theorem cdf_continuous (μ : Measure ℝ) [IsProbabilityMeasure μ] (hμ : ∀ x, μ {x} = 0) : Continuous (cdf μ) := by
  rw [continuous_iff_continuousAt]
  intro x
  rw [(monotone_cdf μ).continuousAt_iff_leftLim_eq_rightLim, (cdf μ).rightLim_eq]
  have h := (cdf μ).measure_singleton x
  rw [measure_cdf, hμ] at h
  have h1 := ENNReal.ofReal_eq_zero.1 h.symm
  exact le_antisymm ((monotone_cdf μ).leftLim_le le_rfl) (by linarith)

/-- weak convergence to a law without atoms. -/
theorem uniform_of_weak {ν : ℕ → Measure ℝ} [∀ N, IsProbabilityMeasure (ν N)] (μ : Measure ℝ) [IsProbabilityMeasure μ] (hμ : ∀ x, μ {x} = 0)
    (hw : ∀ f : BoundedContinuousFunction ℝ ℝ, Tendsto (fun N => ∫ x, f x ∂ν N) atTop (𝓝 (∫ x, f x ∂μ))) (ε : ℝ) (hε : 0 < ε) :
    ∀ᶠ N in atTop, ∀ x, |(ν N).real (Set.Iic x) - μ.real (Set.Iic x)| ≤ ε := by
  let P : ℕ → ProbabilityMeasure ℝ := fun N => ⟨ν N, inferInstance⟩
  let Q : ProbabilityMeasure ℝ := ⟨μ, inferInstance⟩
  have hlim : Tendsto P atTop (𝓝 Q) :=
    ProbabilityMeasure.tendsto_iff_forall_integral_tendsto.2 hw
  refine uniform (G := fun N x => (ν N).real (Set.Iic x)) (F := fun x => μ.real (Set.Iic x)) (fun N x y h => measureReal_mono (Set.Iic_subset_Iic.2 h))
    (fun N x => measureReal_nonneg) (fun N x => measureReal_le_one) (fun x y h => measureReal_mono (Set.Iic_subset_Iic.2 h)) ?_ ?_ ?_ (fun x => ?_) ε hε
  · simpa only [← cdf_eq_real] using cdf_continuous μ hμ
  · simpa only [← cdf_eq_real] using tendsto_cdf_atBot μ
  · simpa only [← cdf_eq_real] using tendsto_cdf_atTop μ
  · have h := ProbabilityMeasure.tendsto_measure_of_null_frontier_of_tendsto' hlim (E := Set.Iic x)
      (by rw [frontier_Iic]; exact hμ x)
    exact (ENNReal.tendsto_toReal (measure_ne_top μ _)).comp h

end Mfs.Polya

import Mathlib.MeasureTheory.Measure.LevyConvergence
import Mathlib.MeasureTheory.SpecificCodomains.WithLp
import Mathlib.Analysis.SpecialFunctions.Trigonometric.Basic

/-!
# Products of cosines determine weak convergence of laws on `ℝ^T`
-/

namespace Mfs.WeakPath

open MeasureTheory ProbabilityTheory Filter Topology Complex

variable {T : ℕ}

/-- the cosine or the sine. -/
noncomputable def wave (u : Fin T → ℝ) (S : Finset (Fin T)) (t : Fin T) (x : ℝ) : ℝ := Real.cos (u t * x + if t ∈ S then 0 else -(Real.pi / 2))

theorem exp_sum (u x : Fin T → ℝ) : cexp ((∑ t, u t * x t : ℝ) * I) = ∑ S ∈ (Finset.univ : Finset (Fin T)).powerset, I ^ (Finset.univ \ S).card * ((∏ t, wave u S t (x t) : ℝ) : ℂ) := by
  have h1 : cexp ((∑ t, u t * x t : ℝ) * I) = ∏ t, ((Real.cos (u t * x t) : ℂ) + (Real.sin (u t * x t) : ℂ) * I) := by
    rw [ofReal_sum, Finset.sum_mul, Complex.exp_sum]
    exact Finset.prod_congr rfl fun t _ => by rw [exp_mul_I, ofReal_cos, ofReal_sin]
  rw [h1, Finset.prod_add]
  refine Finset.sum_congr rfl fun S hS => ?_
  rw [Finset.prod_mul_distrib, Finset.prod_const, ofReal_prod, ← Finset.prod_sdiff (Finset.mem_powerset.1 hS)]
  have e1 : ∏ t ∈ S, ((wave u S t (x t) : ℝ) : ℂ) = ∏ t ∈ S, (Real.cos (u t * x t) : ℂ) := Finset.prod_congr rfl fun t ht => by rw [wave, if_pos ht, add_zero]
  have e2 : ∏ t ∈ Finset.univ \ S, ((wave u S t (x t) : ℝ) : ℂ) = ∏ t ∈ Finset.univ \ S, (Real.sin (u t * x t) : ℂ) :=
    Finset.prod_congr rfl fun t ht => by rw [wave, if_neg (Finset.mem_sdiff.1 ht).2, ← sub_eq_add_neg, Real.cos_sub_pi_div_two]
  rw [e1, e2]
  ring

theorem measurable_waves (u : Fin T → ℝ) (S : Finset (Fin T)) : Measurable fun x : Fin T → ℝ => ∏ t, wave u S t (x t) := by
  unfold wave
  refine Finset.measurable_fun_prod _ fun t _ => ?_
  exact Real.continuous_cos.measurable.comp (((measurable_pi_apply t).const_mul _).add_const _)

theorem integrable_waves (μ : Measure (Fin T → ℝ)) [IsProbabilityMeasure μ] (u : Fin T → ℝ) (S : Finset (Fin T)) :
    Integrable (fun x : Fin T → ℝ => ∏ t, wave u S t (x t)) μ := by
  refine Integrable.of_bound (C := 1) (measurable_waves u S).aestronglyMeasurable (Eventually.of_forall fun x => ?_)
  rw [Real.norm_eq_abs, Finset.abs_prod]
  exact Finset.prod_le_one (fun t _ => abs_nonneg _) fun t _ => Real.abs_cos_le_one _

theorem integral_exp (μ : Measure (Fin T → ℝ)) [IsProbabilityMeasure μ] (u : Fin T → ℝ) : ∫ x, cexp ((∑ t, u t * x t : ℝ) * I) ∂μ
    = ∑ S ∈ (Finset.univ : Finset (Fin T)).powerset, I ^ (Finset.univ \ S).card * ((∫ x, ∏ t, wave u S t (x t) ∂μ : ℝ) : ℂ) := by
  simp only [exp_sum]
  rw [integral_finsetSum _ fun S _ => ((integrable_waves μ u S).ofReal).const_mul _]
  exact Finset.sum_congr rfl fun S _ => by rw [integral_const_mul, integral_complex_ofReal]

theorem tendsto_of_waves (μ : ℕ → Measure (Fin T → ℝ)) [∀ n, IsProbabilityMeasure (μ n)] (ν : Measure (Fin T → ℝ)) [IsProbabilityMeasure ν]
    (h : ∀ u S, Tendsto (fun n => ∫ x, ∏ t, wave u S t (x t) ∂μ n) atTop (𝓝 (∫ x, ∏ t, wave u S t (x t) ∂ν)))
    {F : (Fin T → ℝ) → ℝ} (hF : Continuous F) (hb : ∃ b, ∀ x, |F x| ≤ b) : Tendsto (fun n => ∫ x, F x ∂μ n) atTop (𝓝 (∫ x, F x ∂ν)) := by
  have hL : Measurable (WithLp.toLp 2 : (Fin T → ℝ) → EuclideanSpace ℝ (Fin T)) := WithLp.measurable_toLp 2 _
  let P : ℕ → ProbabilityMeasure (EuclideanSpace ℝ (Fin T)) := fun n => ⟨(μ n).map (WithLp.toLp 2), Measure.isProbabilityMeasure_map hL.aemeasurable⟩
  let Q : ProbabilityMeasure (EuclideanSpace ℝ (Fin T)) := ⟨ν.map (WithLp.toLp 2), Measure.isProbabilityMeasure_map hL.aemeasurable⟩
  have hchar : ∀ (ρ : Measure (Fin T → ℝ)) [IsProbabilityMeasure ρ] (u : EuclideanSpace ℝ (Fin T)), charFun (ρ.map (WithLp.toLp 2)) u
      = ∫ x, cexp ((∑ t, u t * x t : ℝ) * I) ∂ρ := by
    intro ρ _ u
    rw [charFun_apply, integral_map hL.aemeasurable (by fun_prop)]
    refine integral_congr_ae (Eventually.of_forall fun x => ?_)
    simp [PiLp.inner_apply]
  have hw : Tendsto P atTop (𝓝 Q) := by
    refine ProbabilityMeasure.tendsto_of_tendsto_charFun fun u => ?_
    show Tendsto (fun n => charFun ((μ n).map (WithLp.toLp 2)) u) atTop (𝓝 (charFun (ν.map (WithLp.toLp 2)) u))
    simp only [hchar, integral_exp]
    refine tendsto_finsetSum _ fun S _ => Tendsto.const_mul _ ?_
    exact (continuous_ofReal.tendsto _).comp (h _ S)
  obtain ⟨b, hb⟩ := hb
  have hFc : Continuous fun x : EuclideanSpace ℝ (Fin T) => F (WithLp.ofLp x) := hF.comp (PiLp.continuous_ofLp 2 _)
  have h2 := (ProbabilityMeasure.tendsto_iff_forall_integral_tendsto.1 hw) (BoundedContinuousFunction.ofNormedAddCommGroup _ hFc b fun x => hb _)
  have hi : ∀ (ρ : Measure (Fin T → ℝ)), ∫ x, F (WithLp.ofLp x) ∂(ρ.map (WithLp.toLp 2 : (Fin T → ℝ) → EuclideanSpace ℝ (Fin T))) = ∫ x, F x ∂ρ := fun ρ => by
    rw [integral_map hL.aemeasurable hFc.aestronglyMeasurable]
  simp only [BoundedContinuousFunction.coe_ofNormedAddCommGroup] at h2
  have h3 : Tendsto (fun n => ∫ x, F (WithLp.ofLp x) ∂((μ n).map (WithLp.toLp 2 : (Fin T → ℝ) → EuclideanSpace ℝ (Fin T)))) atTop
    (𝓝 (∫ x, F (WithLp.ofLp x) ∂(ν.map (WithLp.toLp 2 : (Fin T → ℝ) → EuclideanSpace ℝ (Fin T))))) := h2
  simpa only [hi] using h3

end Mfs.WeakPath

import Verif.Lemmas.PolyDense
import Verif.Lemmas.WeakMoments

/-!
# Density of the polynomials for measures with some exponential moment
-/

namespace Mfs.Lemmas

open MeasureTheory Filter Topology Mfs.Converge

variable {μ : Measure ℝ}

theorem memLp_pow_some (hexp : SomeExpMoment μ) (k : ℕ) : MemLp (fun x : ℝ => x ^ k) 2 μ := by
  rw [memLp_two_iff_integrable_sq (by fun_prop)]
  refine (hexp.pow (k * 2)).congr (Eventually.of_forall fun x => ?_)
  simp [pow_mul]

theorem memLp_poly_some (hexp : SomeExpMoment μ) (p : Polynomial ℝ) : MemLp (fun x : ℝ => p.eval x) 2 μ := by
  have e : (fun x : ℝ => p.eval x) = fun x => ∑ k ∈ Finset.range (p.natDegree + 1), p.coeff k * x ^ k := by
    funext x; rw [Polynomial.eval_eq_sum_range]
  rw [e]
  exact memLp_finsetSum _ fun k _ => (memLp_pow_some hexp k).const_mul _

/-- the moments of a positive density. -/
theorem integral_density {g f : ℝ → ℝ} (hg : MemLp g 2 μ) (hg0 : ∀ x, 0 ≤ g x) :
    ∫ x, f x ∂(μ.withDensity fun x => ENNReal.ofReal (g x)) = ∫ x, g x * f x ∂μ := by
  have hm : AEMeasurable (fun x => ENNReal.ofReal (g x)) μ := hg.aestronglyMeasurable.aemeasurable.ennreal_ofReal
  rw [integral_withDensity_eq_integral_toReal_smul₀ hm (Eventually.of_forall fun _ => ENNReal.ofReal_lt_top)]
  refine integral_congr_ae (Eventually.of_forall fun x => ?_)
  simp only [ENNReal.toReal_ofReal (hg0 x), smul_eq_mul]

theorem integrable_density {g f : ℝ → ℝ} (hg : MemLp g 2 μ) (hg0 : ∀ x, 0 ≤ g x) (hf : MemLp f 2 μ) :
    Integrable f (μ.withDensity fun x => ENNReal.ofReal (g x)) := by
  have hm : AEMeasurable (fun x => ENNReal.ofReal (g x)) μ := hg.aestronglyMeasurable.aemeasurable.ennreal_ofReal
  rw [integrable_withDensity_iff_integrable_smul₀' hm (Eventually.of_forall fun _ => ENNReal.ofReal_lt_top)]
  refine (hg.integrable_mul hf).congr (Eventually.of_forall fun x => ?_)
  simp only [ENNReal.toReal_ofReal (hg0 x), smul_eq_mul, Pi.mul_apply]

/-- a square-integrable function orthogonal to all powers vanishes. -/
theorem ae_zero_of_someMoments [IsFiniteMeasure μ] (hexp : SomeExpMoment μ) {h : ℝ → ℝ} (hh : MemLp h 2 μ)
    (h0 : ∀ k : ℕ, ∫ x, h x * x ^ k ∂μ = 0) : h =ᵐ[μ] 0 := by
  have hi : Integrable h μ := hh.integrable (by norm_num)
  have hip := hi.pos_part
  have him := hi.neg_part
  set μp := μ.withDensity fun x => ENNReal.ofReal (max (h x) 0) with hμp
  set μm := μ.withDensity fun x => ENNReal.ofReal (max (-h x) 0) with hμm
  have : IsFiniteMeasure μp := isFiniteMeasure_withDensity_ofReal hip.2
  have : IsFiniteMeasure μm := isFiniteMeasure_withDensity_ofReal him.2
  have hpm : AEMeasurable (fun x => ENNReal.ofReal (max (h x) 0)) μ := hip.aestronglyMeasurable.aemeasurable.ennreal_ofReal
  have hmm : AEMeasurable (fun x => ENNReal.ofReal (max (-h x) 0)) μ := him.aestronglyMeasurable.aemeasurable.ennreal_ofReal
  have Lp : MemLp (fun x => max (h x) 0) 2 μ := hh.pos_part
  have Lm : MemLp (fun x => max (-h x) 0) 2 μ := hh.neg_part
  have p0 : ∀ x, 0 ≤ max (h x) 0 := fun x => le_max_right _ _
  have m0 : ∀ x, 0 ≤ max (-h x) 0 := fun x => le_max_right _ _
  have heq : μp = μm := by
    refine Measure.ext_of_charFun (funext fun t => ?_)
    have hS : SomeExpMoment μm := by
      obtain ⟨c, hc, hi⟩ := hexp
      refine ⟨c / 2, half_pos hc, integrable_density Lm m0 ?_⟩
      rw [memLp_two_iff_integrable_sq (by fun_prop)]
      refine hi.congr (Eventually.of_forall fun x => ?_)
      simp only [← Real.exp_nat_mul]
      congr 1
      push_cast
      ring
    have := tendsto_charFun_of_someMoments (ν := fun _ => μp) (μ := μm) (fun _ k => integrable_density Lp p0 (memLp_pow_some hexp k)) hS
      (fun k => by
        have e : ∫ x, x ^ k ∂μp = ∫ x, x ^ k ∂μm := by
          have i1 : Integrable (fun x => max (h x) 0 * x ^ k) μ := Lp.integrable_mul (memLp_pow_some hexp k)
          have i2 : Integrable (fun x => max (-h x) 0 * x ^ k) μ := Lm.integrable_mul (memLp_pow_some hexp k)
          rw [hμp, hμm, integral_density Lp p0, integral_density Lm m0, ← sub_eq_zero, ← integral_sub i1 i2]
          refine Eq.trans ?_ (h0 k)
          refine integral_congr_ae (Eventually.of_forall fun x => ?_)
          simp only
          rcases le_total 0 (h x) with h1 | h1
          · rw [max_eq_left h1, max_eq_right (by linarith : -h x ≤ 0)]
            ring
          · rw [max_eq_right h1, max_eq_left (by linarith : 0 ≤ -h x)]
            ring
        rw [e]
        exact tendsto_const_nhds) t
    exact tendsto_nhds_unique tendsto_const_nhds this
  have hae := (withDensity_eq_iff hpm hmm (by
    rw [← lt_top_iff_ne_top]
    have := hip.2
    exact (hasFiniteIntegral_iff_ofReal (f := fun x => max (h x) 0) (Eventually.of_forall fun x => le_max_right (h x) 0)).1 this)).1 heq
  filter_upwards [hae] with x hx
  rw [ENNReal.ofReal_eq_ofReal_iff (le_max_right _ _) (le_max_right _ _)] at hx
  rcases le_total 0 (h x) with h1 | h1
  · rw [max_eq_left h1, max_eq_right (by linarith)] at hx
    exact hx
  · rw [max_eq_right h1, max_eq_left (by linarith)] at hx
    simp only [Pi.zero_apply]
    linarith

/-- **density.** -/
theorem poly_dense_some [IsFiniteMeasure μ] (hexp : SomeExpMoment μ) {f : ℝ → ℝ} (hf : MemLp f 2 μ) {ε : ℝ} (hε : 0 < ε) :
    ∃ p : Polynomial ℝ, ∫ x, (f x - p.eval x) ^ 2 ∂μ < ε := by
  set e : ℕ → Lp ℝ 2 μ := fun k => (memLp_pow_some hexp k).toLp with he
  set V := Submodule.span ℝ (Set.range e) with hV
  have hbot : Vᗮ = ⊥ := by
    rw [Submodule.eq_bot_iff]
    intro g hg
    rw [Submodule.mem_orthogonal] at hg
    have h0 : ∀ k : ℕ, ∫ x, g x * x ^ k ∂μ = 0 := by
      intro k
      have := hg (e k) (Submodule.subset_span ⟨k, rfl⟩)
      rw [L2.inner_def] at this
      rw [← this]
      refine integral_congr_ae ?_
      filter_upwards [(memLp_pow_some hexp k).coeFn_toLp] with x hx
      simp only [he]
      rw [hx]
      simp
    have := ae_zero_of_someMoments hexp (Lp.memLp g) h0
    exact (Lp.eq_zero_iff_ae_eq_zero).2 this
  have htop : V.topologicalClosure = ⊤ := Submodule.topologicalClosure_eq_top_iff.2 hbot
  have hmem : hf.toLp ∈ V.topologicalClosure := by rw [htop]; trivial
  rw [← SetLike.mem_coe, Submodule.topologicalClosure_coe, Metric.mem_closure_iff] at hmem
  obtain ⟨g, hg, hd⟩ := hmem (√ε) (Real.sqrt_pos.2 hε)
  -- elements of the span are polynomials
  have hpoly : ∀ g ∈ V, ∃ p : Polynomial ℝ, g =ᵐ[μ] fun x => p.eval x := by
    intro g hg
    induction hg using Submodule.span_induction with
    | mem g hg =>
      obtain ⟨k, rfl⟩ := hg
      refine ⟨Polynomial.X ^ k, ?_⟩
      filter_upwards [(memLp_pow_some hexp k).coeFn_toLp] with x hx
      simp only [he]
      rw [hx]
      simp
    | zero =>
      refine ⟨0, ?_⟩
      filter_upwards [Lp.coeFn_zero ℝ 2 μ] with x hx
      rw [hx]; simp
    | add g g' _ _ ih ih' =>
      obtain ⟨p, hp⟩ := ih
      obtain ⟨p', hp'⟩ := ih'
      refine ⟨p + p', ?_⟩
      filter_upwards [hp, hp', Lp.coeFn_add g g'] with x h1 h2 h3
      rw [h3, Pi.add_apply, h1, h2, Polynomial.eval_add]
    | smul c g _ ih =>
      obtain ⟨p, hp⟩ := ih
      refine ⟨Polynomial.C c * p, ?_⟩
      filter_upwards [hp, Lp.coeFn_smul c g] with x h1 h3
      rw [h3, Pi.smul_apply, h1, Polynomial.eval_mul, Polynomial.eval_C, smul_eq_mul]
  obtain ⟨p, hp⟩ := hpoly g hg
  refine ⟨p, ?_⟩
  have hn : ∫ x, (f x - p.eval x) ^ 2 ∂μ = ‖hf.toLp - g‖ ^ 2 := by
    rw [← real_inner_self_eq_norm_sq, L2.inner_def]
    refine integral_congr_ae ?_
    filter_upwards [hf.coeFn_toLp, hp, Lp.coeFn_sub hf.toLp g] with x h1 h2 h3
    rw [h3, Pi.sub_apply, h1, h2]
    simp [sq]
  rw [dist_eq_norm] at hd
  rw [hn, ← Real.sq_sqrt hε.le]
  exact pow_lt_pow_left₀ hd (norm_nonneg _) two_ne_zero

end Mfs.Lemmas

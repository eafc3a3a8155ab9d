import Mathlib.MeasureTheory.Function.L2Space
import Mathlib.MeasureTheory.Measure.CharacteristicFunction.Basic
import Mathlib.MeasureTheory.Integral.DominatedConvergence
import Mathlib.MeasureTheory.Function.StronglyMeasurable.Lp
import Mathlib.Analysis.InnerProductSpace.Projection.Basic
import Mathlib.Analysis.InnerProductSpace.Projection.Submodule
import Mathlib.Analysis.SpecialFunctions.Exponential
import Mathlib.Algebra.Polynomial.Eval.Degree
import Mathlib.Algebra.QuadraticDiscriminant

/-!
# Polynomials are dense in the square-integrable functions of a measure with exponential moments
-/

namespace Mfs.Lemmas

open MeasureTheory Filter Topology
open scoped Nat

variable {μ : Measure ℝ}

theorem abs_pow_le_exp (x : ℝ) (k : ℕ) : |x| ^ k ≤ k ! * Real.exp |x| := by
  have h := Real.pow_div_factorial_le_exp |x| (abs_nonneg x) k
  rwa [div_le_iff₀ (by positivity), mul_comm] at h

theorem memLp_exp (hexp : ∀ c : ℝ, Integrable (fun x => Real.exp (c * |x|)) μ) (c : ℝ) : MemLp (fun x => Real.exp (c * |x|)) 2 μ := by
  rw [memLp_two_iff_integrable_sq (by fun_prop)]
  refine (hexp (2 * c)).congr (Eventually.of_forall fun x => ?_)
  simp only [← Real.exp_nat_mul]
  congr 1
  push_cast
  ring

theorem memLp_pow (hexp : ∀ c : ℝ, Integrable (fun x => Real.exp (c * |x|)) μ) (k : ℕ) : MemLp (fun x : ℝ => x ^ k) 2 μ := by
  refine ((memLp_exp hexp 1).const_mul (k ! : ℝ)).mono' (by fun_prop) (Eventually.of_forall fun x => ?_)
  rw [Real.norm_eq_abs, abs_pow, one_mul]
  exact abs_pow_le_exp x k

theorem memLp_poly (hexp : ∀ c : ℝ, Integrable (fun x => Real.exp (c * |x|)) μ) (p : Polynomial ℝ) : MemLp (fun x : ℝ => p.eval x) 2 μ := by
  have e : (fun x : ℝ => p.eval x) = fun x => ∑ k ∈ Finset.range (p.natDegree + 1), p.coeff k * x ^ k := by
    funext x; rw [Polynomial.eval_eq_sum_range]
  rw [e]
  exact memLp_finsetSum _ fun k _ => (memLp_pow hexp k).const_mul _

/-- a square-integrable function orthogonal to all powers is orthogonal to all characters. -/
theorem integral_char_zero (hexp : ∀ c : ℝ, Integrable (fun x => Real.exp (c * |x|)) μ) {h : ℝ → ℝ} (hh : MemLp h 2 μ)
    (h0 : ∀ k : ℕ, ∫ x, h x * x ^ k ∂μ = 0) (t : ℝ) : ∫ x, (h x : ℂ) * Complex.exp (t * x * Complex.I) ∂μ = 0 := by
  have hb : Integrable (fun x => |h x| * Real.exp (|t| * |x|)) μ := by
    have := hh.abs.integrable_mul (memLp_exp hexp |t|)
    exact this
  have hlim : Tendsto (fun n : ℕ => ∫ x, (h x : ℂ) * ∑ k ∈ Finset.range n, (t * x * Complex.I) ^ k / (k ! : ℂ) ∂μ) atTop
      (𝓝 (∫ x, (h x : ℂ) * Complex.exp (t * x * Complex.I) ∂μ)) := by
    refine tendsto_integral_of_dominated_convergence (fun x => |h x| * Real.exp (|t| * |x|)) (fun n => ?_) hb (fun n => Eventually.of_forall fun x => ?_)
      (Eventually.of_forall fun x => ?_)
    · refine (Complex.continuous_ofReal.comp_aestronglyMeasurable hh.aestronglyMeasurable).mul ?_
      refine Continuous.aestronglyMeasurable ?_
      fun_prop
    · rw [norm_mul, Complex.norm_real, Real.norm_eq_abs]
      refine mul_le_mul_of_nonneg_left ?_ (abs_nonneg _)
      refine (norm_sum_le _ _).trans ?_
      have e : ∀ k, ‖((t : ℂ) * x * Complex.I) ^ k / (k ! : ℂ)‖ = (|t| * |x|) ^ k / (k ! : ℝ) := fun k => by
        rw [norm_div, norm_pow, norm_mul, norm_mul, Complex.norm_real, Complex.norm_real, Complex.norm_I, mul_one, Real.norm_eq_abs, Real.norm_eq_abs]
        congr 1
        simp
      simp only [e]
      exact Real.sum_le_exp_of_nonneg (by positivity) n
    · refine Tendsto.const_mul _ ?_
      have := (NormedSpace.expSeries_div_hasSum_exp (𝔸 := ℂ) ((t : ℂ) * x * Complex.I)).tendsto_sum_nat
      rwa [← Complex.exp_eq_exp_ℂ] at this
  have hz : ∀ n : ℕ, ∫ x, (h x : ℂ) * ∑ k ∈ Finset.range n, ((t : ℂ) * x * Complex.I) ^ k / (k ! : ℂ) ∂μ = 0 := by
    intro n
    have hi : ∀ k : ℕ, Integrable (fun x => ((h x * x ^ k : ℝ) : ℂ)) μ := fun k => (hh.integrable_mul (memLp_pow hexp k)).ofReal
    have e : ∀ x : ℝ, (h x : ℂ) * ∑ k ∈ Finset.range n, ((t : ℂ) * x * Complex.I) ^ k / (k ! : ℂ)
        = ∑ k ∈ Finset.range n, ((t * Complex.I) ^ k / (k ! : ℂ)) * ((h x * x ^ k : ℝ) : ℂ) := by
      intro x
      rw [Finset.mul_sum]
      refine Finset.sum_congr rfl fun k _ => ?_
      push_cast
      ring
    simp only [e]
    rw [integral_finsetSum _ fun k _ => (hi k).const_mul _]
    refine Finset.sum_eq_zero fun k _ => ?_
    have e2 : ∫ x, ((h x * x ^ k : ℝ) : ℂ) ∂μ = ((∫ x, h x * x ^ k ∂μ : ℝ) : ℂ) := integral_ofReal
    rw [integral_const_mul, e2, h0 k]
    simp
  simp only [hz] at hlim
  exact (tendsto_nhds_unique hlim tendsto_const_nhds)

/-- a square-integrable function orthogonal to all powers vanishes. -/
theorem ae_zero_of_moments [IsFiniteMeasure μ] (hexp : ∀ c : ℝ, Integrable (fun x => Real.exp (c * |x|)) μ) {h : ℝ → ℝ} (hh : MemLp h 2 μ)
    (h0 : ∀ k : ℕ, ∫ x, h x * x ^ k ∂μ = 0) : h =ᵐ[μ] 0 := by
  have hi : Integrable h μ := hh.integrable (by norm_num)
  have hip := hi.pos_part
  have him := hi.neg_part
  set μp := μ.withDensity fun x => ENNReal.ofReal (max (h x) 0) with hμp
  set μm := μ.withDensity fun x => ENNReal.ofReal (max (-h x) 0) with hμm
  have : IsFiniteMeasure μp := isFiniteMeasure_withDensity_ofReal hip.2
  have : IsFiniteMeasure μm := isFiniteMeasure_withDensity_ofReal him.2
  have hpm : AEMeasurable (fun x => ENNReal.ofReal (max (h x) 0)) μ := hip.aestronglyMeasurable.aemeasurable.ennreal_ofReal
  have hmm : AEMeasurable (fun x => ENNReal.ofReal (max (-h x) 0)) μ := him.aestronglyMeasurable.aemeasurable.ennreal_ofReal
  have heq : μp = μm := by
    refine Measure.ext_of_charFun (funext fun t => ?_)
    rw [charFun_apply_real, charFun_apply_real, hμp, hμm,
      integral_withDensity_eq_integral_toReal_smul₀ hpm (Eventually.of_forall fun _ => ENNReal.ofReal_lt_top),
      integral_withDensity_eq_integral_toReal_smul₀ hmm (Eventually.of_forall fun _ => ENNReal.ofReal_lt_top)]
    have hcb : ∀ x : ℝ, ‖Complex.exp (t * x * Complex.I)‖ ≤ 1 := fun x => by
      rw [← Complex.ofReal_mul, Complex.norm_exp_ofReal_mul_I]
    have hcm : AEStronglyMeasurable (fun x : ℝ => Complex.exp (t * x * Complex.I)) μ := Continuous.aestronglyMeasurable (by fun_prop)
    have i1 : Integrable (fun x => (ENNReal.ofReal (max (h x) 0)).toReal • Complex.exp (t * x * Complex.I)) μ := by
      have := hip.ofReal (𝕜 := ℂ) |>.mul_bdd hcm (Eventually.of_forall hcb)
      refine this.congr (Eventually.of_forall fun x => ?_)
      simp only [ENNReal.toReal_ofReal (le_max_right _ _), Complex.real_smul]
      rfl
    have i2 : Integrable (fun x => (ENNReal.ofReal (max (-h x) 0)).toReal • Complex.exp (t * x * Complex.I)) μ := by
      have := him.ofReal (𝕜 := ℂ) |>.mul_bdd hcm (Eventually.of_forall hcb)
      refine this.congr (Eventually.of_forall fun x => ?_)
      simp only [ENNReal.toReal_ofReal (le_max_right _ _), Complex.real_smul]
      rfl
    rw [← sub_eq_zero, ← integral_sub i1 i2, ← integral_char_zero hexp hh h0 t]
    refine integral_congr_ae (Eventually.of_forall fun x => ?_)
    simp only [ENNReal.toReal_ofReal (le_max_right _ _), Complex.real_smul]
    rcases le_total 0 (h x) with h1 | h1
    · rw [max_eq_left h1, max_eq_right (by linarith : -h x ≤ 0)]
      push_cast
      ring
    · rw [max_eq_right h1, max_eq_left (by linarith : 0 ≤ -h x)]
      push_cast
      ring
  have hae := (withDensity_eq_iff hpm hmm (by
    rw [← lt_top_iff_ne_top]
    have := hip.2
    exact (hasFiniteIntegral_iff_ofReal (f := fun x => max (h x) 0) (Eventually.of_forall fun x => le_max_right (h x) 0)).1 this)).1 heq
  filter_upwards [hae] with x hx
  rw [ENNReal.ofReal_eq_ofReal_iff (le_max_right _ _) (le_max_right _ _)] at hx
  rcases le_total 0 (h x) with h1 | h1
  · rw [max_eq_left h1, max_eq_right (by linarith)] at hx
    exact hx
  · rw [max_eq_right h1, max_eq_left (by linarith)] at hx
    simp only [Pi.zero_apply]
    linarith

/-- **density.** -/
theorem poly_dense [IsFiniteMeasure μ] (hexp : ∀ c : ℝ, Integrable (fun x => Real.exp (c * |x|)) μ) {f : ℝ → ℝ} (hf : MemLp f 2 μ) {ε : ℝ} (hε : 0 < ε) :
    ∃ p : Polynomial ℝ, ∫ x, (f x - p.eval x) ^ 2 ∂μ < ε := by
  set e : ℕ → Lp ℝ 2 μ := fun k => (memLp_pow hexp k).toLp with he
  set V := Submodule.span ℝ (Set.range e) with hV
  have hbot : Vᗮ = ⊥ := by
    rw [Submodule.eq_bot_iff]
    intro g hg
    rw [Submodule.mem_orthogonal] at hg
    have h0 : ∀ k : ℕ, ∫ x, g x * x ^ k ∂μ = 0 := by
      intro k
      have := hg (e k) (Submodule.subset_span ⟨k, rfl⟩)
      rw [L2.inner_def] at this
      rw [← this]
      refine integral_congr_ae ?_
      filter_upwards [(memLp_pow hexp k).coeFn_toLp] with x hx
      simp only [he]
      rw [hx]
      simp
    have := ae_zero_of_moments hexp (Lp.memLp g) h0
    exact (Lp.eq_zero_iff_ae_eq_zero).2 this
  have htop : V.topologicalClosure = ⊤ := Submodule.topologicalClosure_eq_top_iff.2 hbot
  have hmem : hf.toLp ∈ V.topologicalClosure := by rw [htop]; trivial
  rw [← SetLike.mem_coe, Submodule.topologicalClosure_coe, Metric.mem_closure_iff] at hmem
  obtain ⟨g, hg, hd⟩ := hmem (√ε) (Real.sqrt_pos.2 hε)
  -- elements of the span are polynomials
  have hpoly : ∀ g ∈ V, ∃ p : Polynomial ℝ, g =ᵐ[μ] fun x => p.eval x := by
    intro g hg
    induction hg using Submodule.span_induction with
    | mem g hg =>
      obtain ⟨k, rfl⟩ := hg
      refine ⟨Polynomial.X ^ k, ?_⟩
      filter_upwards [(memLp_pow hexp k).coeFn_toLp] with x hx
      simp only [he]
      rw [hx]
      simp
    | zero =>
      refine ⟨0, ?_⟩
      filter_upwards [Lp.coeFn_zero ℝ 2 μ] with x hx
      rw [hx]; simp
    | add g g' _ _ ih ih' =>
      obtain ⟨p, hp⟩ := ih
      obtain ⟨p', hp'⟩ := ih'
      refine ⟨p + p', ?_⟩
      filter_upwards [hp, hp', Lp.coeFn_add g g'] with x h1 h2 h3
      rw [h3, Pi.add_apply, h1, h2, Polynomial.eval_add]
    | smul c g _ ih =>
      obtain ⟨p, hp⟩ := ih
      refine ⟨Polynomial.C c * p, ?_⟩
      filter_upwards [hp, Lp.coeFn_smul c g] with x h1 h3
      rw [h3, Pi.smul_apply, h1, Polynomial.eval_mul, Polynomial.eval_C, smul_eq_mul]
  obtain ⟨p, hp⟩ := hpoly g hg
  refine ⟨p, ?_⟩
  have hn : ∫ x, (f x - p.eval x) ^ 2 ∂μ = ‖hf.toLp - g‖ ^ 2 := by
    rw [← real_inner_self_eq_norm_sq, L2.inner_def]
    refine integral_congr_ae ?_
    filter_upwards [hf.coeFn_toLp, hp, Lp.coeFn_sub hf.toLp g] with x h1 h2 h3
    rw [h3, Pi.sub_apply, h1, h2]
    simp [sq]
  rw [dist_eq_norm] at hd
  rw [hn, ← Real.sq_sqrt hε.le]
  exact pow_lt_pow_left₀ hd (norm_nonneg _) two_ne_zero

/-- the orthogonal projection is the best approximation. -/
theorem best_of_orthogonal {f q p : ℝ → ℝ} (hf : MemLp f 2 μ) (hq : MemLp q 2 μ) (hp : MemLp p 2 μ) (h : ∫ x, (f x - q x) * (q x - p x) ∂μ = 0) :
    ∫ x, (f x - q x) ^ 2 ∂μ ≤ ∫ x, (f x - p x) ^ 2 ∂μ := by
  have h1 : Integrable (fun x => (f x - q x) ^ 2) μ := (hf.sub hq).integrable_sq
  have h2 : Integrable (fun x => (q x - p x) ^ 2) μ := (hq.sub hp).integrable_sq
  have h3 : Integrable (fun x => 2 * ((f x - q x) * (q x - p x))) μ := ((hf.sub hq).integrable_mul (hq.sub hp)).const_mul 2
  have e : ∀ x, (f x - p x) ^ 2 = (f x - q x) ^ 2 + (2 * ((f x - q x) * (q x - p x)) + (q x - p x) ^ 2) := fun x => by ring
  have h23 : Integrable (fun x => 2 * ((f x - q x) * (q x - p x)) + (q x - p x) ^ 2) μ := h3.add h2
  simp only [e]
  rw [integral_add h1 h23, integral_add h3 h2, integral_const_mul, h, mul_zero, zero_add]
  have : 0 ≤ ∫ x, (q x - p x) ^ 2 ∂μ := integral_nonneg fun x => sq_nonneg (q x - p x)
  linarith

/-- functions with the same moments below `n` differ by something orthogonal to the polynomials of degree below `n`. -/
theorem orth_of_moments (hexp : ∀ c : ℝ, Integrable (fun x => Real.exp (c * |x|)) μ) {f q : ℝ → ℝ} (hf : MemLp f 2 μ) (hq : MemLp q 2 μ) (n : ℕ)
    (h : ∀ k < n, ∫ x, x ^ k * q x ∂μ = ∫ x, x ^ k * f x ∂μ) (r : Polynomial ℝ) (hr : r.degree < n) : ∫ x, r.eval x * (f x - q x) ∂μ = 0 := by
  by_cases h0 : r = 0
  · simp [h0]
  have hn : r.natDegree < n := (Polynomial.natDegree_lt_iff_degree_lt h0).2 hr
  have e : ∀ x, r.eval x * (f x - q x) = ∑ k ∈ Finset.range n, r.coeff k * (x ^ k * f x - x ^ k * q x) := by
    intro x
    rw [Polynomial.eval_eq_sum_range' hn, Finset.sum_mul]
    refine Finset.sum_congr rfl fun k _ => by ring
  simp only [e]
  have i1 : ∀ k : ℕ, Integrable (fun x => x ^ k * f x) μ := fun k => (memLp_pow hexp k).integrable_mul hf
  have i2 : ∀ k : ℕ, Integrable (fun x => x ^ k * q x) μ := fun k => (memLp_pow hexp k).integrable_mul hq
  have i3 : ∀ k : ℕ, Integrable (fun x => r.coeff k * (x ^ k * f x - x ^ k * q x)) μ := fun k => ((i1 k).sub (i2 k)).const_mul _
  rw [integral_finsetSum _ fun k _ => i3 k]
  refine Finset.sum_eq_zero fun k hk => ?_
  rw [Finset.mem_range] at hk
  rw [integral_const_mul, integral_sub (i1 k) (i2 k), h k hk, sub_self, mul_zero]

/-- the Cauchy–Schwarz inequality for square-integrable functions. -/
theorem sq_integral_mul_le {f g : ℝ → ℝ} (hf : MemLp f 2 μ) (hg : MemLp g 2 μ) :
    (∫ x, f x * g x ∂μ) ^ 2 ≤ (∫ x, f x ^ 2 ∂μ) * ∫ x, g x ^ 2 ∂μ := by
  have hF : Integrable (fun x => f x ^ 2) μ := hf.integrable_sq
  have hG : Integrable (fun x => g x ^ 2) μ := hg.integrable_sq
  have hFG : Integrable (fun x => f x * g x) μ := hf.integrable_mul hg
  have h : ∀ t : ℝ, 0 ≤ (∫ x, g x ^ 2 ∂μ) * (t * t) + (2 * ∫ x, f x * g x ∂μ) * t + ∫ x, f x ^ 2 ∂μ := by
    intro t
    have e : ∀ x, (f x + t * g x) ^ 2 = f x ^ 2 + (2 * t * (f x * g x) + t * t * g x ^ 2) := fun x => by ring
    have h0 : 0 ≤ ∫ x, (f x + t * g x) ^ 2 ∂μ := integral_nonneg fun x => sq_nonneg (f x + t * g x)
    have i2 : Integrable (fun x => 2 * t * (f x * g x) + t * t * g x ^ 2) μ := (hFG.const_mul _).add (hG.const_mul _)
    simp only [e] at h0
    rw [integral_add hF i2, integral_add (hFG.const_mul _) (hG.const_mul _), integral_const_mul, integral_const_mul] at h0
    linarith
  have := discrim_le_zero h
  rw [discrim] at this
  nlinarith

theorem tendsto_integral_mul_of_sq {f g : ℝ → ℝ} {q : ℕ → ℝ → ℝ} (hf : MemLp f 2 μ) (hg : MemLp g 2 μ) (hq : ∀ n, MemLp (q n) 2 μ)
    (h : Tendsto (fun n => ∫ x, (f x - q n x) ^ 2 ∂μ) atTop (𝓝 0)) :
    Tendsto (fun n => ∫ x, g x * q n x ∂μ) atTop (𝓝 (∫ x, g x * f x ∂μ)) := by
  rw [← tendsto_sub_nhds_zero_iff]
  have hb : ∀ n, |∫ x, g x * q n x ∂μ - ∫ x, g x * f x ∂μ| ≤ √((∫ x, g x ^ 2 ∂μ) * ∫ x, (f x - q n x) ^ 2 ∂μ) := by
    intro n
    have i1 : Integrable (fun x => g x * q n x) μ := hg.integrable_mul (hq n)
    have i2 : Integrable (fun x => g x * f x) μ := hg.integrable_mul hf
    rw [abs_sub_comm, ← integral_sub i2 i1]
    refine Real.abs_le_sqrt ?_
    have := sq_integral_mul_le hg (hf.sub (hq n))
    simp only [Pi.sub_apply, mul_sub] at this
    exact this
  refine squeeze_zero_norm hb ?_
  have := (h.const_mul (∫ x, g x ^ 2 ∂μ)).sqrt
  simpa using this

end Mfs.Lemmas

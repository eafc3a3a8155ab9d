import Verif.Model.Quad1
import Mathlib.MeasureTheory.Measure.LevyConvergence
import Mathlib.Probability.Moments.IntegrableExpMul
import Mathlib.Analysis.Calculus.MeanValue
import Mathlib.Analysis.SpecialFunctions.ExpDeriv

/-!
# The method of moments: laws whose moments converge to those of a law with all exponential moments
-/

namespace Mfs.Converge

open MeasureTheory Filter Topology Complex

/-- Taylor's remainder of the exponential on the imaginary axis. -/
theorem norm_exp_sub_taylor (z : ℂ) (hz : z.re = 0) (n : ℕ) :
    ‖exp z - ∑ k ∈ Finset.range n, z ^ k / (k.factorial : ℂ)‖ ≤ ‖z‖ ^ n / n.factorial := by
  have key : ∀ n : ℕ, ∀ t : ℝ, t ∈ Set.Icc (0 : ℝ) 1 →
      ‖exp (t * z) - ∑ k ∈ Finset.range n, (t * z) ^ k / (k.factorial : ℂ)‖ ≤ t ^ n * (‖z‖ ^ n / n.factorial) := by
    intro n
    induction n with
    | zero =>
      intro t _
      rw [Finset.sum_range_zero, sub_zero, Complex.norm_exp]
      simp [hz]
    | succ n ih =>
      have hd : ∀ t : ℝ, HasDerivAt (fun t : ℝ => exp (t * z) - ∑ k ∈ Finset.range (n + 1), (t * z) ^ k / (k.factorial : ℂ))
          (z * (exp (t * z) - ∑ k ∈ Finset.range n, (t * z) ^ k / (k.factorial : ℂ))) t := by
        intro t
        have h0 : HasDerivAt (fun t : ℝ => (t : ℂ) * z) z t := by
          simpa using (Complex.ofRealCLM.hasDerivAt (x := t)).mul_const z
        have h1 := h0.cexp
        have h2 : HasDerivAt (fun t : ℝ => ∑ k ∈ Finset.range (n + 1), (t * z) ^ k / (k.factorial : ℂ))
            (∑ k ∈ Finset.range (n + 1), (k * (t * z) ^ (k - 1) * z) / (k.factorial : ℂ)) t :=
          HasDerivAt.fun_sum fun k _ => (h0.fun_pow k).div_const _
        refine (h1.sub h2).congr_deriv ?_
        rw [Finset.sum_range_succ', mul_sub, Finset.mul_sum]
        simp only [Nat.cast_zero, zero_mul, zero_div, add_zero, Nat.add_sub_cancel]
        rw [mul_comm]
        congr 1
        refine Finset.sum_congr rfl fun k _ => ?_
        rw [Nat.factorial_succ]
        have : ((k + 1 : ℕ) : ℂ) ≠ 0 := by exact_mod_cast Nat.succ_ne_zero k
        have h3 : (k.factorial : ℂ) ≠ 0 := by exact_mod_cast k.factorial_ne_zero
        push_cast at this ⊢
        field_simp
      have hB : ∀ t : ℝ, HasDerivAt (fun t : ℝ => t ^ (n + 1) * (‖z‖ ^ (n + 1) / (n + 1).factorial))
          (‖z‖ * (t ^ n * (‖z‖ ^ n / n.factorial))) t := by
        intro t
        refine ((hasDerivAt_pow (n + 1) t).mul_const _).congr_deriv ?_
        rw [Nat.factorial_succ]
        have h3 : (n.factorial : ℝ) ≠ 0 := by exact_mod_cast n.factorial_ne_zero
        push_cast
        field_simp
        ring
      refine fun t ht => image_norm_le_of_norm_deriv_right_le_deriv_boundary (a := 0) (b := 1)
        (fun t _ => (hd t).continuousAt.continuousWithinAt) (fun t _ => (hd t).hasDerivWithinAt) ?_ hB (fun t ht => ?_) ht
      · rw [Finset.sum_range_succ']
        simp
      · rw [norm_mul]
        exact mul_le_mul_of_nonneg_left (ih t ⟨ht.1, ht.2.le⟩) (norm_nonneg _)
  simpa using key n 1 (by simp)

/-- a law with all exponential moments. -/
def ExpMoments (μ : Measure ℝ) : Prop := ∀ c : ℝ, Integrable (fun x => Real.exp (c * x)) μ

theorem ExpMoments.abs {μ : Measure ℝ} (h : ExpMoments μ) (c : ℝ) : Integrable (fun x => Real.exp (c * |x|)) μ := by
  have := ProbabilityTheory.integrable_exp_mul_abs (X := fun x : ℝ => x) (t := c) (h c) (h (-c))
  exact this

theorem ExpMoments.isFinite {μ : Measure ℝ} (h : ExpMoments μ) : IsFiniteMeasure μ := by
  have := h 0
  simp only [zero_mul, Real.exp_zero] at this
  exact (integrable_const_iff_isFiniteMeasure one_ne_zero).1 this

theorem ExpMoments.pow {μ : Measure ℝ} (h : ExpMoments μ) (k : ℕ) : Integrable (fun x => x ^ k) μ :=
  ProbabilityTheory.integrable_pow_of_integrable_exp_mul (X := fun x : ℝ => x) (t := 1) one_ne_zero (h 1) (h (-1)) k

theorem ExpMoments.abs_pow {μ : Measure ℝ} (h : ExpMoments μ) (k : ℕ) : Integrable (fun x => |x| ^ k) μ :=
  ProbabilityTheory.integrable_pow_abs_of_integrable_exp_mul (X := fun x : ℝ => x) (t := 1) one_ne_zero (h 1) (h (-1)) k

/-- the moments of such a law grow slowly. -/
theorem ExpMoments.tendsto_zero {μ : Measure ℝ} (h : ExpMoments μ) (t : ℝ) :
    Tendsto (fun n : ℕ => |t| ^ (2 * n) / (2 * n).factorial * ∫ x, x ^ (2 * n) ∂μ) atTop (𝓝 0) := by
  have h0 : Tendsto (fun n : ℕ => ((1 : ℝ) / 4) ^ n * ∫ x, Real.exp (2 * |t| * |x|) ∂μ) atTop (𝓝 0) := by
    have := (tendsto_pow_atTop_nhds_zero_of_lt_one (r := (1 / 4 : ℝ)) (by norm_num) (by norm_num)).mul_const
      (∫ x, Real.exp (2 * |t| * |x|) ∂μ)
    simpa using this
  refine squeeze_zero (fun n => ?_) (fun n => ?_) h0
  · refine mul_nonneg (by positivity) (integral_nonneg fun x => ?_)
    change 0 ≤ x ^ (2 * n)
    rw [pow_mul]
    positivity
  · rw [← integral_const_mul, ← integral_const_mul]
    refine integral_mono ((h.pow _).const_mul _) ((h.abs _).const_mul _) fun x => ?_
    have h1 := Real.pow_div_factorial_le_exp (2 * |t| * |x|) (by positivity) (2 * n)
    have h2 : (2 * |t| * |x|) ^ (2 * n) = 4 ^ n * (|t| ^ (2 * n) * x ^ (2 * n)) := by
      rw [mul_pow, mul_pow, pow_mul 2 2 n, Even.pow_abs (even_two_mul n) x]
      norm_num
      ring
    rw [h2] at h1
    calc |t| ^ (2 * n) / (2 * n).factorial * x ^ (2 * n)
        = (1 / 4) ^ n * (4 ^ n * (|t| ^ (2 * n) * x ^ (2 * n)) / (2 * n).factorial) := by
          rw [one_div, inv_pow]
          field_simp
      _ ≤ _ := mul_le_mul_of_nonneg_left h1 (by positivity)

/-- the characteristic function up to its Taylor polynomial. -/
theorem charFun_sub_taylor (μ : Measure ℝ) [IsProbabilityMeasure μ] (hμ : ∀ k : ℕ, Integrable (fun x => x ^ k) μ) (t : ℝ) (n : ℕ) :
    ‖charFun μ t - ∑ k ∈ Finset.range (2 * n), (t * I) ^ k / (k.factorial : ℂ) * ((∫ x, x ^ k ∂μ : ℝ) : ℂ)‖
      ≤ |t| ^ (2 * n) / (2 * n).factorial * ∫ x, x ^ (2 * n) ∂μ := by
  have hi : ∀ k : ℕ, Integrable (fun x : ℝ => (t * x * I) ^ k / (k.factorial : ℂ)) μ := by
    intro k
    refine (((hμ k).ofReal (𝕜 := ℂ)).const_mul ((t * I) ^ k / (k.factorial : ℂ))).congr (Eventually.of_forall fun x => ?_)
    simp only [coe_algebraMap, RCLike.ofReal_pow]
    ring
  have e : ∑ k ∈ Finset.range (2 * n), (t * I) ^ k / (k.factorial : ℂ) * ((∫ x, x ^ k ∂μ : ℝ) : ℂ)
      = ∫ x : ℝ, ∑ k ∈ Finset.range (2 * n), (t * x * I) ^ k / (k.factorial : ℂ) ∂μ := by
    rw [integral_finsetSum _ fun k _ => hi k]
    refine Finset.sum_congr rfl fun k _ => ?_
    rw [← integral_complex_ofReal, ← integral_const_mul]
    refine integral_congr_ae (Eventually.of_forall fun x => ?_)
    push_cast
    ring
  have hexp : Integrable (fun x : ℝ => exp (t * x * I)) μ := by
    refine Integrable.of_bound (by fun_prop) 1 (Eventually.of_forall fun x => ?_)
    rw [Complex.norm_exp]
    simp
  rw [e, charFun_apply_real, ← integral_sub hexp (integrable_finsetSum _ fun k _ => hi k), ← integral_const_mul]
  refine norm_integral_le_of_norm_le ((hμ _).const_mul _) (Eventually.of_forall fun x => ?_)
  refine (norm_exp_sub_taylor (t * x * I) (by simp) (2 * n)).trans (le_of_eq ?_)
  rw [norm_mul, norm_mul, Complex.norm_I, mul_one, Complex.norm_real, Complex.norm_real, mul_pow, Real.norm_eq_abs, Real.norm_eq_abs,
    Even.pow_abs (even_two_mul n) x]
  ring

theorem tendsto_charFun_of_moments {ν : ℕ → Measure ℝ} [∀ N, IsProbabilityMeasure (ν N)] {μ : Measure ℝ} [IsProbabilityMeasure μ]
    (hν : ∀ N, ∀ k : ℕ, Integrable (fun x => x ^ k) (ν N)) (hμ : ExpMoments μ)
    (h : ∀ k : ℕ, Tendsto (fun N => ∫ x, x ^ k ∂ν N) atTop (𝓝 (∫ x, x ^ k ∂μ))) (t : ℝ) :
    Tendsto (fun N => charFun (ν N) t) atTop (𝓝 (charFun μ t)) := by
  rw [Metric.tendsto_atTop]
  intro ε hε
  obtain ⟨n, hn⟩ := ((hμ.tendsto_zero t).eventually (gt_mem_nhds (show (0 : ℝ) < ε / 4 by positivity))).exists
  have h1 : ∀ᶠ N in atTop, |t| ^ (2 * n) / (2 * n).factorial * ∫ x, x ^ (2 * n) ∂ν N < ε / 4 :=
    ((h (2 * n)).const_mul _).eventually (gt_mem_nhds hn)
  have h2 : Tendsto (fun N => ∑ k ∈ Finset.range (2 * n), (t * I) ^ k / (k.factorial : ℂ) * ((∫ x, x ^ k ∂ν N : ℝ) : ℂ)) atTop
      (𝓝 (∑ k ∈ Finset.range (2 * n), (t * I) ^ k / (k.factorial : ℂ) * ((∫ x, x ^ k ∂μ : ℝ) : ℂ))) :=
    tendsto_finsetSum _ fun k _ => Tendsto.const_mul _ ((Complex.continuous_ofReal.tendsto _).comp (h k))
  have h3 := Metric.tendsto_nhds.1 h2 (ε / 4) (by positivity)
  obtain ⟨N0, hN0⟩ := eventually_atTop.1 (h1.and h3)
  refine ⟨N0, fun N hN => ?_⟩
  obtain ⟨a1, a2⟩ := hN0 N hN
  have b1 := charFun_sub_taylor (ν N) (hν N) t n
  have b2 := charFun_sub_taylor μ hμ.pow t n
  rw [dist_eq_norm] at a2 ⊢
  set A := ∑ k ∈ Finset.range (2 * n), (t * I) ^ k / (k.factorial : ℂ) * ((∫ x, x ^ k ∂ν N : ℝ) : ℂ)
  set A' := ∑ k ∈ Finset.range (2 * n), (t * I) ^ k / (k.factorial : ℂ) * ((∫ x, x ^ k ∂μ : ℝ) : ℂ)
  have e : charFun (ν N) t - charFun μ t = (charFun (ν N) t - A) + (A - A') - (charFun μ t - A') := by ring
  rw [e]
  refine lt_of_le_of_lt (norm_sub_le _ _) ?_
  have := norm_add_le (charFun (ν N) t - A) (A - A')
  linarith

/-- functions bounded by a polynomial. -/
def PolyGrowth (f : ℝ → ℝ) : Prop := ∃ (C : ℝ) (j : ℕ), ∀ x, |f x| ≤ C * (1 + |x| ^ j)

/-- convergence of the moments and of the characteristic functions implies that of the expectations of continuous functions of
polynomial growth. -/
theorem tendsto_integral_of_charFun {ν : ℕ → Measure ℝ} [∀ N, IsProbabilityMeasure (ν N)] {μ : Measure ℝ} [IsProbabilityMeasure μ]
    (hν : ∀ N, ∀ k : ℕ, Integrable (fun x => x ^ k) (ν N)) (hμ : ∀ k : ℕ, Integrable (fun x => x ^ k) μ)
    (hcf : ∀ t, Tendsto (fun N => charFun (ν N) t) atTop (𝓝 (charFun μ t)))
    (h : ∀ k : ℕ, Tendsto (fun N => ∫ x, x ^ k ∂ν N) atTop (𝓝 (∫ x, x ^ k ∂μ))) {f : ℝ → ℝ} (hf : Continuous f) (hg : PolyGrowth f) :
    Tendsto (fun N => ∫ x, f x ∂ν N) atTop (𝓝 (∫ x, f x ∂μ)) := by
  obtain ⟨C, j, hC⟩ := hg
  have hC0 : 0 ≤ C := by
    have := (abs_nonneg _).trans (hC 0)
    rcases j with _ | j <;> simp at this <;> linarith
  let ν' : ℕ → ProbabilityMeasure ℝ := fun N => ⟨ν N, inferInstance⟩
  let μ' : ProbabilityMeasure ℝ := ⟨μ, inferInstance⟩
  have hweak : Tendsto ν' atTop (𝓝 μ') :=
    ProbabilityMeasure.tendsto_of_tendsto_charFun hcf
  rw [ProbabilityMeasure.tendsto_iff_forall_integral_tendsto] at hweak
  -- the clamped function
  let cl : ℝ → ℝ → ℝ := fun R x => max (-R) (min R (f x))
  have hclc : ∀ R, Continuous (cl R) := fun R => by fun_prop
  have hclb : ∀ R, 0 ≤ R → ∀ x, |cl R x| ≤ R := fun R hR x => abs_le.2 ⟨le_max_left _ _, max_le (by linarith) (min_le_left _ _)⟩
  have hcl : ∀ R, 0 < R → Tendsto (fun N => ∫ x, cl R x ∂ν N) atTop (𝓝 (∫ x, cl R x ∂μ)) := by
    intro R hR
    have := hweak (BoundedContinuousFunction.ofNormedAddCommGroup (cl R) (hclc R) R (hclb R hR.le))
    exact this
  -- the square
  have hsq : ∀ x, f x ^ 2 ≤ 2 * C ^ 2 * (1 + x ^ (2 * j)) := by
    intro x
    have h1 := hC x
    have h2 : f x ^ 2 ≤ (C * (1 + |x| ^ j)) ^ 2 := by
      rw [← sq_abs]
      exact pow_le_pow_left₀ (abs_nonneg _) h1 2
    have h3 : x ^ (2 * j) = (|x| ^ j) ^ 2 := by rw [← pow_mul, mul_comm j 2, Even.pow_abs (even_two_mul j)]
    rw [h3]
    nlinarith [sq_nonneg (1 - |x| ^ j), sq_nonneg C]
  have hdiff : ∀ R, 0 < R → ∀ x, |f x - cl R x| ≤ f x ^ 2 / R := by
    intro R hR x
    rw [le_div_iff₀ hR]
    rcases le_total (f x) R with h1 | h1
    · rcases le_total (-R) (f x) with h2 | h2
      · have : cl R x = f x := by simp only [cl]; rw [min_eq_right h1, max_eq_right h2]
        rw [this, sub_self, abs_zero, zero_mul]
        positivity
      · have : cl R x = -R := by simp only [cl]; rw [min_eq_right h1, max_eq_left h2]
        rw [this, abs_of_nonpos (by linarith)]
        nlinarith
    · have : cl R x = R := by simp only [cl]; rw [min_eq_left h1, max_eq_right (by linarith)]
      rw [this, abs_of_nonneg (by linarith)]
      nlinarith
  have hint : ∀ (ρ : Measure ℝ) [IsProbabilityMeasure ρ], (∀ k : ℕ, Integrable (fun x => x ^ k) ρ) → ∀ R, 0 < R →
      |∫ x, f x ∂ρ - ∫ x, cl R x ∂ρ| ≤ 2 * C ^ 2 * (1 + ∫ x, x ^ (2 * j) ∂ρ) / R := by
    intro ρ _ hρ R hR
    have hfi : Integrable f ρ := by
      refine Integrable.mono' (((integrable_const (1 : ℝ)).add (hρ j).abs).const_mul C) hf.aestronglyMeasurable
        (Eventually.of_forall fun x => ?_)
      simpa using hC x
    have hci : Integrable (cl R) ρ := Integrable.of_bound (hclc R).aestronglyMeasurable R (Eventually.of_forall fun x => hclb R hR.le x)
    rw [← integral_sub hfi hci]
    refine (norm_integral_le_of_norm_le (f := fun x => f x - cl R x) (g := fun x => 2 * C ^ 2 * (1 + x ^ (2 * j)) / R)
      ((((integrable_const (1 : ℝ)).add (hρ _)).const_mul _).div_const _) (Eventually.of_forall fun x => ?_)).trans (le_of_eq ?_)
    · exact (hdiff R hR x).trans (div_le_div_of_nonneg_right (hsq x) hR.le)
    · rw [integral_div, integral_const_mul, integral_add (integrable_const _) (hρ _)]
      simp
  rw [Metric.tendsto_atTop]
  intro ε hε
  set M := 1 + ∫ x, x ^ (2 * j) ∂μ with hM
  have hM0 : 0 < M := by
    have : 0 ≤ ∫ x, x ^ (2 * j) ∂μ := integral_nonneg fun x => by
      change 0 ≤ x ^ (2 * j)
      rw [pow_mul]; positivity
    linarith
  set R := 8 * (2 * C ^ 2 * M) / ε + 1 with hR
  have hR0 : 0 < R := by positivity
  have hRM : 2 * C ^ 2 * (2 * M) / R < ε / 3 := by
    rw [div_lt_iff₀ hR0, hR]
    have : ε / 3 * (8 * (2 * C ^ 2 * M) / ε + 1) = 8 * (2 * C ^ 2 * M) / 3 + ε / 3 := by field_simp
    rw [this]
    have : 0 ≤ C ^ 2 * M := by positivity
    linarith
  have h1 : ∀ᶠ N in atTop, 1 + ∫ x, x ^ (2 * j) ∂ν N < 2 * M :=
    (tendsto_const_nhds.add (h (2 * j))).eventually (gt_mem_nhds (by linarith))
  have h2 := Metric.tendsto_nhds.1 (hcl R hR0) (ε / 3) (by positivity)
  obtain ⟨N0, hN0⟩ := eventually_atTop.1 (h1.and h2)
  refine ⟨N0, fun N hN => ?_⟩
  obtain ⟨a1, a2⟩ := hN0 N hN
  have b1 := hint (ν N) (hν N) R hR0
  have b2 := hint μ hμ R hR0
  have c1 : 2 * C ^ 2 * (1 + ∫ x, x ^ (2 * j) ∂ν N) / R ≤ 2 * C ^ 2 * (2 * M) / R := by
    refine div_le_div_of_nonneg_right (mul_le_mul_of_nonneg_left a1.le (by positivity)) hR0.le
  have c2 : 2 * C ^ 2 * M / R ≤ 2 * C ^ 2 * (2 * M) / R := by
    refine div_le_div_of_nonneg_right (mul_le_mul_of_nonneg_left (by linarith) (by positivity)) hR0.le
  rw [Real.dist_eq] at a2 ⊢
  rw [abs_lt] at a2 ⊢
  rw [abs_le] at b1 b2
  rw [← hM] at b2
  constructor <;> linarith [b1.1, b1.2, b2.1, b2.2, a2.1, a2.2]

/-- convergence of the moments implies that of the expectations of continuous functions of polynomial growth. -/
theorem tendsto_integral_of_moments {ν : ℕ → Measure ℝ} [∀ N, IsProbabilityMeasure (ν N)] {μ : Measure ℝ} [IsProbabilityMeasure μ]
    (hν : ∀ N, ∀ k : ℕ, Integrable (fun x => x ^ k) (ν N)) (hμ : ExpMoments μ)
    (h : ∀ k : ℕ, Tendsto (fun N => ∫ x, x ^ k ∂ν N) atTop (𝓝 (∫ x, x ^ k ∂μ))) {f : ℝ → ℝ} (hf : Continuous f) (hg : PolyGrowth f) :
    Tendsto (fun N => ∫ x, f x ∂ν N) atTop (𝓝 (∫ x, f x ∂μ)) :=
  tendsto_integral_of_charFun hν hμ.pow (fun t => tendsto_charFun_of_moments hν hμ h t) h hf hg

end Mfs.Converge

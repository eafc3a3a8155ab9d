import Verif.Lemmas.MomentMethod

/-!
# The method of moments for laws with some exponential moment

The characteristic function is continued along the real line in steps shorter than the radius of convergence of its power series.
-/

namespace Mfs.Converge

open MeasureTheory Filter Topology Complex

/-- a law with some exponential moment: `E exp(c |X|) < ∞` for one `c > 0`. -/
def SomeExpMoment (μ : Measure ℝ) : Prop := ∃ c : ℝ, 0 < c ∧ Integrable (fun x => Real.exp (c * |x|)) μ

theorem ExpMoments.some {μ : Measure ℝ} (h : ExpMoments μ) : SomeExpMoment μ := ⟨1, one_pos, h.abs 1⟩

theorem abs_pow_le_exp_mul {c : ℝ} (hc : 0 < c) (x : ℝ) (k : ℕ) : |x| ^ k ≤ k.factorial / c ^ k * Real.exp (c * |x|) := by
  have h := Real.pow_div_factorial_le_exp (c * |x|) (by positivity) k
  rw [mul_pow, div_le_iff₀ (by positivity)] at h
  rw [div_mul_eq_mul_div, le_div_iff₀ (by positivity)]
  linarith

theorem SomeExpMoment.pow {μ : Measure ℝ} (h : SomeExpMoment μ) (k : ℕ) : Integrable (fun x => x ^ k) μ := by
  obtain ⟨c, hc, hi⟩ := h
  refine (hi.const_mul (k.factorial / c ^ k)).mono' (by fun_prop) (.of_forall fun x => ?_)
  rw [Real.norm_eq_abs, abs_pow]
  exact abs_pow_le_exp_mul hc x k

/-- the derivatives of the characteristic function, up to powers of `I`. -/
noncomputable def cfMom (μ : Measure ℝ) (k : ℕ) (t : ℝ) : ℂ := ∫ x : ℝ, ((x : ℂ) ^ k) * exp (t * x * I) ∂μ

theorem cfMom_zero (μ : Measure ℝ) (t : ℝ) : cfMom μ 0 t = charFun μ t := by
  rw [cfMom, charFun_apply_real]
  simp

theorem cfMom_at_zero (μ : Measure ℝ) (k : ℕ) : cfMom μ k 0 = ((∫ x, x ^ k ∂μ : ℝ) : ℂ) := by
  rw [cfMom, ← integral_complex_ofReal]
  refine integral_congr_ae (.of_forall fun x => ?_)
  simp

theorem norm_char (t x : ℝ) : ‖exp (t * x * I)‖ = 1 := by
  rw [Complex.norm_exp]; simp

theorem integrable_cfMom {μ : Measure ℝ} (hμ : ∀ k : ℕ, Integrable (fun x => x ^ k) μ) (k : ℕ) (t : ℝ) :
    Integrable (fun x : ℝ => ((x : ℂ) ^ k) * exp (t * x * I)) μ := by
  refine (hμ k).abs.mono' (by fun_prop) (.of_forall fun x => ?_)
  rw [norm_mul, norm_char, mul_one, norm_pow, Complex.norm_real, Real.norm_eq_abs, abs_pow]

/-- Taylor's formula about any point of the line. -/
theorem cfMom_sub_taylor (μ : Measure ℝ) (hμ : ∀ k : ℕ, Integrable (fun x => x ^ k) μ) (k : ℕ) (t h : ℝ) (n : ℕ) :
    ‖cfMom μ k (t + h) - ∑ j ∈ Finset.range n, (h * I) ^ j / (j.factorial : ℂ) * cfMom μ (k + j) t‖
      ≤ |h| ^ n / n.factorial * ∫ x, |x| ^ (k + n) ∂μ := by
  have e : ∑ j ∈ Finset.range n, (h * I) ^ j / (j.factorial : ℂ) * cfMom μ (k + j) t
      = ∫ x : ℝ, ((x : ℂ) ^ k) * exp (t * x * I) * ∑ j ∈ Finset.range n, (h * x * I) ^ j / (j.factorial : ℂ) ∂μ := by
    have hi : ∀ j : ℕ, Integrable (fun x : ℝ => (h * I) ^ j / (j.factorial : ℂ) * (((x : ℂ) ^ (k + j)) * exp (t * x * I))) μ :=
      fun j => (integrable_cfMom hμ (k + j) t).const_mul _
    simp only [cfMom, ← integral_const_mul]
    rw [← integral_finsetSum _ fun j _ => hi j]
    refine integral_congr_ae (.of_forall fun x => ?_)
    simp only [Finset.mul_sum]
    refine Finset.sum_congr rfl fun j _ => ?_
    rw [pow_add]
    ring
  have hs : Integrable (fun x : ℝ => ((x : ℂ) ^ k) * exp (t * x * I) * ∑ j ∈ Finset.range n, (h * x * I) ^ j / (j.factorial : ℂ)) μ := by
    simp only [Finset.mul_sum]
    refine integrable_finsetSum _ fun j _ => ?_
    refine ((integrable_cfMom hμ (k + j) t).const_mul ((h * I) ^ j / (j.factorial : ℂ))).congr (.of_forall fun x => ?_)
    simp only [pow_add]
    ring
  rw [e, cfMom, ← integral_sub (integrable_cfMom hμ k (t + h)) hs, ← integral_const_mul]
  have ha : Integrable (fun x : ℝ => |x| ^ (k + n)) μ := by
    refine (hμ (k + n)).abs.congr (.of_forall fun x => ?_)
    simp [abs_pow]
  refine norm_integral_le_of_norm_le (ha.const_mul _) (.of_forall fun x => ?_)
  have hsplit : exp (((t + h : ℝ) : ℂ) * x * I) = exp (t * x * I) * exp (h * x * I) := by
    rw [← Complex.exp_add]; congr 1; push_cast; ring
  rw [hsplit, ← mul_assoc, ← mul_sub, norm_mul, norm_mul, norm_char, mul_one, norm_pow, Complex.norm_real, Real.norm_eq_abs]
  have h1 := norm_exp_sub_taylor (h * x * I) (by simp) n
  rw [norm_mul, norm_mul, Complex.norm_I, mul_one, Complex.norm_real, Complex.norm_real, Real.norm_eq_abs, Real.norm_eq_abs, mul_pow] at h1
  calc |x| ^ k * ‖exp (h * x * I) - ∑ j ∈ Finset.range n, (h * x * I) ^ j / (j.factorial : ℂ)‖
      ≤ |x| ^ k * (|h| ^ n * |x| ^ n / n.factorial) := mul_le_mul_of_nonneg_left h1 (by positivity)
    _ = |h| ^ n / n.factorial * |x| ^ (k + n) := by rw [pow_add]; ring

/-- the remainder tends to zero for short steps. -/
theorem remainder_tendsto {μ : Measure ℝ} {c : ℝ} (hc : 0 < c) (hi : Integrable (fun x => Real.exp (c * |x|)) μ) (k : ℕ) {h : ℝ}
    (hh : |h| ≤ c / 4) : Tendsto (fun m : ℕ => |h| ^ (k + 2 * m) / (k + 2 * m).factorial * ∫ x, |x| ^ (k + (k + 2 * m)) ∂μ) atTop (𝓝 0) := by
  have h0 : Tendsto (fun m : ℕ => ((1 : ℝ) / 2) ^ (k + 2 * m) * (k.factorial / (c / 2) ^ k * ∫ x, Real.exp (c * |x|) ∂μ)) atTop (𝓝 0) := by
    have h1 := (tendsto_pow_atTop_nhds_zero_of_lt_one (r := (1 / 2 : ℝ)) (by norm_num) (by norm_num)).comp
      (tendsto_atTop_mono (fun m : ℕ => (by omega : m ≤ k + 2 * m)) tendsto_id)
    have := h1.mul_const (k.factorial / (c / 2) ^ k * ∫ x, Real.exp (c * |x|) ∂μ)
    simpa using this
  refine squeeze_zero (fun m => mul_nonneg (by positivity) (integral_nonneg fun x => by positivity)) (fun m => ?_) h0
  have hp := SomeExpMoment.pow ⟨c, hc, hi⟩
  have ha : ∀ j : ℕ, Integrable (fun x : ℝ => |x| ^ j) μ := fun j => (hp j).abs.congr (.of_forall fun x => by simp [abs_pow])
  rw [← integral_const_mul, ← integral_const_mul, ← integral_const_mul]
  refine integral_mono ((ha _).const_mul _) ((hi.const_mul _).const_mul _) fun x => ?_
  generalize k + 2 * m = n
  have h1 := Real.pow_div_factorial_le_exp (c / 2 * |x|) (by positivity) n
  have h2 := abs_pow_le_exp_mul (half_pos hc) x k
  have h3 : |h| ^ n * |x| ^ n / n.factorial ≤ (1 / 2) ^ n * Real.exp (c / 2 * |x|) := by
    calc |h| ^ n * |x| ^ n / n.factorial ≤ (c / 4) ^ n * |x| ^ n / n.factorial := by gcongr
      _ = (1 / 2) ^ n * ((c / 2 * |x|) ^ n / n.factorial) := by
        rw [show c / 4 = 1 / 2 * (c / 2) by ring, mul_pow, mul_pow]; ring
      _ ≤ _ := mul_le_mul_of_nonneg_left h1 (by positivity)
  calc |h| ^ n / n.factorial * |x| ^ (k + n) = |x| ^ k * (|h| ^ n * |x| ^ n / n.factorial) := by rw [pow_add]; ring
    _ ≤ (k.factorial / (c / 2) ^ k * Real.exp (c / 2 * |x|)) * ((1 / 2) ^ n * Real.exp (c / 2 * |x|)) :=
      mul_le_mul h2 h3 (by positivity) (by positivity)
    _ = (1 / 2) ^ n * (k.factorial / (c / 2) ^ k * Real.exp (c * |x|)) := by
      rw [show c * |x| = c / 2 * |x| + c / 2 * |x| by ring, Real.exp_add]; ring

theorem cfMom_step {ν : ℕ → Measure ℝ} {μ : Measure ℝ} (hν : ∀ N, ∀ k : ℕ, Integrable (fun x => x ^ k) (ν N)) {c : ℝ} (hc : 0 < c)
    (hi : Integrable (fun x => Real.exp (c * |x|)) μ)
    (h : ∀ k : ℕ, Tendsto (fun N => ∫ x, x ^ k ∂ν N) atTop (𝓝 (∫ x, x ^ k ∂μ))) (t s : ℝ) (hs : |s| ≤ c / 4)
    (ht : ∀ k, Tendsto (fun N => cfMom (ν N) k t) atTop (𝓝 (cfMom μ k t))) (k : ℕ) :
    Tendsto (fun N => cfMom (ν N) k (t + s)) atTop (𝓝 (cfMom μ k (t + s))) := by
  have hp := SomeExpMoment.pow ⟨c, hc, hi⟩
  have heven : ∀ (ρ : Measure ℝ) (m : ℕ), ∫ x, |x| ^ (k + (k + 2 * m)) ∂ρ = ∫ x, x ^ (k + (k + 2 * m)) ∂ρ := fun ρ m =>
    integral_congr_ae (.of_forall fun x => Even.pow_abs ⟨k + m, by ring⟩ x)
  rw [Metric.tendsto_atTop]
  intro ε hε
  obtain ⟨m, hm⟩ := ((remainder_tendsto hc hi k hs).eventually (gt_mem_nhds (show (0 : ℝ) < ε / 4 by positivity))).exists
  have h1 : ∀ᶠ N in atTop, |s| ^ (k + 2 * m) / (k + 2 * m).factorial * ∫ x, |x| ^ (k + (k + 2 * m)) ∂ν N < ε / 4 := by
    simp only [heven] at hm ⊢
    exact ((h _).const_mul _).eventually (gt_mem_nhds hm)
  have h2 : Tendsto (fun N => ∑ j ∈ Finset.range (k + 2 * m), (s * I) ^ j / (j.factorial : ℂ) * cfMom (ν N) (k + j) t) atTop
      (𝓝 (∑ j ∈ Finset.range (k + 2 * m), (s * I) ^ j / (j.factorial : ℂ) * cfMom μ (k + j) t)) :=
    tendsto_finsetSum _ fun j _ => (ht (k + j)).const_mul _
  have h3 := Metric.tendsto_nhds.1 h2 (ε / 4) (by positivity)
  obtain ⟨N0, hN0⟩ := eventually_atTop.1 (h1.and h3)
  refine ⟨N0, fun N hN => ?_⟩
  obtain ⟨a1, a2⟩ := hN0 N hN
  have b1 := cfMom_sub_taylor (ν N) (hν N) k t s (k + 2 * m)
  have b2 := cfMom_sub_taylor μ hp k t s (k + 2 * m)
  rw [dist_eq_norm] at a2 ⊢
  set A := ∑ j ∈ Finset.range (k + 2 * m), (s * I) ^ j / (j.factorial : ℂ) * cfMom (ν N) (k + j) t
  set A' := ∑ j ∈ Finset.range (k + 2 * m), (s * I) ^ j / (j.factorial : ℂ) * cfMom μ (k + j) t
  have e : cfMom (ν N) k (t + s) - cfMom μ k (t + s) = (cfMom (ν N) k (t + s) - A) + (A - A') - (cfMom μ k (t + s) - A') := by ring
  rw [e]
  refine lt_of_le_of_lt (norm_sub_le _ _) ?_
  have := norm_add_le (cfMom (ν N) k (t + s) - A) (A - A')
  linarith

theorem tendsto_charFun_of_someMoments {ν : ℕ → Measure ℝ} {μ : Measure ℝ} (hν : ∀ N, ∀ k : ℕ, Integrable (fun x => x ^ k) (ν N))
    (hμ : SomeExpMoment μ) (h : ∀ k : ℕ, Tendsto (fun N => ∫ x, x ^ k ∂ν N) atTop (𝓝 (∫ x, x ^ k ∂μ))) (t : ℝ) :
    Tendsto (fun N => charFun (ν N) t) atTop (𝓝 (charFun μ t)) := by
  obtain ⟨c, hc, hi⟩ := hμ
  obtain ⟨n, hn⟩ := exists_nat_gt (|t| / (c / 4))
  have hn0 : (0 : ℝ) < n := lt_of_le_of_lt (by positivity) hn
  have hstep : |t / n| ≤ c / 4 := by
    rw [abs_div, abs_of_pos hn0, div_le_iff₀ hn0]
    rw [div_lt_iff₀ (by positivity)] at hn
    linarith
  have key : ∀ j : ℕ, ∀ k, Tendsto (fun N => cfMom (ν N) k (j * (t / n))) atTop (𝓝 (cfMom μ k (j * (t / n)))) := by
    intro j
    induction j with
    | zero =>
      intro k
      simp only [Nat.cast_zero, zero_mul, cfMom_at_zero]
      exact (Complex.continuous_ofReal.tendsto _).comp (h k)
    | succ j ih =>
      intro k
      have := cfMom_step hν hc hi h (j * (t / n)) (t / n) hstep ih k
      rw [show ((j + 1 : ℕ) : ℝ) * (t / n) = j * (t / n) + t / n by push_cast; ring]
      exact this
  have := key n 0
  rw [mul_div_cancel₀ t hn0.ne'] at this
  simpa only [cfMom_zero] using this

/-- convergence of the moments to those of a law with some exponential moment implies that of the expectations of continuous functions
of polynomial growth. -/
theorem tendsto_integral_of_someMoments {ν : ℕ → Measure ℝ} [∀ N, IsProbabilityMeasure (ν N)] {μ : Measure ℝ} [IsProbabilityMeasure μ]
    (hν : ∀ N, ∀ k : ℕ, Integrable (fun x => x ^ k) (ν N)) (hμ : SomeExpMoment μ)
    (h : ∀ k : ℕ, Tendsto (fun N => ∫ x, x ^ k ∂ν N) atTop (𝓝 (∫ x, x ^ k ∂μ))) {f : ℝ → ℝ} (hf : Continuous f) (hg : PolyGrowth f) :
    Tendsto (fun N => ∫ x, f x ∂ν N) atTop (𝓝 (∫ x, f x ∂μ)) :=
  tendsto_integral_of_charFun hν hμ.pow (fun t => tendsto_charFun_of_someMoments hν hμ h t) h hf hg

end Mfs.Converge

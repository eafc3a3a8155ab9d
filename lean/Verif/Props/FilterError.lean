import Verif.Props.RuleError
import Mathlib.Analysis.SpecialFunctions.Integrals.Basic
import Mathlib.Analysis.Complex.ExponentialBounds

/-!
# C158: how far one filtering step is from the exact Bayes step

The moments of the initial law are exact and the transition maps polynomials to polynomials without raising the degree. Then the
prediction is exact, and the error of the update is controlled by C157. `ν` is the predictive law.
-/

namespace Mfs.Props

open Mfs.Spec Mfs.Quad1 Mfs.Converge Mfs.Filter1 Polynomial MeasureTheory Filter Topology ProbabilityTheory

variable {Y : Type}

/-- the error of a ratio. -/
theorem ratio_error {a A c Z δ δ' : ℝ} (hc : |Z - c| ≤ δ) (ha : |A - a| ≤ δ') (hδ : δ < Z) :
    |a / c - A / Z| ≤ (δ' + |A / Z| * δ) / (Z - δ) := by
  have h0 : 0 ≤ δ := (abs_nonneg _).trans hc
  have h1 : Z - δ ≤ c := by linarith [(abs_le.1 hc).2]
  have hc0 : 0 < c := by linarith
  have hZ : 0 < Z := by linarith
  have e : a / c - A / Z = ((a - A) + A / Z * (Z - c)) / c := by
    field_simp
    ring
  rw [e, abs_div, abs_of_pos hc0]
  have h2 : |(a - A) + A / Z * (Z - c)| ≤ δ' + |A / Z| * δ := by
    refine (abs_add_le _ _).trans (add_le_add (by rwa [abs_sub_comm]) ?_)
    rw [abs_mul]
    exact mul_le_mul_of_nonneg_left hc (abs_nonneg _)
  have h3 : 0 ≤ δ' := (abs_nonneg _).trans ha
  exact div_le_div₀ (by positivity) h2 (by linarith) h1

theorem log_error {c Z δ : ℝ} (hc : |Z - c| ≤ δ) (hδ : δ < Z) : |-Real.log c - -Real.log Z| ≤ δ / (Z - δ) := by
  have h0 : 0 ≤ δ := (abs_nonneg _).trans hc
  have h1 : Z - δ ≤ c := by linarith [(abs_le.1 hc).2]
  have hc0 : 0 < c := by linarith
  have hZ : 0 < Z := by linarith
  have key : ∀ u v : ℝ, 0 < u → 0 < v → Z - δ ≤ v → |u - v| ≤ δ → Real.log u - Real.log v ≤ δ / (Z - δ) := by
    intro u v hu hv hv' huv
    rw [← Real.log_div hu.ne' hv.ne']
    refine (Real.log_le_sub_one_of_pos (by positivity)).trans ?_
    rw [show u / v - 1 = (u - v) / v by field_simp]
    exact div_le_div₀ h0 ((le_abs_self _).trans huv) (by linarith) hv'
  rw [abs_le]
  constructor
  · have := key c Z hc0 hZ (by linarith) (by rwa [abs_sub_comm])
    linarith
  · have := key Z c hZ hc0 h1 hc
    linarith

/-- C158. -/
theorem C158_filter_step_error (B : Backend) (hB : B.Valid) (stable : Bool) (n : ℕ) (hn : 1 ≤ n) (μ ν : Measure ℝ) [IsProbabilityMeasure μ]
    [IsProbabilityMeasure ν] (hμ : ∀ k ≤ 2 * n, Integrable (fun x : ℝ => x ^ k) μ) (hν : ∀ k ≤ 2 * n, Integrable (fun x : ℝ => x ^ k) ν)
    (hμc : ∀ s : Finset ℝ, s.card < n → μ (s : Set ℝ)ᶜ ≠ 0) (hνc : ∀ s : Finset ℝ, s.card < n → ν (s : Set ℝ)ᶜ ≠ 0)
    (A : ℝ[X] → ℝ[X]) (hA : ∀ p, (A p).natDegree ≤ p.natDegree)
    (hAν : ∀ p : ℝ[X], p.natDegree < 2 * n → ∫ x, p.eval x ∂ν = ∫ x, (A p).eval x ∂μ)
    (pdf : Y → ℝ → ℝ) (y : Y) (hf : ContDiff ℝ (2 * n : ℕ) (pdf y)) (I : Set ℝ) (hI : I.OrdConnected) (hI2 : I.Infinite) (hIν : ν Iᶜ = 0)
    (M : ℕ → ℝ) (hM : ∀ k < 2 * n, ∀ x ∈ I, |iteratedDeriv (2 * n) (fun x => x ^ k * pdf y x) x| ≤ M k)
    (q : ℝ[X]) (hq : q.Monic) (hqn : q.natDegree = n)
    (hsmall : M 0 / ((2 * n).factorial : ℝ) * ∫ x, q.eval x ^ 2 ∂ν < ∫ x, pdf y x ∂ν) :
    let δ : ℕ → ℝ := fun k => M k / ((2 * n).factorial : ℝ) * ∫ x, q.eval x ^ 2 ∂ν
    let Z := ∫ x, pdf y x ∂ν
    let E : ℕ → ℝ := fun k => (∫ x, x ^ k * pdf y x ∂ν) / Z
    (∀ (P : ℝ → ℕ → ℝ) (rms0 : List ℝ), rms0.length = 2 * n → (∀ k < 2 * n, rms0.getD k 0 = ∫ x, x ^ k ∂μ) →
      (∀ x k, P x k = (A (X ^ k)).eval x) →
      ∃ out nell, filterRms B P pdf rms0 [y] stable = ([out], nell) ∧ |nell - -Real.log Z| ≤ δ 0 / (Z - δ 0) ∧
        ∀ k < 2 * n, |out.getD k 0 - E k| ≤ (δ k + |E k| * δ 0) / (Z - δ 0)) ∧
    (∀ (P : ℝ → ℕ → ℝ → ℝ) (cm : ℝ → ℝ) (cms0 : List ℝ) (m0 : ℝ), cms0.length = 2 * n →
      (∀ k < 2 * n, cms0.getD k 0 = ∫ x, (x - m0) ^ k ∂μ) → (∀ x k m, P x k m = (A ((X - C m) ^ k)).eval x) →
      ∃ out nell, filterCms B P cm pdf cms0 m0 [y] stable = ([out], nell) ∧ |nell - -Real.log Z| ≤ δ 0 / (Z - δ 0) ∧
        |out.2 - E 1| ≤ (δ 1 + |E 1| * δ 0) / (Z - δ 0)) ∧
    (∀ (P : ℝ → ℕ → ℝ → ℝ → ℝ) (cm cv : ℝ → ℝ) (scms0 : List ℝ) (m0 s0 : ℝ), scms0.length = 2 * n → s0 ≠ 0 →
      (∀ k < 2 * n, scms0.getD k 0 = ∫ x, ((x - m0) / s0) ^ k ∂μ) → (∀ x, 0 < cv x) →
      (∀ x k m s, P x k m s = (A ((C s⁻¹ * (X - C m)) ^ k)).eval x) →
      ∃ out nell, filterScms B P cm cv pdf scms0 m0 s0 [y] stable = ([out], nell) ∧ |nell - -Real.log Z| ≤ δ 0 / (Z - δ 0) ∧
        |out.2.1 - E 1| ≤ (δ 1 + |E 1| * δ 0) / (Z - δ 0)) := by
  intro δ Z E
  -- the update
  have hupd : ∀ (ms : List ℝ) (m s : ℝ), s ≠ 0 → ms.length = 2 * n → (∀ k < 2 * n, ms.getD k 0 = ∫ x, ((x - m) / s) ^ k ∂ν) → ∀ k < 2 * n,
      |∫ x, x ^ k * pdf y x ∂ν - integ (momentQuadrature B ms m s false stable) (fun x => x ^ k * pdf y x)| ≤ δ k := by
    intro ms m s hs hl hms k hk
    have hl2 : ms.length / 2 = n := by omega
    have h := C157_rule_error B hB ν ms (by omega) (by rw [hl2]; exact hν) (by rw [hl2]; exact hνc) m s hs (by rw [hl]; exact hms) false stable
      (fun x => x ^ k * pdf y x) (by rw [hl2]; exact (contDiff_id.pow k).mul hf) I hI hI2 hIν (M k) (by rw [hl2]; exact hM k hk) q hq
      (by rw [hl2]; exact hqn)
    refine h.2.2.trans (le_of_eq ?_)
    simp only [δ, hl2]
  have hupd0 : ∀ (ms : List ℝ) (m s : ℝ), s ≠ 0 → ms.length = 2 * n → (∀ k < 2 * n, ms.getD k 0 = ∫ x, ((x - m) / s) ^ k ∂ν) →
      |Z - integ (momentQuadrature B ms m s false stable) (pdf y)| ≤ δ 0 := by
    intro ms m s hs hl hms
    have := hupd ms m s hs hl hms 0 (by omega)
    simpa using this
  -- the prediction
  have hpred : ∀ (ms : List ℝ) (m s : ℝ), s ≠ 0 → ms.length = 2 * n → (∀ k < 2 * n, ms.getD k 0 = ∫ x, ((x - m) / s) ^ k ∂μ) →
      PosRule (momentQuadrature B ms m s false stable) ∧ ∀ (m' s' : ℝ), ∀ k < 2 * n,
      integ (momentQuadrature B ms m s false stable) (fun x => (A (affPoly m' s' ^ k)).eval x) = ∫ x, ((x - m') / s') ^ k ∂ν := by
    intro ms m s hs hl hms
    have hl2 : ms.length / 2 = n := by omega
    obtain ⟨hp, he⟩ := rule_of_card B hB μ ms (by omega) (by rw [hl2]; exact hμ) (by rw [hl2]; exact hμc) m s hs (by rw [hl]; exact hms)
      false stable
    refine ⟨hp, fun m' s' k hk => ?_⟩
    have hd := natDegree_affPoly_pow m' s' k
    rw [he _ (by rw [hl2]; exact ((hA _).trans hd).trans_lt hk), ← hAν _ (hd.trans_lt hk)]
    simp only [eval_pow, affPoly_eval]
  refine ⟨?_, ?_, ?_⟩
  · intro P rms0 hl h0 hP
    have hP' : ∀ k, (fun x => P x k) = fun x => (A (affPoly 0 1 ^ k)).eval x := fun k => by
      funext x; rw [hP, affPoly_zero_one]
    refine ⟨nextRms B stable P pdf (2 * n) rms0 y, -Real.log (likRms B stable P pdf (2 * n) rms0 y), ?_, ?_⟩
    · rw [filterRms_eq, hl]
      simp [traj, liks]
    have hpl : (predRms B stable P (2 * n) rms0).length = 2 * n := by simp [predRms]
    have hpm : ∀ k < 2 * n, (predRms B stable P (2 * n) rms0).getD k 0 = ∫ x, ((x - 0) / 1) ^ k ∂ν := by
      intro k hk
      rw [predRms, getD_map_range _ hk, hP']
      exact (hpred rms0 0 1 one_ne_zero hl (fun k hk => by simpa using h0 k hk)).2 0 1 k hk
    have hc := hupd0 _ 0 1 one_ne_zero hpl hpm
    refine ⟨log_error hc hsmall, fun k hk => ?_⟩
    rw [nextRms, getD_map_range _ hk]
    exact ratio_error hc (hupd _ 0 1 one_ne_zero hpl hpm k hk) hsmall
  · intro P cm cms0 m0 hl h0 hP
    have hP' : ∀ k m, (fun x => P x k m) = fun x => (A (affPoly m 1 ^ k)).eval x := fun k m => by
      funext x; rw [hP, affPoly_one]
    refine ⟨nextCms B stable P cm pdf (2 * n) (cms0, m0) y, -Real.log (likCms B stable P cm pdf (2 * n) (cms0, m0) y), ?_, ?_⟩
    · rw [filterCms_eq, hl]
      simp [traj, liks]
    set pr := predCms B stable P cm (2 * n) (cms0, m0) with hpr
    have hpl : pr.1.length = 2 * n := by simp [hpr, predCms]
    have hpm : ∀ k < 2 * n, pr.1.getD k 0 = ∫ x, ((x - pr.2) / 1) ^ k ∂ν := by
      intro k hk
      have : pr.1.getD k 0 = integ (momentQuadrature B cms0 m0 1 false stable) fun x => P x k pr.2 := getD_map_range _ hk
      rw [this, hP']
      exact (hpred cms0 m0 1 one_ne_zero hl (fun k hk => by simpa using h0 k hk)).2 pr.2 1 k hk
    have hc := hupd0 _ pr.2 1 one_ne_zero hpl hpm
    refine ⟨log_error hc hsmall, ?_⟩
    have h1 := hupd _ pr.2 1 one_ne_zero hpl hpm 1 (by omega)
    have e : (nextCms B stable P cm pdf (2 * n) (cms0, m0) y).2 = integ (momentQuadrature B pr.1 pr.2 1 false stable) (fun x => x ^ 1 * pdf y x) /
        integ (momentQuadrature B pr.1 pr.2 1 false stable) (pdf y) := by
      simp only [nextCms, sub_zero]
      rfl
    rw [e]
    exact ratio_error hc h1 hsmall
  · intro P cm cv scms0 m0 s0 hl hs0 h0 hcv hP
    have hP' : ∀ k m s, (fun x => P x k m s) = fun x => (A (affPoly m s ^ k)).eval x := fun k m s => by
      funext x; rw [hP, affPoly]
    refine ⟨nextScms B stable P cm cv pdf (2 * n) (scms0, m0, s0) y, -Real.log (likScms B stable P cm cv pdf (2 * n) (scms0, m0, s0) y), ?_, ?_⟩
    · rw [filterScms_eq, hl]
      simp [traj, liks]
    set pr := predScms B stable P cm cv (2 * n) (scms0, m0, s0) with hpr
    have hpl : pr.1.length = 2 * n := by simp [hpr, predScms]
    obtain ⟨hpos, hex⟩ := hpred scms0 m0 s0 hs0 hl h0
    have hs : pr.2.2 ≠ 0 := by
      have : pr.2.2 = Real.sqrt (integ (momentQuadrature B scms0 m0 s0 false stable) cv) := rfl
      rw [this]
      exact (Real.sqrt_pos.2 (hpos.integ_pos hcv)).ne'
    have hpm : ∀ k < 2 * n, pr.1.getD k 0 = ∫ x, ((x - pr.2.1) / pr.2.2) ^ k ∂ν := by
      intro k hk
      have : pr.1.getD k 0 = integ (momentQuadrature B scms0 m0 s0 false stable) fun x => P x k pr.2.1 pr.2.2 := getD_map_range _ hk
      rw [this, hP']
      exact hex pr.2.1 pr.2.2 k hk
    have hc := hupd0 _ pr.2.1 pr.2.2 hs hpl hpm
    refine ⟨log_error hc hsmall, ?_⟩
    have h1 := hupd _ pr.2.1 pr.2.2 hs hpl hpm 1 (by omega)
    have e : (nextScms B stable P cm cv pdf (2 * n) (scms0, m0, s0) y).2.1 =
        integ (momentQuadrature B pr.1 pr.2.1 pr.2.2 false stable) (fun x => x ^ 1 * pdf y x) /
        integ (momentQuadrature B pr.1 pr.2.1 pr.2.2 false stable) (pdf y) := by
      simp only [nextScms, sub_zero, div_one]
      rfl
    rw [e]
    exact ratio_error hc h1 hsmall

/-- the hypotheses hold for the uniform law on `[0, 1]`, two moments, a state that stays put, and the likelihood `exp`. -/
example : let μ : Measure ℝ := volume.restrict (Set.Icc 0 1)
    IsProbabilityMeasure μ ∧ (∀ k ≤ 2 * 1, Integrable (fun x : ℝ => x ^ k) μ) ∧
    (∀ s : Finset ℝ, s.card < 1 → μ (s : Set ℝ)ᶜ ≠ 0) ∧ μ (Set.Icc 0 1)ᶜ = 0 ∧ ContDiff ℝ (2 * 1 : ℕ) Real.exp ∧
    (∀ k < 2 * 1, ∀ x ∈ Set.Icc (0 : ℝ) 1, |iteratedDeriv (2 * 1) (fun x => x ^ k * Real.exp x) x| ≤ 9) ∧
    (9 / ((2 * 1).factorial : ℝ) * ∫ x, (X - C (1 / 2) : ℝ[X]).eval x ^ 2 ∂μ < ∫ x, Real.exp x ∂μ) := by
  intro μ
  have hprob : IsProbabilityMeasure μ := ⟨by simp [μ]⟩
  have hint : ∀ g : ℝ → ℝ, Continuous g → Integrable g μ := fun g hg =>
    (hg.continuousOn (s := Set.Icc 0 1)).integrableOn_compact isCompact_Icc
  refine ⟨hprob, fun k _ => hint _ (by fun_prop), ?_, by simp [μ], Real.contDiff_exp, ?_, ?_⟩
  · intro s hs
    rw [Finset.card_eq_zero.1 (by omega : s.card = 0)]
    simp
  · intro k hk x hx
    have he : Real.exp x ≤ 3 := (Real.exp_le_exp.2 hx.2).trans (by linarith [Real.exp_one_lt_d9])
    have h0 := Real.exp_pos x
    have hd : deriv (deriv fun x : ℝ => x * Real.exp x) = fun x => (x + 2) * Real.exp x := by
      have h1 : (deriv fun x : ℝ => x * Real.exp x) = fun x => (x + 1) * Real.exp x := by
        funext x
        have := ((hasDerivAt_id x).mul (Real.hasDerivAt_exp x)).deriv
        simp only [id] at this
        rw [show (fun x : ℝ => x * Real.exp x) = id * Real.exp from rfl, this]
        ring
      rw [h1]
      funext x
      have := (((hasDerivAt_id x).add_const (1 : ℝ)).mul (Real.hasDerivAt_exp x)).deriv
      simp only [id] at this
      rw [show (fun x : ℝ => (x + 1) * Real.exp x) = (fun x => x + 1) * Real.exp from rfl, this]
      ring
    interval_cases k
    · simp only [pow_zero, one_mul, mul_one, iteratedDeriv_succ, iteratedDeriv_zero, Real.deriv_exp]
      rw [abs_of_pos h0]
      linarith
    · simp only [pow_one, mul_one, iteratedDeriv_succ, iteratedDeriv_zero]
      rw [hd, abs_of_nonneg (mul_nonneg (by linarith [hx.1]) h0.le)]
      nlinarith [hx.1, hx.2]
  · have h1 : ∫ x, (X - C (1 / 2) : ℝ[X]).eval x ^ 2 ∂μ = 1 / 12 := by
      simp only [μ, integral_Icc_eq_integral_Ioc, ← intervalIntegral.integral_of_le zero_le_one, eval_sub, eval_X, eval_C]
      rw [intervalIntegral.integral_comp_sub_right (fun x => x ^ 2), integral_pow]
      norm_num
    have h2 : (1 : ℝ) ≤ ∫ x, Real.exp x ∂μ := by
      have : ∫ _, (1 : ℝ) ∂μ ≤ ∫ x, Real.exp x ∂μ := by
        refine integral_mono_ae (integrable_const _) (hint _ Real.continuous_exp) ?_
        filter_upwards [ae_restrict_mem measurableSet_Icc] with x hx
        simpa using hx.1
      simpa using this
    rw [h1]
    norm_num
    linarith

end Mfs.Props

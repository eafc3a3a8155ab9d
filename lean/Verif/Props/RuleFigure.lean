import Verif.Model.RuleFigure
import Verif.Lemmas.GammaLaw
import Verif.Props.GaussRuleLaw
import Verif.Props.NormalModels

/-!
# C191: the rules drawn by `plot_quadrature_rules.py`
-/

namespace Mfs.Props

open Matrix Mfs.Spec Mfs.Quad1 Mfs.Plots Mfs.Moments1 Mfs.Converge MeasureTheory ProbabilityTheory Filter Topology Polynomial

/-- `(ws, xs)` is a Gauss rule of `μ` with `N` nodes: positive weights of sum one, distinct nodes, exact below degree `2 N`. -/
structure IsGaussRule {n : ℕ} (r : (Fin n → ℝ) × (Fin n → ℝ)) (N : ℕ) (μ : Measure ℝ) : Prop where
  card : n = N
  pos : ∀ i, 0 < r.1 i
  sum : ∑ i, r.1 i = 1
  inj : Function.Injective r.2
  exact : ∀ p : ℝ[X], p.natDegree < 2 * N → ∑ i, r.1 i * p.eval (r.2 i) = ∫ x, p.eval x ∂μ

/-! ## The uniform law -/

theorem figUniform_length (a b : ℝ) (N : ℕ) : (figUniformRms a b N).length = 2 * N := by simp [figUniformRms]

theorem figUniform_moment {a b : ℝ} (h : a < b) (N k : ℕ) (hk : k < (figUniformRms a b N).length) :
    (figUniformRms a b N).getD k 0 = ∫ x, x ^ k ∂uniformLaw a b := by
  rw [figUniform_length] at hk
  have hb : b - a ≠ 0 := (sub_pos.2 h).ne'
  rw [figUniformRms, getD_map_range_real _ hk, uniform_integral h, integral_pow, sum_map_range_real]
  have hg : (∑ i ∈ Finset.range (k + 1), a ^ i * b ^ (k - i)) * (b - a) = b ^ (k + 1) - a ^ (k + 1) := by
    have := (Commute.all a b).geom_sum₂_mul (k + 1)
    simp only [Nat.add_sub_cancel] at this
    linear_combination -this
  rw [← hg]
  have : (k : ℝ) + 1 ≠ 0 := by positivity
  field_simp

/-- **C191 (uniform law).** The rule drawn for `U(a, b)` is its Gauss rule with `N` nodes, all strictly between `a` and `b`: the zeros of
the Legendre polynomial of degree `N`, carried to `[a, b]`. -/
theorem C191_uniform (B : Backend) (hB : B.Valid) {a b : ℝ} (h : a < b) (N : ℕ) (hN : 1 ≤ N) :
    IsGaussRule (figUniformRule B a b N) N (uniformLaw a b) ∧ (∀ i, a < (figUniformRule B a b N).2 i ∧ (figUniformRule B a b N).2 i < b) ∧
    ∀ x, (legPoly N).eval ((2 * x - a - b) / (b - a)) = 0 ↔ ∃ i, (figUniformRule B a b N).2 i = x := by
  have := uniform_prob h
  have hb : b - a ≠ 0 := (sub_pos.2 h).ne'
  have hl := figUniform_length a b N
  have hn : (figUniformRms a b N).length / 2 = N := by rw [hl]; omega
  obtain ⟨h1, h2, h3, h4, h5, h6, h7⟩ := C191_gauss_rule B hB (uniformLaw a b) (fun k => uniform_integrable a b (by fun_prop))
    (ac_inf (uniform_ac a b)) (figUniformRms a b N) (by omega) 0 1 one_ne_zero
    (fun k hk => by simpa using figUniform_moment h N k hk) false false
  refine ⟨⟨hn, h1, h2, h3, fun p hp => h4 p (by rwa [hn])⟩, fun i => ⟨h5 a (uniform_Iio a b) i, h6 b (uniform_Ioi a b) i⟩, fun x => ?_⟩
  have hev : ∀ x, ((legPoly N).comp (C (2 / (b - a)) * X + C (-(a + b) / (b - a)))).eval x = (legPoly N).eval ((2 * x - a - b) / (b - a)) := by
    intro x
    simp only [eval_comp, eval_add, eval_mul, eval_C, eval_X]
    congr 1
    field_simp; ring
  rw [← hev]
  refine h7 _ ?_ ?_ (fun q hq => ?_) x
  · intro h0
    apply legPoly_ne_zero N
    have hc := congrArg (fun p : ℝ[X] => p.comp (C ((b - a) / 2) * X + C ((a + b) / 2))) h0
    simp only [zero_comp] at hc
    rw [comp_assoc] at hc
    have e : (C (2 / (b - a)) * X + C (-(a + b) / (b - a)) : ℝ[X]).comp (C ((b - a) / 2) * X + C ((a + b) / 2)) = X := by
      simp only [add_comp, mul_comp, C_comp, X_comp]
      rw [mul_add, ← mul_assoc, ← C_mul, ← C_mul, add_assoc, ← C_add]
      have e1 : 2 / (b - a) * ((b - a) / 2) = 1 := by field_simp
      have e2 : 2 / (b - a) * ((a + b) / 2) + -(a + b) / (b - a) = 0 := by field_simp; ring
      rw [e1, e2]; simp
    rwa [e, comp_X] at hc
  · rw [hn]
    refine natDegree_comp_le.trans ?_
    calc _ ≤ N * 1 := Nat.mul_le_mul (legPoly_natDegree_le N) natDegree_linear_le
      _ = N := mul_one N
  · simp only [hev]
    exact legendre_orth h N q (by rwa [hn] at hq)

/-- **C191 (uniform law, convergence).** The rule integrates every function continuous on `[a, b]` in the limit. -/
theorem C191_uniform_converges (B : Backend) (hB : B.Valid) {a b : ℝ} (h : a < b) (f : ℝ → ℝ) (hf : ContinuousOn f (Set.Icc a b)) :
    Tendsto (fun N => integ (figUniformRule B a b N) f) atTop (𝓝 (1 / (b - a) * ∫ x in a..b, f x)) := by
  have := uniform_prob h
  let g : ℝ → ℝ := Set.IccExtend h.le (Set.domRestrict (Set.Icc a b) f)
  have hg : Continuous g := (continuousOn_iff_continuous_domRestrict.1 hf).Icc_extend'
  have hfg : ∀ x ∈ Set.Icc a b, g x = f x := fun x hx => Set.IccExtend_of_mem _ _ hx
  obtain ⟨M, hM⟩ := isCompact_Icc.exists_bound_of_continuousOn hf
  have hgM : ∀ x, |g x| ≤ M := fun x => hM _ (Set.projIcc a b h.le x).2
  have key := C191_rule_converges B hB (uniformLaw a b) ⟨1, one_pos, uniform_integrable a b (by fun_prop)⟩ (ac_inf (uniform_ac a b)) g hg
    ⟨M, 0, fun x => by have := hgM x; have := (abs_nonneg _).trans this; simp; linarith⟩ (fun _ => 0) (fun _ => 1) (fun _ => one_ne_zero) false false
    (figUniformRms a b) (by
      simp only [figUniform_length]
      exact tendsto_id.const_mul_atTop' (by norm_num)) (fun N k hk => by simpa using figUniform_moment h N k hk)
  have e : ∫ x, g x ∂uniformLaw a b = 1 / (b - a) * ∫ x in a..b, f x := by
    rw [uniform_integral h]
    congr 1
    exact intervalIntegral.integral_congr fun x hx => hfg x (by rwa [Set.uIcc_of_le h.le] at hx)
  rw [e] at key
  refine key.congr' ?_
  filter_upwards [eventually_ge_atTop 1] with N hN
  have hin := (C191_uniform B hB h N hN).2.1
  show ∑ i, (figUniformRule B a b N).1 i * g ((figUniformRule B a b N).2 i) = ∑ i, (figUniformRule B a b N).1 i * f ((figUniformRule B a b N).2 i)
  exact Finset.sum_congr rfl fun i _ => by rw [hfg _ ⟨(hin i).1.le, (hin i).2.le⟩]

/-! ## The gamma law -/

theorem figGamma_length (k θ : ℝ) (N : ℕ) : (figGammaRms k θ N).length = 2 * N := by simp [figGammaRms]

theorem figGamma_moment {k θ : ℝ} (hk : 0 < k) (hθ : 0 < θ) (N n : ℕ) (hn : n < (figGammaRms k θ N).length) :
    (figGammaRms k θ N).getD n 0 = ∫ x, x ^ n ∂gammaMeasure k (1 / θ) := by
  rw [figGamma_length] at hn
  rw [figGammaRms, getD_map_range_real _ hn, gamma_moment hk (by positivity), one_div_one_div]

/-- **C191 (gamma law).** The rule drawn for the gamma law of shape `k` and scale `θ` is its Gauss rule with `N` nodes, all positive: `θ`
times the zeros of the generalised Laguerre polynomial `L_N^{(k - 1)}`. -/
theorem C191_gamma (B : Backend) (hB : B.Valid) {k θ : ℝ} (hk : 0 < k) (hθ : 0 < θ) (N : ℕ) (hN : 1 ≤ N) :
    IsGaussRule (figGammaRule B k θ N) N (gammaMeasure k (1 / θ)) ∧ (∀ i, 0 < (figGammaRule B k θ N).2 i) ∧
    ∀ x, (lagPoly N (k - 1)).eval (x / θ) = 0 ↔ ∃ i, (figGammaRule B k θ N).2 i = x := by
  have hr : 0 < 1 / θ := by positivity
  have := isProbabilityMeasure_gammaMeasure hk hr
  have hl := figGamma_length k θ N
  have hn : (figGammaRms k θ N).length / 2 = N := by rw [hl]; omega
  have hpow := (gamma_someExp hk hr).pow
  obtain ⟨h1, h2, h3, h4, h5, h6, h7⟩ := C191_gauss_rule B hB (gammaMeasure k (1 / θ)) hpow (ac_inf (withDensity_absolutelyContinuous _ _))
    (figGammaRms k θ N) (by omega) 0 1 one_ne_zero (fun n hn => by simpa using figGamma_moment hk hθ N n hn) false false
  refine ⟨⟨hn, h1, h2, h3, fun p hp => h4 p (by rwa [hn])⟩, h5 0 gamma_neg, fun x => ?_⟩
  have hev : ∀ x, ((lagPoly N (k - 1)).comp (C θ⁻¹ * X)).eval x = (lagPoly N (k - 1)).eval (x / θ) := by
    intro x
    simp only [eval_comp, eval_mul, eval_C, eval_X]
    congr 1
    rw [div_eq_inv_mul]
  rw [← hev]
  refine h7 _ ?_ ?_ (fun q hq => ?_) x
  · intro h0
    have := hev 0
    rw [h0, zero_div, eval_zero] at this
    exact lagPoly_coeff_zero N hk this.symm
  · rw [hn]
    refine natDegree_comp_le.trans ?_
    calc _ ≤ N * 1 := Nat.mul_le_mul (lagPoly_natDegree N _) ((natDegree_C_mul_le _ _).trans natDegree_X_le)
      _ = N := mul_one N
  · rw [hn] at hq
    simp only [eval_eq_sum_range (p := q), Finset.mul_sum]
    rw [integral_finsetSum]
    · refine Finset.sum_eq_zero fun j hj => ?_
      rw [Finset.mem_range] at hj
      have := laguerre_orth hk hθ N j (by omega)
      calc _ = ∫ x, q.coeff j * (((lagPoly N (k - 1)).comp (C θ⁻¹ * X)).eval x * x ^ j) ∂gammaMeasure k (1 / θ) :=
            integral_congr_ae (.of_forall fun x => by ring)
        _ = 0 := by rw [integral_const_mul, this, mul_zero]
    · intro j _
      have := integrable_polyK hpow ((lagPoly N (k - 1)).comp (C θ⁻¹ * X) * (C (q.coeff j) * X ^ j))
      simpa using this

/-- **C191 (gamma law, convergence).** The gamma law has no exponential moment beyond `1 / θ`; the rule converges all the same, for every
continuous integrand of at most polynomial growth. -/
theorem C191_gamma_converges (B : Backend) (hB : B.Valid) {k θ : ℝ} (hk : 0 < k) (hθ : 0 < θ) (f : ℝ → ℝ) (hf : Continuous f)
    (hfg : ∃ (C : ℝ) (j : ℕ), ∀ x, |f x| ≤ C * (1 + |x| ^ j)) :
    Tendsto (fun N => integ (figGammaRule B k θ N) f) atTop (𝓝 (∫ x, f x ∂gammaMeasure k (1 / θ))) := by
  have hr : 0 < 1 / θ := by positivity
  have := isProbabilityMeasure_gammaMeasure hk hr
  exact C191_rule_converges B hB (gammaMeasure k (1 / θ)) (gamma_someExp hk hr) (ac_inf (withDensity_absolutelyContinuous _ _)) f hf hfg
    (fun _ => 0) (fun _ => 1) (fun _ => one_ne_zero) false false (figGammaRms k θ) (by
      simp only [figGamma_length]
      exact tendsto_id.const_mul_atTop' (by norm_num)) (fun N n hn => by simpa using figGamma_moment hk hθ N n hn)

/-! ## The Gaussian mixture -/

theorem figMixture_length (comps : List Component) (N : ℕ) : (figMixtureCms comps N).length = 2 * N := by
  simp [figMixtureCms, length_rawToCentral, figMixtureRms]

theorem figMixture_moment (comps : List Component) (hw : ∀ c ∈ comps, 0 ≤ c.weight) (hvar : ∀ c ∈ comps, 0 ≤ c.variance) (N k : ℕ) (hN : 1 ≤ N)
    (hk : k < (figMixtureCms comps N).length) :
    (figMixtureCms comps N).getD k 0 = ∫ x, (x - (comps.map fun c => c.mean * c.weight).sum) ^ k ∂mixture comps := by
  have hraw : ∀ p, (comps.map fun c => rawMomentOfNormal c.mean c.variance p * c.weight).sum = mixL comps (X ^ p) := by
    intro p
    rw [mixL_apply]
    congr 1
    refine List.map_congr_left fun c hc => ?_
    rw [rawNormal_raw _ _ (hvar c hc)]
    simp [gaussL]
  have hr : ∀ j < (figMixtureRms comps N).length, (figMixtureRms comps N).getD j 0 = mixL comps (X ^ j) := by
    intro j hj
    rw [figMixtureRms, getD_map_range_real _ (by simpa [figMixtureRms] using hj), hraw]
  have hmean : jget (figMixtureRms comps N) 1 = (comps.map fun c => c.mean * c.weight).sum := by
    rw [jget_eq (by simp [figMixtureRms]; omega), hr 1 (by simp [figMixtureRms]; omega), mixL_apply]
    congr 1
    refine List.map_congr_left fun c _ => ?_
    simp [gaussL]
  rw [List.getD_eq_getElem?_getD, List.getElem?_eq_getElem hk, Option.getD_some]
  have := getElem_rawToCentral (mixL comps) (figMixtureRms comps N) hr k hk
  rw [hmean, mixL_eq_integral comps hw] at this
  simp only [eval_pow, eval_sub, eval_X, eval_C] at this
  exact this

/-- **C191 (Gaussian mixture).** The rule drawn for a mixture of normal laws with positive variances is its Gauss rule with `N` nodes, and
it converges. -/
theorem C191_mixture (B : Backend) (hB : B.Valid) (comps : List Component) (hw : ∀ c ∈ comps, 0 ≤ c.weight)
    (h1 : (comps.map (·.weight)).sum = 1) (hvar : ∀ c ∈ comps, 0 < c.variance) :
    (∀ N, 1 ≤ N → IsGaussRule (figMixtureRule B comps N) N (mixture comps)) ∧
    ∀ f : ℝ → ℝ, Continuous f → (∃ (C : ℝ) (j : ℕ), ∀ x, |f x| ≤ C * (1 + |x| ^ j)) →
      Tendsto (fun N => integ (figMixtureRule B comps N) f) atTop (𝓝 (∫ x, f x ∂mixture comps)) := by
  have := mixture_prob comps hw h1
  have hexp := mixture_expMoments comps hw
  have hinf := mixture_inf comps h1 hvar
  have hmom := fun N k hN hk => figMixture_moment comps hw (fun c hc => (hvar c hc).le) N k hN hk
  refine ⟨fun N hN => ?_, fun f hf hfg => ?_⟩
  · have hl := figMixture_length comps N
    have hn : (figMixtureCms comps N).length / 2 = N := by rw [hl]; omega
    obtain ⟨h1, h2, h3, h4, -⟩ := C191_gauss_rule B hB (mixture comps) hexp.pow hinf (figMixtureCms comps N) (by omega) _ 1 one_ne_zero
      (fun k hk => by simpa using hmom N k hN hk) false false
    exact ⟨hn, h1, h2, h3, fun p hp => h4 p (by rwa [hn])⟩
  · have hl : Tendsto (fun N => (figMixtureCms comps N).length) atTop atTop := by
      simp only [figMixture_length]
      exact tendsto_id.const_mul_atTop' (by norm_num)
    have key := C191_rule_converges B hB (mixture comps) hexp.some hinf f hf hfg (fun _ => (comps.map fun c => c.mean * c.weight).sum) (fun _ => 1)
      (fun _ => one_ne_zero) false false (figMixtureCms comps) hl fun N k hk => by
        have hN : 1 ≤ N := by rw [figMixture_length] at hk; omega
        rw [hmom N k hN hk]
        simp only [div_one]
    exact key

/-! ## Instances -/

/-- the three laws of the script. -/
example : IsGaussRule (figUniformRule theBackend (-2) 2 11) 11 (uniformLaw (-2) 2) ∧
    IsGaussRule (figGammaRule theBackend 2 1 11) 11 (gammaMeasure 2 (1 / 1)) ∧
    IsGaussRule (figMixtureRule theBackend [⟨-2, 1 / 2, 7 / 10⟩, ⟨2, 1, 3 / 10⟩] 11) 11 (mixture [⟨-2, 1 / 2, 7 / 10⟩, ⟨2, 1, 3 / 10⟩]) :=
  ⟨(C191_uniform theBackend theBackend_valid (by norm_num) 11 (by norm_num)).1,
    (C191_gamma theBackend theBackend_valid (by norm_num) (by norm_num) 11 (by norm_num)).1,
    (C191_mixture theBackend theBackend_valid _ (by simp; norm_num) (by norm_num) (by simp)).1 11 (by norm_num)⟩

/-- with two nodes on `[-2, 2]` the nodes are the zeros of `3 x² / 4 - 1`, that is `±2 / √3`. -/
example (x : ℝ) (h : x ^ 2 = 4 / 3) : ∃ i, (figUniformRule theBackend (-2) 2 2).2 i = x := by
  rw [← (C191_uniform theBackend theBackend_valid (by norm_num) 2 (by norm_num)).2.2 x]
  simp [legPoly, legCoeff, Finset.sum_range_succ, Nat.factorial]
  ring_nf
  rw [h]; norm_num

/-- with one node the rule of the gamma law of shape `2` and scale `3` sits at its mean `6`. -/
example : ∃ i, (figGammaRule theBackend 2 3 1).2 i = 6 := by
  rw [← (C191_gamma theBackend theBackend_valid (k := 2) (θ := 3) (by norm_num) (by norm_num) 1 (by norm_num)).2.2 6]
  have h2 : Real.Gamma 2 = 1 := by
    have := Real.Gamma_nat_eq_factorial 1
    rwa [Nat.cast_one, one_add_one_eq_two, Nat.factorial_one, Nat.cast_one] at this
  have h3 : Real.Gamma 3 = 2 := by
    have := Real.Gamma_nat_eq_factorial 2
    rwa [Nat.cast_two, show (2 : ℝ) + 1 = 3 by norm_num, Nat.factorial_two, Nat.cast_two] at this
  norm_num [lagPoly, Finset.sum_range_succ, h2, h3]

end Mfs.Props

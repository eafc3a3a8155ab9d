import Verif.Lemmas.NormalKernel
import Verif.Props.ConvergeLine
import Verif.Props.Models1

/-!
# C135: the filters converge to the exact Bayes filter of the Euler discretisation
-/

namespace Mfs.Props

open Matrix Mfs.Spec Mfs.Quad1 Mfs.Filter1 Mfs.Moments1 Mfs.SsModels Mfs.Converge MeasureTheory ProbabilityTheory Filter Topology
open scoped NNReal

variable {Y : Type}

/-- expectation of `f` of the state after the measurement `t` under the exact filtering law, for a Markov chain with initial law `μ` and
transition kernel `K`, and measurements with likelihood `pdf`. -/
noncomputable def posterior (K : Kernel ℝ ℝ) (pdf : Y → ℝ → ℝ) (μ : Measure ℝ) (ys : List Y) (t : ℕ) (f : ℝ → ℝ) : ℝ :=
  (∫ x, markovE K pdf f (ys.take (t + 1)) x ∂μ) / ∫ x, markovE K pdf (fun _ => 1) (ys.take (t + 1)) x ∂μ

/-- The outputs of the filter of raw moments converge to the exact filter: the negative log-likelihood converges to minus the
logarithm of the exact marginal likelihood, which is positive, and the raw moments, as well as the integrals over the rules built from
them of continuous functions of at most polynomial growth, converge to the exact posterior expectations. -/
def RawConverges (B : Backend) (K : Kernel ℝ ℝ) (pdf : Y → ℝ → ℝ) (μ : Measure ℝ) (ys : List Y) (out : ℕ → List (List ℝ) × ℝ) : Prop :=
  0 < ∫ x, markovE K pdf (fun _ => 1) ys x ∂μ ∧
  Tendsto (fun N => (out N).2) atTop (𝓝 (-Real.log (∫ x, markovE K pdf (fun _ => 1) ys x ∂μ))) ∧
  ∀ t < ys.length,
    (∀ k, Tendsto (fun N => ((out N).1.getD t []).getD k 0) atTop (𝓝 (posterior K pdf μ ys t fun x => x ^ k))) ∧
    ∀ (f : ℝ → ℝ) (sort ldl : Bool), Continuous f → (∃ (C : ℝ) (j : ℕ), ∀ x, |f x| ≤ C * (1 + |x| ^ j)) →
      Tendsto (fun N => integ (momentQuadrature B ((out N).1.getD t []) 0 1 sort ldl) f) atTop (𝓝 (posterior K pdf μ ys t f))

/-- the same for the filter of central moments, which also returns the means. -/
def CentralConverges (B : Backend) (K : Kernel ℝ ℝ) (pdf : Y → ℝ → ℝ) (μ : Measure ℝ) (ys : List Y) (out : ℕ → List (List ℝ × ℝ) × ℝ) :
    Prop :=
  0 < ∫ x, markovE K pdf (fun _ => 1) ys x ∂μ ∧
  Tendsto (fun N => (out N).2) atTop (𝓝 (-Real.log (∫ x, markovE K pdf (fun _ => 1) ys x ∂μ))) ∧
  ∀ t < ys.length,
    Tendsto (fun N => ((out N).1.getD t ([], 0)).2) atTop (𝓝 (posterior K pdf μ ys t fun x => x)) ∧
    (∀ k, Tendsto (fun N => ((out N).1.getD t ([], 0)).1.getD k 0) atTop
      (𝓝 (posterior K pdf μ ys t fun x => (x - posterior K pdf μ ys t fun x => x) ^ k))) ∧
    ∀ (f : ℝ → ℝ) (sort ldl : Bool), Continuous f → (∃ (C : ℝ) (j : ℕ), ∀ x, |f x| ≤ C * (1 + |x| ^ j)) →
      Tendsto (fun N => integ (momentQuadrature B ((out N).1.getD t ([], 0)).1 ((out N).1.getD t ([], 0)).2 1 sort ldl) f) atTop
        (𝓝 (posterior K pdf μ ys t f))

theorem mixture_expMoments (comps : List Component) (hw : ∀ c ∈ comps, 0 ≤ c.weight) : ExpMoments (mixture comps) :=
  fun c => (integral_mixture comps hw (fun x => Real.exp (c * x)) fun _ _ => integrable_exp_mul_gaussianReal c).1

theorem mixture_inf (comps : List Component) (h1 : (comps.map (·.weight)).sum = 1) (hvar : ∀ c ∈ comps, 0 < c.variance) (s : Finset ℝ) :
    mixture comps (s : Set ℝ)ᶜ ≠ 0 := by
  obtain ⟨c, hc, hcw⟩ : ∃ c ∈ comps, 0 < c.weight := by
    by_contra hcon
    push Not at hcon
    have h0 : ∀ cs : List Component, (∀ c ∈ cs, c.weight ≤ 0) → (cs.map (·.weight)).sum ≤ 0 := by
      intro cs
      induction cs with
      | nil => simp
      | cons c cs ih =>
        intro h
        rw [List.map_cons, List.sum_cons]
        have := ih fun c' hc' => h c' (List.mem_cons_of_mem _ hc')
        have := h c (by simp)
        linarith
    have := h0 comps hcon
    linarith
  have hle : ∀ cs : List Component, c ∈ cs → ENNReal.ofReal c.weight • gaussianReal c.mean c.variance.toNNReal ≤ mixture cs := by
    intro cs
    induction cs with
    | nil => simp
    | cons c' cs ih =>
      intro hm
      have e : mixture (c' :: cs) = ENNReal.ofReal c'.weight • gaussianReal c'.mean c'.variance.toNNReal + mixture cs := by
        simp [mixture]
      rw [e]
      rcases List.mem_cons.1 hm with rfl | h
      · exact Measure.le_add_right le_rfl
      · exact Measure.le_add_left (ih h)
  intro h0
  have h2 := hle comps hc (s : Set ℝ)ᶜ
  rw [h0, Measure.smul_apply, smul_eq_mul, nonpos_iff_eq_zero, mul_eq_zero] at h2
  rcases h2 with h | h
  · rw [ENNReal.ofReal_eq_zero] at h
    linarith
  · exact gaussianReal_inf _ (by rw [Ne, Real.toNNReal_eq_zero, not_le]; exact hvar c hc) s h

theorem two_mul_atTop : Tendsto (fun N : ℕ => 2 * N) atTop atTop := tendsto_id.const_mul_atTop' two_pos

/-- normal transitions with continuous means and positive variances of linear growth. `raw` and `central` are the conditional moment
functions, built for each number of moments anew. -/
theorem normal_converges (B : Backend) (hB : B.Valid) (stable : Bool) (m v : ℝ → ℝ) (hmc : Continuous m) (hvc : Continuous v)
    (hv : ∀ x, 0 < v x) (A : ℝ) (hmA : ∀ x, |m x| ≤ A * (1 + |x|)) (hvA : ∀ x, v x ≤ A * (1 + |x|))
    (μ : Measure ℝ) [IsProbabilityMeasure μ] (hμ : ExpMoments μ) (hinf : ∀ s : Finset ℝ, μ (s : Set ℝ)ᶜ ≠ 0) (pdf : Y → ℝ → ℝ)
    (hpc : ∀ y, Continuous (pdf y)) (hpdf : ∀ y x, 0 < pdf y x) (hpb : ∀ y, ∃ G, ∀ x, pdf y x ≤ G)
    (raw : ℕ → ℝ → ℕ → ℝ) (hraw : ∀ N x, ∀ k < 2 * N, raw N x k = rawMomentOfNormal (m x) (v x) k)
    (central : ℕ → ℝ → ℕ → ℝ → ℝ) (hcen : ∀ N x c, ∀ k < 2 * N, central N x k c = rawMomentOfNormal (m x - c) (v x) k)
    (cm : ℝ → ℝ) (m0 : ℝ) (ys : List Y) :
    let K := normalKernel m (fun x => (v x).toNNReal) hmc.measurable hvc.measurable.real_toNNReal
    let a := fun N => filterRms B (raw N) pdf ((List.range (2 * N)).map fun k => ∫ x, x ^ k ∂μ) ys stable
    let b := fun N => filterCms B (central N) cm pdf ((List.range (2 * N)).map fun k => ∫ x, (x - m0) ^ k ∂μ) m0 ys stable
    RawConverges B K pdf μ ys a ∧ CentralConverges B K pdf μ ys b := by
  intro K a b
  have hK : GoodKernel K := goodKernel_normal hmc (continuous_real_toNNReal.comp hvc)
    (fun x => by rw [Ne, Real.toNNReal_eq_zero, not_le]; exact hv x) hmA (fun x => by rw [Real.coe_toNNReal _ (hv x).le]; exact hvA x)
  obtain ⟨h0, hr, hc, -⟩ := C133_filters_converge B hB stable K hK.exp hK.cont hK.growth hK.inf μ hμ hinf pdf hpc hpdf hpb ys
  obtain ⟨hr1, hr2⟩ := hr _ fun _ _ => rfl
  obtain ⟨hc1, hc2⟩ := hc (fun x k c => ∫ z, (z - c) ^ k ∂K x) cm m0 fun _ _ _ => rfl
  have ea : a = fun N => filterRms B (fun x k => ∫ z, z ^ k ∂K x) pdf ((List.range (2 * N)).map fun k => ∫ x, x ^ k ∂μ) ys stable := by
    funext N
    refine filterRms_congr B _ _ pdf _ ys stable fun x k hk => ?_
    rw [hraw N x k (by simpa using hk), rawNormal_raw _ _ (hv x).le]
    rfl
  have eb : b = fun N => filterCms B (fun x k c => ∫ z, (z - c) ^ k ∂K x) cm pdf
      ((List.range (2 * N)).map fun k => ∫ x, (x - m0) ^ k ∂μ) m0 ys stable := by
    funext N
    refine filterCms_congr B _ _ cm pdf _ m0 ys stable fun x c k hk => ?_
    rw [hcen N x c k (by simpa using hk), rawNormal_central _ _ _ (hv x).le]
    rfl
  rw [ea, eb]
  exact ⟨⟨h0, hr1.comp two_mul_atTop, fun t ht => ⟨fun k => ((hr2 t ht).1 k).comp two_mul_atTop,
      fun f sort ldl hf hg => ((hr2 t ht).2 f sort ldl hf hg).comp two_mul_atTop⟩⟩,
    ⟨h0, hc1.comp two_mul_atTop, fun t ht => ⟨(hc2 t ht).1.comp two_mul_atTop, fun k => ((hc2 t ht).2.1 k).comp two_mul_atTop,
      fun f sort ldl hf hg => ((hc2 t ht).2.2 f sort ldl hf hg).comp two_mul_atTop⟩⟩⟩

theorem RawConverges.congr {B : Backend} {K : Kernel ℝ ℝ} {pdf : Y → ℝ → ℝ} {μ : Measure ℝ} {ys : List Y} {a a' : ℕ → List (List ℝ) × ℝ}
    (h : RawConverges B K pdf μ ys a) (e : ∀ᶠ N in atTop, a N = a' N) : RawConverges B K pdf μ ys a' := by
  obtain ⟨h0, h1, h2⟩ := h
  refine ⟨h0, h1.congr' ?_, fun t ht => ⟨fun k => ((h2 t ht).1 k).congr' ?_, fun f sort ldl hf hg => ((h2 t ht).2 f sort ldl hf hg).congr' ?_⟩⟩
  all_goals filter_upwards [e] with N hN using by rw [hN]

theorem CentralConverges.congr {B : Backend} {K : Kernel ℝ ℝ} {pdf : Y → ℝ → ℝ} {μ : Measure ℝ} {ys : List Y}
    {a a' : ℕ → List (List ℝ × ℝ) × ℝ} (h : CentralConverges B K pdf μ ys a) (e : ∀ᶠ N in atTop, a N = a' N) :
    CentralConverges B K pdf μ ys a' := by
  obtain ⟨h0, h1, h2⟩ := h
  refine ⟨h0, h1.congr' ?_, fun t ht => ⟨(h2 t ht).1.congr' ?_, fun k => ((h2 t ht).2.1 k).congr' ?_,
    fun f sort ldl hf hg => ((h2 t ht).2.2 f sort ldl hf hg).congr' ?_⟩⟩
  all_goals filter_upwards [e] with N hN using by rw [hN]

/-- the same, started from a Gaussian sum. -/
theorem gaussianSum_converges (B : Backend) (hB : B.Valid) (stable : Bool) (m v : ℝ → ℝ) (hmc : Continuous m) (hvc : Continuous v)
    (hv : ∀ x, 0 < v x) (A : ℝ) (hmA : ∀ x, |m x| ≤ A * (1 + |x|)) (hvA : ∀ x, v x ≤ A * (1 + |x|))
    (comps : List Component) (hw : ∀ c ∈ comps, 0 ≤ c.weight) (h1 : (comps.map (·.weight)).sum = 1) (hvar : ∀ c ∈ comps, 0 < c.variance)
    (pdf : Y → ℝ → ℝ) (hpc : ∀ y, Continuous (pdf y)) (hpdf : ∀ y x, 0 < pdf y x) (hpb : ∀ y, ∃ G, ∀ x, pdf y x ≤ G)
    (raw : ℕ → ℝ → ℕ → ℝ) (hraw : ∀ N x, ∀ k < 2 * N, raw N x k = rawMomentOfNormal (m x) (v x) k)
    (central : ℕ → ℝ → ℕ → ℝ → ℝ) (hcen : ∀ N x c, ∀ k < 2 * N, central N x k c = rawMomentOfNormal (m x - c) (v x) k)
    (cm : ℝ → ℝ) (ys : List Y) :
    let K := normalKernel m (fun x => (v x).toNNReal) hmc.measurable hvc.measurable.real_toNNReal
    let g := fun N => GaussianSum1D.new comps N
    let a := fun N => filterRms B (raw N) pdf (g N).rms ys stable
    let b := fun N => filterCms B (central N) cm pdf (g N).cms (g N).mean ys stable
    RawConverges B K pdf (mixture comps) ys a ∧ CentralConverges B K pdf (mixture comps) ys b := by
  intro K g a b
  have := mixture_prob comps hw h1
  obtain ⟨ka, kb⟩ := normal_converges B hB stable m v hmc hvc hv A hmA hvA
    (mixture comps) (mixture_expMoments comps hw) (mixture_inf comps h1 hvar) pdf hpc hpdf hpb raw hraw central hcen cm (∫ x, x ∂mixture comps) ys
  have hg := fun (N : ℕ) (hN : 2 ≤ N) => C47_gaussian_sum comps hw h1 (fun c hc => (hvar c hc).le) N hN
  have ea : ∀ᶠ N in atTop, filterRms B (raw N) pdf ((List.range (2 * N)).map fun k => ∫ x, x ^ k ∂mixture comps) ys stable = a N := by
    filter_upwards [eventually_ge_atTop 2] with N hN
    obtain ⟨-, -, -, hr, -⟩ := hg N hN
    change _ = filterRms B (raw N) pdf (GaussianSum1D.new comps N).rms ys stable
    rw [hr]
  have eb : ∀ᶠ N in atTop, filterCms B (central N) cm pdf
      ((List.range (2 * N)).map fun k => ∫ x, (x - ∫ y, y ∂mixture comps) ^ k ∂mixture comps) (∫ x, x ∂mixture comps) ys stable = b N := by
    filter_upwards [eventually_ge_atTop 2] with N hN
    obtain ⟨-, hm, -, -, hc, -⟩ := hg N hN
    change _ = filterCms B (central N) cm pdf (GaussianSum1D.new comps N).cms (GaussianSum1D.new comps N).mean ys stable
    rw [hc, hm]
  exact ⟨ka.congr ea, kb.congr eb⟩

/-- **C135.** Take an SDE model whose drift is continuous and grows at most linearly and whose dispersion is continuous, nowhere zero
and has a square of at most linear growth; discretise it with `sde_cond_moments_euler` at a step `dt > 0`; start from
`GaussianSum1D.new` with positive variances; let the likelihood be continuous, positive and bounded in the state. Then, as `N` grows,
the negative log-likelihoods returned by the filters of raw and of central moments (`2 N` moments) converge to minus the logarithm
of the exact marginal likelihood of the Euler–Maruyama chain `x ↦ N(x + drift(x) dt, dispersion(x)² dt)`, and all the moments and
means that they return, and the expectations computed from them, converge to those of the exact filtering laws of that chain. -/
theorem C135_euler_converges (B : Backend) (hB : B.Valid) (stable : Bool) (drift dispersion : ℝ → ℝ) (hdc : Continuous drift)
    (hsc : Continuous dispersion) (hs : ∀ x, dispersion x ≠ 0) (A : ℝ) (hdA : ∀ x, |drift x| ≤ A * (1 + |x|))
    (hsA : ∀ x, dispersion x ^ 2 ≤ A * (1 + |x|)) (dt : ℝ) (hdt : 0 < dt) (comps : List Component) (hw : ∀ c ∈ comps, 0 ≤ c.weight)
    (h1 : (comps.map (·.weight)).sum = 1) (hvar : ∀ c ∈ comps, 0 < c.variance) (pdf : Y → ℝ → ℝ)
    (hpc : ∀ y, Continuous (pdf y)) (hpdf : ∀ y x, 0 < pdf y x) (hpb : ∀ y, ∃ G, ∀ x, pdf y x ≤ G) (ys : List Y) :
    let K := normalKernel (fun x => x + drift x * dt) (fun x => (dispersion x ^ 2 * dt).toNNReal) (by fun_prop) (by fun_prop)
    let e := fun N => sdeCondMomentsEuler drift dispersion dt N
    let g := fun N => GaussianSum1D.new comps N
    let a := fun N => filterRms B (e N).raw pdf (g N).rms ys stable
    let b := fun N => filterCms B (e N).central (e N).mean pdf (g N).cms (g N).mean ys stable
    RawConverges B K pdf (mixture comps) ys a ∧ CentralConverges B K pdf (mixture comps) ys b := by
  intro K e g a b
  have hA : 0 ≤ A := by
    have := (abs_nonneg _).trans (hdA 0)
    simpa using this
  exact gaussianSum_converges B hB stable (fun x => x + drift x * dt) (fun x => dispersion x ^ 2 * dt) (by fun_prop) (by fun_prop)
    (fun x => by have := hs x; positivity) (1 + A * dt)
    (fun x => by
      have h := mul_le_mul_of_nonneg_right (hdA x) hdt.le
      calc |x + drift x * dt| ≤ |x| + |drift x| * dt := by
            refine (abs_add_le _ _).trans_eq ?_
            rw [abs_mul, abs_of_pos hdt]
        _ ≤ _ := by nlinarith [abs_nonneg x])
    (fun x => by
      have h := mul_le_mul_of_nonneg_right (hsA x) hdt.le
      nlinarith [abs_nonneg x])
    comps hw h1 hvar pdf hpc hpdf hpb
    (fun N => (e N).raw) (fun N x k hk => jget_map_range _ hk) (fun N => (e N).central) (fun N x c k hk => jget_map_range _ hk)
    (fun x => x + drift x * dt) ys

theorem abs_tanh_le (x : ℝ) : |Real.tanh x| ≤ 1 := by
  rw [abs_le, Real.tanh_eq_sinh_div_cosh, le_div_iff₀ (Real.cosh_pos x), div_le_iff₀ (Real.cosh_pos x), Real.sinh_eq, Real.cosh_eq]
  have h1 := Real.exp_pos x
  have h2 := Real.exp_pos (-x)
  constructor <;> linarith

theorem logistic_continuous : Continuous logistic := by
  have : logistic = fun x => 1 / (1 + Real.exp (-x ^ 3 / 5)) := rfl
  rw [this]
  exact continuous_const.div (by fun_prop) fun x => by positivity

/-- the Bernoulli likelihood with success probability `1 / (1 + exp (-x³ / 5))`. -/
theorem benesBool_eq : benesBool = fun (y : Bool) (x : ℝ) => if y then 1 / (1 + Real.exp (-x ^ 3 / 5)) else 1 - 1 / (1 + Real.exp (-x ^ 3 / 5)) := by
  funext y x
  cases y <;> simp [benesBool, benesPmf, bernoulliPmf, logistic]

theorem benesBool_continuous (y : Bool) : Continuous (benesBool y) := by
  cases y
  · have : benesBool false = fun x => 1 - logistic x := funext fun x => by simp [benesBool, benesPmf, bernoulliPmf]
    rw [this]
    exact continuous_const.sub logistic_continuous
  · have : benesBool true = logistic := funext fun x => by simp [benesBool, benesPmf, bernoulliPmf]
    rw [this]
    exact logistic_continuous

theorem benesBool_le (y : Bool) (x : ℝ) : benesBool y x ≤ 1 := by
  obtain ⟨h0, h1⟩ := logistic_pos x
  cases y <;> simp [benesBool, benesPmf, bernoulliPmf] <;> linarith

/-- **C135, Beneš–Bernoulli.** The model `benes_bernoulli` of the library with `sde_cond_moments_euler` meets the hypotheses: on any
sequence of Boolean measurements, the two filters converge, as `N` grows, to the exact filter of its Euler–Maruyama chain with
success probability `1 / (1 + exp (-x³ / 5))`. -/
theorem C135_benes_converges (B : Backend) (hB : B.Valid) (stable : Bool) (ys : List Bool) :
    let μ := mixture [⟨-0.5, 0.05, 0.5⟩, ⟨0.5, 0.05, 0.5⟩]
    let lik := fun (y : Bool) (x : ℝ) => if y then 1 / (1 + Real.exp (-x ^ 3 / 5)) else 1 - 1 / (1 + Real.exp (-x ^ 3 / 5))
    ∃ K : Kernel ℝ ℝ, (∀ x, K x = gaussianReal (x + Real.tanh x * 0.01) (0.01 : ℝ).toNNReal) ∧
      let e := fun N => sdeCondMomentsEuler benesDrift dispersion1 dt1 N
      let a := fun N => filterRms B (e N).raw benesBool (init1 N).rms ys stable
      let b := fun N => filterCms B (e N).central (e N).mean benesBool (init1 N).cms (init1 N).mean ys stable
      RawConverges B K lik μ ys a ∧ CentralConverges B K lik μ ys b := by
  intro μ lik
  have hlik : benesBool = lik := benesBool_eq
  have hdt : 0 < dt1 := by norm_num [dt1]
  have hdc : Continuous benesDrift := by
    have : benesDrift = fun x => Real.sinh x / Real.cosh x := funext fun x => Real.tanh_eq_sinh_div_cosh x
    rw [this]
    exact Real.continuous_sinh.div Real.continuous_cosh fun x => (Real.cosh_pos x).ne'
  have hsc : Continuous dispersion1 := continuous_const
  have key := C135_euler_converges B hB stable benesDrift dispersion1 hdc hsc (fun _ => one_ne_zero) 1
    (fun x => by have := abs_tanh_le x; have := abs_nonneg x; rw [benesDrift]; linarith)
    (fun x => by have := abs_nonneg x; rw [dispersion1]; linarith) dt1 hdt _ init1_ok.1 init1_ok.2.1 init1_ok.2.2 benesBool
    benesBool_continuous benesBool_pos (fun y => ⟨1, benesBool_le y⟩) ys
  refine ⟨_, fun x => ?_, by rw [← hlik]; exact key⟩
  rw [normalKernel_apply]
  norm_num [dt1, benesDrift, dispersion1]

/-- **C135, `sde_cond_moments_tme_normal`.** The same for the normal transitions with the mean and variance of the package `tme`,
provided that these are continuous and grow at most linearly and that the variances are positive: the filters converge to the exact
filter of the chain with these transitions. -/
theorem C135_tme_normal_converges (B : Backend) (hB : B.Valid) (stable : Bool) (expect : (ℝ → ℝ) → ℝ → ℝ) (meanCov : ℝ → ℝ × ℝ)
    (hc : Continuous meanCov) (hv : ∀ x, 0 < (meanCov x).2) (A : ℝ) (hA : ∀ x, |(meanCov x).1| ≤ A * (1 + |x|) ∧ (meanCov x).2 ≤ A * (1 + |x|))
    (comps : List Component) (hw : ∀ c ∈ comps, 0 ≤ c.weight)
    (h1 : (comps.map (·.weight)).sum = 1) (hvar : ∀ c ∈ comps, 0 < c.variance) (pdf : Y → ℝ → ℝ)
    (hpc : ∀ y, Continuous (pdf y)) (hpdf : ∀ y x, 0 < pdf y x) (hpb : ∀ y, ∃ G, ∀ x, pdf y x ≤ G) (ys : List Y) :
    let K := normalKernel (fun x => (meanCov x).1) (fun x => (meanCov x).2.toNNReal) (by fun_prop) (by fun_prop)
    let e := fun N => sdeCondMomentsTmeNormal expect meanCov N
    let g := fun N => GaussianSum1D.new comps N
    let a := fun N => filterRms B (e N).raw pdf (g N).rms ys stable
    let b := fun N => filterCms B (e N).central (e N).mean pdf (g N).cms (g N).mean ys stable
    RawConverges B K pdf (mixture comps) ys a ∧ CentralConverges B K pdf (mixture comps) ys b := by
  intro K e g a b
  exact gaussianSum_converges B hB stable (fun x => (meanCov x).1) (fun x => (meanCov x).2) (by fun_prop) (by fun_prop) hv A
    (fun x => (hA x).1) (fun x => (hA x).2) comps hw h1 hvar pdf hpc hpdf hpb (fun N => (e N).raw) (fun N x k hk => jget_map_range _ hk)
    (fun N => (e N).central) (fun N x c k hk => jget_map_range _ hk) (fun x => expect (fun u => u) x) ys

/-- the hypotheses: the mean and variance of an expansion of order one for a drift `-x` and unit dispersion. -/
example : Continuous (fun x : ℝ => (x - 0.01 * x, (0.01 : ℝ))) ∧
    (∀ x : ℝ, |x - 0.01 * x| ≤ 1 * (1 + |x|) ∧ (0.01 : ℝ) ≤ 1 * (1 + |x|)) ∧ ∃ B : Backend, B.Valid := by
  refine ⟨by fun_prop, fun x => ⟨?_, ?_⟩, _, theBackend_valid⟩
  · have : x - 0.01 * x = 0.99 * x := by ring
    rw [this, abs_mul, abs_of_pos (by norm_num : (0 : ℝ) < 0.99)]
    linarith [abs_nonneg x]
  · linarith [abs_nonneg x]

end Mfs.Props

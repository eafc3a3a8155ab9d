import Verif.Props.ConvergeNDWhole
import Verif.Props.GaussianSum
import Verif.Lemmas.KalmanExact

/-!
# C192: characteristic functions and Gaussian sums
-/

namespace Mfs.Props

open Matrix Mfs.Spec Mfs.QuadND Mfs.MultiIndex Mfs.FilterND Mfs.StrongND Mfs.Converge Mfs.MomentsND Mfs.GaussianSum
open MeasureTheory ProbabilityTheory Filter Topology

variable {d : ℕ}

/-! ### characteristic functions -/

/-- the factor of coordinate `j` in the term `S` of the expansion of the cosine or sine of a sum. -/
noncomputable def trigFactor (hd : 1 ≤ d) (a : Finset (Fin d) → ℝ) (ξ : Fin d → ℝ) (S : Finset (Fin d)) (j : Fin d) (t : ℝ) : ℝ :=
  (if j = ⟨0, hd⟩ then a S else 1) * if j ∈ S then Real.sin (ξ j * t) else Real.cos (ξ j * t)

theorem trigFactor_admissible (hd : 1 ≤ d) (a : Finset (Fin d) → ℝ) (ξ : Fin d → ℝ) (S : Finset (Fin d)) : Admissible (trigFactor hd a ξ S) := by
  refine Admissible.bounded hd (fun j => ?_) fun j => ⟨|if j = ⟨0, hd⟩ then a S else 1|, fun t => ?_⟩
  · unfold trigFactor
    split_ifs <;> fun_prop
  · rw [trigFactor, abs_mul]
    refine mul_le_of_le_one_right (abs_nonneg _) ?_
    split_ifs
    · exact Real.abs_sin_le_one _
    · exact Real.abs_cos_le_one _

theorem prod_trigFactor (hd : 1 ≤ d) (a : Finset (Fin d) → ℝ) (ξ : Fin d → ℝ) (S : Finset (Fin d)) (x : Fin d → ℝ) :
    ∏ j, trigFactor hd a ξ S j (x j) = a S * ((∏ j ∈ S, Real.sin (ξ j * x j)) * ∏ j ∈ Finset.univ \ S, Real.cos (ξ j * x j)) := by
  classical
  simp only [trigFactor]
  rw [Finset.prod_mul_distrib, Finset.prod_ite_eq' Finset.univ (⟨0, hd⟩ : Fin d) (fun _ => a S), if_pos (Finset.mem_univ _), Finset.prod_ite]
  congr 2
  · exact Finset.prod_congr (by ext; simp) fun _ _ => rfl
  · exact Finset.prod_congr (by ext; simp) fun _ _ => rfl

/-- the cosine and the sine of a sum as sums of products. -/
theorem trig_expand (hd : 1 ≤ d) (ξ x : Fin d → ℝ) :
    Real.cos (∑ j, ξ j * x j) = ∑ S, ∏ j, trigFactor hd (fun S => (Complex.I ^ S.card).re) ξ S j (x j) ∧
    Real.sin (∑ j, ξ j * x j) = ∑ S, ∏ j, trigFactor hd (fun S => (Complex.I ^ S.card).im) ξ S j (x j) := by
  classical
  have h : Complex.exp ((∑ j, ξ j * x j : ℝ) * Complex.I) = ∑ S : Finset (Fin d), Complex.I ^ S.card *
      (((∏ j ∈ S, Real.sin (ξ j * x j)) * ∏ j ∈ Finset.univ \ S, Real.cos (ξ j * x j) : ℝ) : ℂ) := by
    have h1 : ((∑ j, ξ j * x j : ℝ) : ℂ) * Complex.I = ∑ j, ((ξ j * x j : ℝ) : ℂ) * Complex.I := by
      rw [Complex.ofReal_sum, Finset.sum_mul]
    rw [h1, Complex.exp_sum]
    have h2 : ∀ j, Complex.exp (((ξ j * x j : ℝ) : ℂ) * Complex.I) = Complex.I * (Real.sin (ξ j * x j) : ℝ) + (Real.cos (ξ j * x j) : ℝ) := fun j => by
      rw [Complex.exp_mul_I, Complex.ofReal_sin, Complex.ofReal_cos]
      ring
    simp only [h2]
    rw [Finset.prod_add, Finset.powerset_univ]
    refine Finset.sum_congr rfl fun S _ => ?_
    rw [Finset.prod_mul_distrib, Finset.prod_const]
    push_cast
    ring
  have hre := congrArg Complex.re h
  have him := congrArg Complex.im h
  rw [Complex.exp_ofReal_mul_I_re, Complex.re_sum] at hre
  rw [Complex.exp_ofReal_mul_I_im, Complex.im_sum] at him
  simp only [Complex.mul_re, Complex.mul_im, Complex.ofReal_re, Complex.ofReal_im, mul_zero, sub_zero, zero_add] at hre him
  refine ⟨hre.trans (Finset.sum_congr rfl fun S _ => ?_), him.trans (Finset.sum_congr rfl fun S _ => ?_)⟩
  · rw [prod_trigFactor]
  · rw [prod_trigFactor]

/-- **C192 (characteristic functions).** The characteristic function of the rule converges pointwise to that of the law. -/
theorem C192_characteristic_function (B : Backend) (hB : B.Valid) (sort ldl : Bool) (hd : 1 ≤ d) (μ : Measure (Fin d → ℝ)) [IsProbabilityMeasure μ]
    (hμ : ∃ c : ℝ, 0 < c ∧ Integrable (fun x => Real.exp (c * ∑ j, |x j|)) μ)
    (hne : ∀ q : MvPolynomial (Fin d) ℝ, (∀ᵐ x ∂μ, MvPolynomial.eval x q = 0) → q = 0)
    (basis full : ℕ → List (List ℕ)) (mats : ℕ → List (List (List ℤ))) (T : ∀ N, 2 ≤ N → Tables N d (basis N) (full N) (mats N)) (ξ : Fin d → ℝ) :
    Tendsto (fun N => integND (momentQuadratureND B ((full N).map fun α => ∫ x, ∏ j, x j ^ α.getD j 0 ∂μ) (mats N) none none sort ldl)
      fun x => Real.cos (∑ j : Fin d, ξ j * x.getD j 0)) atTop (𝓝 (∫ x, Real.cos (∑ j, ξ j * x j) ∂μ)) ∧
    Tendsto (fun N => integND (momentQuadratureND B ((full N).map fun α => ∫ x, ∏ j, x j ^ α.getD j 0 ∂μ) (mats N) none none sort ldl)
      fun x => Real.sin (∑ j : Fin d, ξ j * x.getD j 0)) atTop (𝓝 (∫ x, Real.sin (∑ j, ξ j * x j) ∂μ)) := by
  have key := fun a : Finset (Fin d) → ℝ => fun F hF => (C192_nd_rule_converges_whole B hB sort ldl hd μ hμ hne basis full mats T
    (List.replicate d 0) (List.replicate d 1) (by simp) (by simp) (fun t ht => by rw [List.eq_of_mem_replicate ht]; exact one_pos)
    (trigFactor hd a ξ) (trigFactor_admissible hd a ξ) (ι := Empty) (fun k => k.elim) (fun k => k.elim) (fun k => k.elim) (fun k => k.elim)
    (hasSum_fintype _).summable F hF).1
  refine ⟨key (fun S => (Complex.I ^ S.card).re) (fun x => Real.cos (∑ j, ξ j * x j)) fun x => ?_, key (fun S => (Complex.I ^ S.card).im) (fun x => Real.sin (∑ j, ξ j * x j)) fun x => ?_⟩
  · rw [(trig_expand hd ξ x).1]; simp
  · rw [(trig_expand hd ξ x).2]; simp

/-! ### Gaussian sums -/

theorem measurable_ofLp : Measurable (WithLp.ofLp : EuclideanSpace ℝ (Fin d) → Fin d → ℝ) := (PiLp.continuous_ofLp 2 _).measurable

/-- the law of a Gaussian sum on the space of coordinates. -/
noncomputable def gaussSumLaw (comps : List (Component d)) : Measure (Fin d → ℝ) := (mixtureND comps).map WithLp.ofLp

theorem gaussSumLaw_prob (comps : List (Component d)) (hw : ∀ c ∈ comps, 0 ≤ c.weight) (h1 : (comps.map (·.weight)).sum = 1) :
    IsProbabilityMeasure (gaussSumLaw comps) := by
  have := mixtureND_prob comps hw h1
  exact Measure.isProbabilityMeasure_map measurable_ofLp.aemeasurable

/-- all exponential moments. -/
theorem gaussSumLaw_exp (comps : List (Component d)) (hw : ∀ c ∈ comps, 0 ≤ c.weight) (hcov : ∀ c ∈ comps, c.cov.PosSemidef) :
    Integrable (fun x => Real.exp (1 * ∑ j, |x j|)) (gaussSumLaw comps) := by
  have hc : Continuous fun x : Fin d → ℝ => Real.exp (1 * ∑ j, |x j|) := by fun_prop
  rw [gaussSumLaw, integrable_map_measure hc.aestronglyMeasurable measurable_ofLp.aemeasurable]
  refine (integral_mixtureND comps hw _ fun c hcm => ?_).1
  have hi : Integrable (fun x : EuclideanSpace ℝ (Fin d) => ∑ s : Fin d → Bool, Real.exp ((fun j => if s j then (1 : ℝ) else -1) ⬝ᵥ (x : Fin d → ℝ)))
      (multivariateGaussian (WithLp.toLp 2 c.mean) c.cov) :=
    integrable_finsetSum _ fun s _ => integrable_exp_dot c.mean (hcov c hcm) _
  refine hi.mono' (hc.measurable.comp measurable_ofLp).aestronglyMeasurable (.of_forall fun x => ?_)
  rw [Real.norm_eq_abs, Function.comp_apply, Real.abs_exp, one_mul]
  have h1 : ∑ j, |x j| = (fun j => if (fun j => decide (0 ≤ x j)) j then (1 : ℝ) else -1) ⬝ᵥ (x : Fin d → ℝ) := by
    refine Finset.sum_congr rfl fun j _ => ?_
    by_cases h : 0 ≤ x j
    · simp [h, abs_of_nonneg h]
    · simp [h, abs_of_neg (not_le.1 h)]
  have h2 := Finset.single_le_sum (f := fun s : Fin d → Bool => Real.exp ((fun j => if s j then (1 : ℝ) else -1) ⬝ᵥ (x : Fin d → ℝ)))
    (fun s _ => (Real.exp_pos _).le) (Finset.mem_univ fun j => decide (0 ≤ x j))
  rw [h1]
  exact h2

/-- a Gaussian sum with positive definite covariances is not concentrated on the zeros of a polynomial. -/
theorem gaussSumLaw_ne (comps : List (Component d)) (hw : ∀ c ∈ comps, 0 ≤ c.weight) (h1 : (comps.map (·.weight)).sum = 1)
    (hcov : ∀ c ∈ comps, c.cov.PosDef) (q : MvPolynomial (Fin d) ℝ) (hq : ∀ᵐ x ∂gaussSumLaw comps, MvPolynomial.eval x q = 0) : q = 0 := by
  obtain ⟨hp, hden, _⟩ := C103_gaussian_sum_nd_density theBackend theBackend_valid comps hw h1 hcov
  have hqm := ae_of_ae_map measurable_ofLp.aemeasurable hq
  have hm : Measurable fun x : EuclideanSpace ℝ (Fin d) => ENNReal.ofReal (pdfND theBackend comps (WithLp.ofLp x)) := by
    simp only [fun x => (hp x).1]
    refine Measurable.ennreal_ofReal ?_
    have : ∀ l : List (Component d), Measurable fun x : EuclideanSpace ℝ (Fin d) =>
        (l.map fun c => Spec.mvnPdf c.mean c.cov (WithLp.ofLp x) * c.weight).sum := by
      intro l
      induction l with
      | nil => simp
      | cons c l ih =>
        simp only [List.map_cons, List.sum_cons]
        exact ((Lemmas.mvnPdf_continuous _ continuous_const (PiLp.continuous_ofLp 2 _)).measurable.mul_const _).add ih
    exact this comps
  rw [hden, ae_withDensity_iff hm] at hqm
  have hv : ∀ᵐ x : EuclideanSpace ℝ (Fin d), MvPolynomial.eval (WithLp.ofLp x) q = 0 := by
    filter_upwards [hqm] with x hx
    exact hx (ENNReal.ofReal_pos.2 (hp _).2).ne'
  have hcq : Continuous fun x : EuclideanSpace ℝ (Fin d) => MvPolynomial.eval (WithLp.ofLp x) q :=
    (MvPolynomial.continuous_eval q).comp (PiLp.continuous_ofLp 2 _)
  have h0 := (Continuous.ae_eq_iff_eq volume hcq (continuous_const (y := (0 : ℝ)))).1 hv
  refine MvPolynomial.funext fun x => ?_
  simpa using congrFun h0 (WithLp.toLp 2 x)

/-- **C192 (Gaussian sums).** The rules of the raw and of the central moments that `GaussianSumND.new` computes, for positive definite covariances,
converge on the integrands of C192, to the integral with respect to the mixture. -/
theorem C192_gaussian_sum (B : Backend) (hB : B.Valid) (sort ldl : Bool) (hd : 1 ≤ d) (comps : List (Component d)) (hw : ∀ c ∈ comps, 0 ≤ c.weight)
    (h1 : (comps.map (·.weight)).sum = 1) (hcov : ∀ c ∈ comps, c.cov.PosDef)
    (basis full : ℕ → List (List ℕ)) (mats : ℕ → List (List (List ℤ))) (T : ∀ N, 2 ≤ N → Tables N d (basis N) (full N) (mats N))
    {κ : Type} [Fintype κ] (g : κ → Fin d → ℝ → ℝ) (hg : ∀ k, Admissible (g k))
    {ι : Type} [Countable ι] (f : ι → Fin d → ℝ → ℝ) (hf : ∀ k j, Continuous (f k j))
    (c : ι → Fin d → ℝ) (hc : ∀ k j t, |f k j t| ≤ c k j) (hsum : Summable fun k => ∏ j, c k j)
    (F : (Fin d → ℝ) → ℝ) (hF : ∀ x, F x = ∑ k, ∏ j, g k j (x j) + ∑' k, ∏ j, f k j (x j)) :
    let G := fun N => GaussianSumND.new comps ((full N).map fun α (j : Fin d) => α.getD j 0)
    Tendsto (fun N => integND (momentQuadratureND B (G N).rms (mats N) none none sort ldl) fun x => F fun j => x.getD j 0) atTop
      (𝓝 (∫ x, F (WithLp.ofLp x) ∂mixtureND comps)) ∧
    Tendsto (fun N => integND (momentQuadratureND B (G N).cms (mats N) (some (List.ofFn (G N).mean)) none sort ldl) fun x => F fun j => x.getD j 0) atTop
      (𝓝 (∫ x, F (WithLp.ofLp x) ∂mixtureND comps)) := by
  intro G
  have := gaussSumLaw_prob comps hw h1
  have hps : ∀ c ∈ comps, c.cov.PosSemidef := fun c h => (hcov c h).posSemidef
  have hm : ∀ φ : (Fin d → ℝ) → ℝ, Continuous φ → ∫ x, φ x ∂gaussSumLaw comps = ∫ x, φ (WithLp.ofLp x) ∂mixtureND comps := fun φ hφ =>
    integral_map measurable_ofLp.aemeasurable hφ.aestronglyMeasurable
  have hFc : Continuous F := by
    have e : F = fun x => ∑ k, ∏ j, g k j (x j) + ∑' k, ∏ j, f k j (x j) := funext hF
    rw [e]
    refine (continuous_finsetSum _ fun k _ => (hg k).continuous).add (continuous_tsum (fun k => continuous_finsetProd _ fun j _ =>
      (hf k j).comp (continuous_apply j)) hsum fun k x => ?_)
    rw [Real.norm_eq_abs, Finset.abs_prod]
    exact Finset.prod_le_prod (fun j _ => abs_nonneg _) fun j _ => hc k j _
  obtain ⟨m, hmm⟩ : ∃ m : Fin d → ℝ, m = fun j => ∫ x, x j ∂mixtureND comps := ⟨_, rfl⟩
  have h := C192_nd_rule_converges_whole B hB sort ldl hd (gaussSumLaw comps) ⟨1, one_pos, gaussSumLaw_exp comps hw hps⟩
    (gaussSumLaw_ne comps hw h1 hcov) basis full mats T (List.ofFn m) (List.replicate d 1) (by simp) (by simp)
    (fun t ht => by rw [List.eq_of_mem_replicate ht]; exact one_pos) g hg f hf c hc hsum F hF
  rw [hm F hFc] at h
  refine ⟨h.1.congr fun N => ?_, h.2.1.congr fun N => ?_⟩
  · rw [show (G N).rms = _ from (C66_gaussian_sum comps hw h1 hps _).2.2.2.1, List.map_map]
    congr 2
    refine List.map_congr_left fun α _ => hm _ ?_
    fun_prop
  · have hmean : (G N).mean = m := by
      rw [hmm]
      exact funext fun i => (C66_gaussian_sum comps hw h1 hps _).2.1 i
    rw [show (G N).cms = _ from (C66_gaussian_sum comps hw h1 hps _).2.2.2.2, List.map_map, hmean]
    congr 2
    refine List.map_congr_left fun α _ => ?_
    rw [hm _ (by fun_prop)]
    simp [hmm]

/-! ### cases -/

/-- tables of all orders exist. -/
theorem exists_tables_seq (hd : 1 ≤ d) : ∃ (basis full : ℕ → List (List ℕ)) (mats : ℕ → List (List (List ℤ))),
    ∀ N, 2 ≤ N → Tables N d (basis N) (full N) (mats N) := by
  have h : ∀ N, ∃ (b f : List (List ℕ)) (m : List (List (List ℤ))), 2 ≤ N → Tables N d b f m := by
    intro N
    by_cases hN : 2 ≤ N
    · obtain ⟨b, f, m, h1, h2, h3, _⟩ := C05_gram_hankel_indices N d (by omega) hd
      exact ⟨b, f, m, fun _ => ⟨hN, hd, h1, h2, h3⟩⟩
    · exact ⟨[], [], [], fun h => absurd h hN⟩
  choose b f m hT using h
  exact ⟨b, f, m, hT⟩

/-- two standard normal components with means `(±1, 0)`, and the integrand `|x₀| (1 + x₁²)`. -/
example (basis full : ℕ → List (List ℕ)) (mats : ℕ → List (List (List ℤ))) (T : ∀ N, 2 ≤ N → Tables N 2 (basis N) (full N) (mats N)) :
    Tendsto (fun N => integND (momentQuadratureND theBackend
      (GaussianSumND.new [⟨![1, 0], 1, 0.5⟩, ⟨![-1, 0], 1, 0.5⟩] ((full N).map fun α (j : Fin 2) => α.getD j 0)).rms (mats N) none none false true)
      fun x => |x.getD 0 0| * (1 + x.getD 1 0 ^ 2)) atTop
      (𝓝 (∫ x : EuclideanSpace ℝ (Fin 2), |x 0| * (1 + x 1 ^ 2) ∂mixtureND [⟨![1, 0], 1, 0.5⟩, ⟨![-1, 0], 1, 0.5⟩])) := by
  have h := (C192_gaussian_sum theBackend theBackend_valid false true (by norm_num) [⟨![1, 0], 1, 0.5⟩, ⟨![-1, 0], 1, 0.5⟩] (by simp; norm_num)
    (by norm_num) (by simp [PosDef.one]) basis full mats T (κ := Unit) (fun _ => ![fun t => |t|, fun t => 1 + t ^ 2])
    (fun _ => Admissible.two (fun j => by fin_cases j <;> simp <;> fun_prop) fun j => by
      fin_cases j
      · exact ⟨1, 1, fun t => by simp⟩
      · exact ⟨1, 2, fun t => by simp [abs_of_nonneg (show (0 : ℝ) ≤ 1 + t ^ 2 by positivity)]⟩)
    (ι := Empty) (fun k => k.elim) (fun k => k.elim) (fun k => k.elim) (fun k => k.elim) (hasSum_fintype _).summable
    (fun x => |x 0| * (1 + x 1 ^ 2)) (fun x => by simp)).1
  simpa using h

end Mfs.Props

import Verif.Lemmas.Kan
import Verif.Lemmas.KanMgf
import Mathlib.MeasureTheory.Integral.Pi
import Mathlib.Analysis.SpecialFunctions.Integrals.Basic
import Mathlib.Probability.ConditionalProbability

/-!
# Properties C63–C66, C95, C96: multivariate normal, uniform, transition and Gaussian-sum moments

`N(mean, cov)` is Mathlib's `multivariateGaussian` on `EuclideanSpace ℝ (Fin d)`.
-/

namespace Mfs.Props

open Mfs.MomentsND Matrix MeasureTheory ProbabilityTheory
open scoped NNReal

variable {d dw : ℕ}

/-- the normal law. -/
local notation "𝓝(" m ", " S ")" => multivariateGaussian (WithLp.toLp 2 m) S

/-! ## C63 -/

theorem centralKan_eq_raw (cov : Matrix (Fin d) (Fin d) ℝ) (mi : Fin d → ℕ) :
    centralMomentsMvnKan cov mi = rawMomentsMvnKan 0 cov mi := by
  unfold centralMomentsMvnKan rawMomentsMvnKan
  simp only [dotProduct_zero]
  split
  · next h =>
    rw [Finset.sum_div]
    refine Finset.sum_congr rfl fun v _ => ?_
    rw [Finset.sum_eq_single ((∑ i, mi i) / 2)]
    · have h2 : ∑ i, mi i - 2 * ((∑ i, mi i) / 2) = 0 := by omega
      have h3 : ((∑ i, mi i : ℕ) : ℝ) / 2 = ((∑ i, mi i) / 2 : ℕ) := by
        rw [Nat.cast_div (by omega) (by norm_num)]; norm_num
      rw [h2, h3, Real.rpow_natCast]
      simp only [pow_zero, mul_one, Nat.factorial_zero, Nat.cast_one]
      ring
    · intro r hr hne
      have : ∑ i, mi i - 2 * r ≠ 0 := by have := Finset.mem_range.mp hr; omega
      simp [zero_pow this]
    · intro hr; exact absurd (Finset.mem_range.mpr (Nat.lt_succ_self _)) hr
  · next h =>
    symm
    refine Finset.sum_eq_zero fun v _ => Finset.sum_eq_zero fun r hr => ?_
    have : ∑ i, mi i - 2 * r ≠ 0 := by have := Finset.mem_range.mp hr; omega
    simp [zero_pow this]

/-- **C63.** For every mean, positive semidefinite covariance and multi-index, `raw_moments_mvn_kan` is the moment of
`N(mean, cov)` and `central_moments_mvn_kan` is the moment of `N(0, cov)`, which is the central moment of `N(mean, cov)`; all these
expectations exist. -/
theorem C63_kan (mean : Fin d → ℝ) (cov : Matrix (Fin d) (Fin d) ℝ) (hcov : cov.PosSemidef) (mi : Fin d → ℕ) :
    Integrable (fun x : EuclideanSpace ℝ (Fin d) => ∏ i, x i ^ mi i) 𝓝(mean, cov) ∧
    rawMomentsMvnKan mean cov mi = ∫ x : EuclideanSpace ℝ (Fin d), ∏ i, x i ^ mi i ∂𝓝(mean, cov) ∧
    centralMomentsMvnKan cov mi = ∫ x : EuclideanSpace ℝ (Fin d), ∏ i, x i ^ mi i ∂𝓝((0 : Fin d → ℝ), cov) ∧
    centralMomentsMvnKan cov mi = ∫ x : EuclideanSpace ℝ (Fin d), ∏ i, (x i - mean i) ^ mi i ∂𝓝(mean, cov) := by
  refine ⟨integrable_monomial mean hcov mi, rawKan_eq_integral mean hcov mi, ?_, ?_⟩
  · rw [centralKan_eq_raw, rawKan_eq_integral 0 hcov]
  · rw [centralKan_eq_raw, rawKan_eq_integral 0 hcov]
    have := integral_shift_mvn mean mean cov (fun x => ∏ i, x i ^ mi i) (by fun_prop)
    rw [sub_self] at this
    exact this.symm

/-- a correlated covariance and a mixed moment: `E[X Y] = 1/2 + 2` for means `1, 2` and covariance `1/2`. -/
example : (!![1, 1/2; 1/2, 1] : Matrix (Fin 2) (Fin 2) ℝ).PosSemidef ∧
    rawMomentsMvnKan ![1, 2] !![1, 1/2; 1/2, 1] ![1, 1] = 5/2 := by
  constructor
  · have h : (!![1, 1/2; 1/2, 1] : Matrix (Fin 2) (Fin 2) ℝ) = (!![1, 1/2; 0, √3/2] : Matrix (Fin 2) (Fin 2) ℝ)ᴴ * !![1, 1/2; 0, √3/2] := by
      have : √3 / 2 * (√3 / 2) = 3/4 := by
        rw [div_mul_div_comm, Real.mul_self_sqrt (by norm_num)]; norm_num
      ext i j
      fin_cases i <;> fin_cases j <;> simp [Matrix.mul_apply, Fin.sum_univ_two, this]
      norm_num
    rw [h]
    exact posSemidef_conjTranspose_mul_self _
  · have hr : kanRows (![1, 1] : Fin 2 → ℕ) = {![0, 0], ![0, 1], ![1, 0], ![1, 1]} := by decide
    have n1 : (![0, 0] : Fin 2 → ℕ) ∉ ({![0, 1], ![1, 0], ![1, 1]} : Finset (Fin 2 → ℕ)) := by decide
    have n2 : (![0, 1] : Fin 2 → ℕ) ∉ ({![1, 0], ![1, 1]} : Finset (Fin 2 → ℕ)) := by decide
    have n3 : (![1, 0] : Fin 2 → ℕ) ∉ ({![1, 1]} : Finset (Fin 2 → ℕ)) := by decide
    unfold rawMomentsMvnKan
    rw [hr, Finset.sum_insert n1, Finset.sum_insert n2, Finset.sum_insert n3, Finset.sum_singleton]
    norm_num [Fin.sum_univ_two, Finset.sum_range_succ, kanSignComb, kanH, dotProduct, Matrix.mulVec, Nat.factorial, Fin.prod_univ_two]

/-! ## C64 -/

/-- the uniform law on `[a, b]`. -/
noncomputable abbrev uniformLaw (a b : ℝ) : Measure ℝ := cond volume (Set.Icc a b)

theorem integral_uniform {a b : ℝ} (hab : a < b) (m : ℝ) (p : ℕ) :
    ∫ u, (u - m) ^ p ∂uniformLaw a b = ((b - m) ^ (p + 1) - (a - m) ^ (p + 1)) / ((p : ℝ) + 1) / (b - a) := by
  rw [uniformLaw, ProbabilityTheory.cond, integral_smul_measure, Real.volume_Icc, ENNReal.toReal_inv,
    ENNReal.toReal_ofReal (sub_pos.mpr hab).le, integral_Icc_eq_integral_Ioc, ← intervalIntegral.integral_of_le hab.le,
    intervalIntegral.integral_comp_sub_right (fun u => u ^ p), integral_pow, smul_eq_mul, inv_mul_eq_div]

/-- **C64.** `moments_nd_uniform` is the moment of independent uniform variables on the bounds about `means` (about zero by
default). -/
theorem C64_uniform (a b : Fin d → ℝ) (hab : ∀ i, a i < b i) (mi : Fin d → ℕ) (m : Fin d → ℝ) :
    (∀ i, IsProbabilityMeasure (uniformLaw (a i) (b i))) ∧
    momentsNdUniform (List.ofFn fun i => (a i, b i)) (List.ofFn mi) (some (List.ofFn m))
      = ∫ u : Fin d → ℝ, ∏ i, (u i - m i) ^ mi i ∂Measure.pi (fun i => uniformLaw (a i) (b i)) ∧
    momentsNdUniform (List.ofFn fun i => (a i, b i)) (List.ofFn mi)
      = ∫ u : Fin d → ℝ, ∏ i, u i ^ mi i ∂Measure.pi (fun i => uniformLaw (a i) (b i)) := by
  have hp : ∀ i, IsProbabilityMeasure (uniformLaw (a i) (b i)) := fun i =>
    cond_isProbabilityMeasure_of_finite (by simp [Real.volume_Icc, hab i]) (by simp [Real.volume_Icc])
  have key : ∀ m : Fin d → ℝ, momentsNdUniform (List.ofFn fun i => (a i, b i)) (List.ofFn mi) (some (List.ofFn m))
      = ∫ u : Fin d → ℝ, ∏ i, (u i - m i) ^ mi i ∂Measure.pi (fun i => uniformLaw (a i) (b i)) := by
    intro m
    rw [integral_fintype_prod_eq_prod (μ := fun i => uniformLaw (a i) (b i)) (fun i u => (u - m i) ^ mi i)]
    simp only [integral_uniform (hab _)]
    rw [← List.prod_ofFn]
    simp only [momentsNdUniform, Option.getD_some]
    congr 1
    apply List.ext_getElem
    · simp
    · intro n h1 h2
      simp
  refine ⟨hp, key m, ?_⟩
  have h0 := key 0
  simp only [Pi.zero_apply, sub_zero] at h0
  rw [← h0]
  simp only [momentsNdUniform, Option.getD_some, Option.getD_none]
  congr 4
  apply List.ext_getElem
  · simp
  · intro n h1 h2
    simp

/-- `E[U^2 V] = (7/3) 1` for `U` on `[1, 2]` and `V` on `[-1, 3]`. -/
example : momentsNdUniform [(1, 2), (-1, 3)] [2, 1] = 7/3 := by
  norm_num [momentsNdUniform, List.replicate]

/-! ## C65 -/

theorem jgetRow_map {α β : Type} [Inhabited α] [Inhabited β] (f : α → β) (l : List α) {n : ℕ} (h : n < l.length) :
    jgetRow (l.map f) n = f l[n] := by
  unfold jgetRow
  have h2 : min n ((l.map f).length - 1) = n := by simp; omega
  rw [h2, List.getD_eq_getElem _ _ (by simpa using h), List.getElem_map]

theorem jgetRow_eq {α : Type} [Inhabited α] (l : List α) {n : ℕ} (h : n < l.length) : jgetRow l n = l[n] := by
  have := jgetRow_map id l h
  simpa using this

theorem scaled_moment (mean : Fin d → ℝ) {cov : Matrix (Fin d) (Fin d) ℝ} (hcov : cov.PosSemidef) (mi : Fin d → ℕ) (m s : Fin d → ℝ) :
    rawMomentsMvnKan (mean - m) cov mi / ∏ i, s i ^ mi i
      = ∫ x : EuclideanSpace ℝ (Fin d), ∏ i, ((x i - m i) / s i) ^ mi i ∂𝓝(mean, cov) := by
  rw [rawKan_eq_integral _ hcov, ← integral_shift_mvn mean m cov (fun x => ∏ i, x i ^ mi i) (by fun_prop)]
  simp only [div_pow, Finset.prod_div_distrib]
  rw [integral_div]

theorem central_moment (mean : Fin d → ℝ) {cov : Matrix (Fin d) (Fin d) ℝ} (hcov : cov.PosSemidef) (mi : Fin d → ℕ) (m : Fin d → ℝ) :
    rawMomentsMvnKan (mean - m) cov mi = ∫ x : EuclideanSpace ℝ (Fin d), ∏ i, (x i - m i) ^ mi i ∂𝓝(mean, cov) := by
  rw [rawKan_eq_integral _ hcov, ← integral_shift_mvn mean m cov (fun x => ∏ i, x i ^ mi i) (by fun_prop)]

theorem mvn_mean (mean : Fin d → ℝ) {cov : Matrix (Fin d) (Fin d) ℝ} (hcov : cov.PosSemidef) (i : Fin d) :
    ∫ x : EuclideanSpace ℝ (Fin d), x i ∂𝓝(mean, cov) = mean i := by
  have h := (measurePreserving_eval_multivariateGaussian (μ := WithLp.toLp 2 mean) hcov (i := i)).map_eq
  have h2 : ∫ y, y ∂(𝓝(mean, cov)).map (fun x => x i) = mean i := by rw [h, integral_id_gaussianReal]
  rwa [integral_map (by fun_prop) (by fun_prop)] at h2

theorem euler_posSemidef (B : Matrix (Fin d) (Fin dw) ℝ) {dt : ℝ} (hdt : 0 ≤ dt) : (dt • (B * Bᵀ)).PosSemidef := by
  have : (B * Bᵀ).PosSemidef := by simpa using posSemidef_self_mul_conjTranspose B
  exact this.smul hdt

/-- **C65.** For `sde_cond_moments_euler_maruyama` and for `sde_cond_moments_tme_normal` (when the covariance returned by the
package `tme` is positive semidefinite), at every state, for every listed multi-index, centre and scale with non-zero entries:
the raw, central and scaled functions are moments, and the mean and variance functions the mean and variances, of one
and the same normal law. -/
theorem C65_transition_consistent (multiIndices : List (Fin d → ℕ)) (index : ℕ) (hi : index < multiIndices.length)
    (x m s : Fin d → ℝ) (_hs : ∀ i, s i ≠ 0)
    (drift : (Fin d → ℝ) → Fin d → ℝ) (dispersion : (Fin d → ℝ) → Matrix (Fin d) (Fin dw) ℝ) (dt : ℝ) (hdt : 0 ≤ dt)
    (expect : {V : Type} → ((Fin d → ℝ) → V) → (Fin d → ℝ) → V)
    (meanCov : (Fin d → ℝ) → (Fin d → ℝ) × Matrix (Fin d) (Fin d) ℝ) (hcov : (meanCov x).2.PosSemidef)
    (hexpect : expect id x = (meanCov x).1) :
    ∀ p ∈ [(sdeCondMomentsEulerMaruyama drift dispersion dt multiIndices,
        𝓝(x + dt • drift x, dt • (dispersion x * (dispersion x)ᵀ))),
      (sdeCondMomentsTmeNormal expect meanCov multiIndices, 𝓝((meanCov x).1, (meanCov x).2))],
      p.1.raw x index = ∫ y : EuclideanSpace ℝ (Fin d), ∏ i, y i ^ multiIndices[index] i ∂p.2 ∧
      p.1.central x index m = ∫ y : EuclideanSpace ℝ (Fin d), ∏ i, (y i - m i) ^ multiIndices[index] i ∂p.2 ∧
      p.1.scaled x index m s = ∫ y : EuclideanSpace ℝ (Fin d), ∏ i, ((y i - m i) / s i) ^ multiIndices[index] i ∂p.2 ∧
      (∀ i, p.1.mean x i = ∫ y : EuclideanSpace ℝ (Fin d), y i ∂p.2) ∧
      (p.1.meanVar x).1 = p.1.mean x ∧
      ∀ i, (p.1.meanVar x).2 i = Var[fun y : EuclideanSpace ℝ (Fin d) => y i; p.2] := by
  have he := euler_posSemidef (dispersion x) hdt
  simp only [List.forall_mem_cons, List.not_mem_nil, false_imp_iff, implies_true, and_true]
  refine ⟨⟨?_, ?_, ?_, ?_, rfl, ?_⟩, ?_, ?_, ?_, ?_, ?_, ?_⟩
  · exact (jgetRow_map _ _ hi).trans (rawKan_eq_integral _ he _)
  · exact (jgetRow_map _ _ hi).trans (central_moment _ he _ _)
  · rw [← scaled_moment _ he]
    simp only [sdeCondMomentsEulerMaruyama]
    rw [jgetRow_map _ _ hi, jgetRow_eq _ hi]
  · intro i; exact (mvn_mean _ he i).symm
  · intro i
    rw [variance_eval_multivariateGaussian he]
    simp [sdeCondMomentsEulerMaruyama, mul_comm]
  · exact (jgetRow_map _ _ hi).trans (rawKan_eq_integral _ hcov _)
  · exact (jgetRow_map _ _ hi).trans (central_moment _ hcov _ _)
  · rw [← scaled_moment _ hcov]
    simp only [sdeCondMomentsTmeNormal]
    rw [jgetRow_map _ _ hi, jgetRow_eq _ hi]
  · intro i
    rw [mvn_mean _ hcov i, ← hexpect]; rfl
  · exact hexpect.symm
  · intro i
    rw [variance_eval_multivariateGaussian hcov]
    rfl

/-- a two-dimensional linear drift with a rank-one dispersion: hypotheses met, and the table `[(1, 0), (1, 1)]` has two
entries. -/
example : ∃ (mis : List (Fin 2 → ℕ)) (dispersion : (Fin 2 → ℝ) → Matrix (Fin 2) (Fin 1) ℝ)
    (expect : {V : Type} → ((Fin 2 → ℝ) → V) → (Fin 2 → ℝ) → V)
    (meanCov : (Fin 2 → ℝ) → (Fin 2 → ℝ) × Matrix (Fin 2) (Fin 2) ℝ),
    1 < mis.length ∧ (meanCov ![1, 2]).2.PosSemidef ∧ expect id ![1, 2] = (meanCov ![1, 2]).1 ∧ dispersion ![1, 2] ≠ 0 :=
  ⟨[![1, 0], ![1, 1]], fun _ => !![0; 1], fun f x => f x, fun x => (x, 1), by simp, PosSemidef.one, rfl, by
    intro h
    have := congrFun (congrFun h 1) 0
    simp at this⟩

/-! ## C66 -/

/-- the mixture as a measure. -/
noncomputable def mixtureND (comps : List (Component d)) : Measure (EuclideanSpace ℝ (Fin d)) :=
  (comps.map fun c => ENNReal.ofReal c.weight • 𝓝(c.mean, c.cov)).sum

theorem integral_mixtureND (comps : List (Component d)) (hw : ∀ c ∈ comps, 0 ≤ c.weight) (f : EuclideanSpace ℝ (Fin d) → ℝ)
    (hf : ∀ c ∈ comps, Integrable f 𝓝(c.mean, c.cov)) :
    Integrable f (mixtureND comps) ∧ ∫ x, f x ∂mixtureND comps = (comps.map fun c => (∫ x, f x ∂𝓝(c.mean, c.cov)) * c.weight).sum := by
  induction comps with
  | nil => simp [mixtureND]
  | cons c cs ih =>
    obtain ⟨h1, h2⟩ := ih (fun c' hc' => hw c' (List.mem_cons_of_mem _ hc')) (fun c' hc' => hf c' (List.mem_cons_of_mem _ hc'))
    have hc := hw c (by simp)
    have hi : Integrable f (ENNReal.ofReal c.weight • 𝓝(c.mean, c.cov)) :=
      (hf c (by simp)).smul_measure ENNReal.ofReal_ne_top
    have he : mixtureND (c :: cs) = ENNReal.ofReal c.weight • 𝓝(c.mean, c.cov) + mixtureND cs := by simp [mixtureND]
    rw [he]
    refine ⟨hi.add_measure h1, ?_⟩
    rw [integral_add_measure hi h1, h2, integral_smul_measure, ENNReal.toReal_ofReal hc, List.map_cons, List.sum_cons,
      smul_eq_mul, mul_comm]

theorem mixtureND_prob (comps : List (Component d)) (hw : ∀ c ∈ comps, 0 ≤ c.weight) (h1 : (comps.map (·.weight)).sum = 1) :
    IsProbabilityMeasure (mixtureND comps) := by
  constructor
  have : ∀ cs : List (Component d), (∀ c ∈ cs, 0 ≤ c.weight) → mixtureND cs Set.univ = ENNReal.ofReal (cs.map (·.weight)).sum := by
    intro cs
    induction cs with
    | nil => simp [mixtureND]
    | cons c cs ih =>
      intro h
      have he : mixtureND (c :: cs) = ENNReal.ofReal c.weight • 𝓝(c.mean, c.cov) + mixtureND cs := by simp [mixtureND]
      rw [he, Measure.add_apply, ih fun c' hc' => h c' (List.mem_cons_of_mem _ hc'), List.map_cons, List.sum_cons,
        ENNReal.ofReal_add (h c (by simp))]
      · simp
      · apply List.sum_nonneg
        intro x hx
        rw [List.mem_map] at hx
        obtain ⟨c', hc', rfl⟩ := hx
        exact h c' (List.mem_cons_of_mem _ hc')
  rw [this comps hw, h1]
  simp

theorem mvn_memLp (mean : Fin d → ℝ) (cov : Matrix (Fin d) (Fin d) ℝ) (i : Fin d) :
    MemLp (fun x : EuclideanSpace ℝ (Fin d) => x i) 2 𝓝(mean, cov) := by
  have := IsGaussian.memLp_dual 𝓝(mean, cov) (EuclideanSpace.proj (𝕜 := ℝ) i) 2 (by norm_num)
  exact this

theorem mvn_second (mean : Fin d → ℝ) {cov : Matrix (Fin d) (Fin d) ℝ} (hcov : cov.PosSemidef) (i j : Fin d) :
    Integrable (fun x : EuclideanSpace ℝ (Fin d) => x i * x j) 𝓝(mean, cov) ∧
    ∫ x : EuclideanSpace ℝ (Fin d), x i * x j ∂𝓝(mean, cov) = cov i j + mean i * mean j := by
  refine ⟨(mvn_memLp mean cov i).integrable_mul (mvn_memLp mean cov j), ?_⟩
  have h := covariance_eval_multivariateGaussian (μ := WithLp.toLp 2 mean) hcov i j
  rw [covariance_eq_sub (mvn_memLp mean cov i) (mvn_memLp mean cov j), mvn_mean mean hcov, mvn_mean mean hcov] at h
  have h2 : ∫ x : EuclideanSpace ℝ (Fin d), x i * x j ∂𝓝(mean, cov) - mean i * mean j = cov i j := h
  linarith

theorem sum_map_matrix (L : List (Component d)) (f : Component d → Matrix (Fin d) (Fin d) ℝ) (i j : Fin d) :
    ((L.map f).sum) i j = (L.map fun c => f c i j).sum := by
  induction L with
  | nil => simp
  | cons c cs ih => simp [ih]

/-- **C66.** For components with non-negative weights summing to one and positive semidefinite covariances, the fields of
`GaussianSumND.new` are the mean, the covariance and the raw and central moments of the mixture measure. -/
theorem C66_gaussian_sum (comps : List (Component d)) (hw : ∀ c ∈ comps, 0 ≤ c.weight) (h1 : (comps.map (·.weight)).sum = 1)
    (hcov : ∀ c ∈ comps, c.cov.PosSemidef) (multiIndices : List (Fin d → ℕ)) :
    let g := GaussianSumND.new comps multiIndices
    let μ := mixtureND comps
    IsProbabilityMeasure μ ∧ (∀ i, g.mean i = ∫ x, x i ∂μ) ∧
    (∀ i j, g.cov i j = cov[fun x => x i, fun x => x j; μ]) ∧
    g.rms = multiIndices.map (fun mi => ∫ x, ∏ i, x i ^ mi i ∂μ) ∧
    g.cms = multiIndices.map (fun mi => ∫ x, ∏ i, (x i - ∫ y, y i ∂μ) ^ mi i ∂μ) := by
  intro g μ
  have hprob : IsProbabilityMeasure μ := mixtureND_prob comps hw h1
  have hi1 : ∀ (i : Fin d) (c : Component d), Integrable (fun x : EuclideanSpace ℝ (Fin d) => x i) 𝓝(c.mean, c.cov) :=
    fun i c => (mvn_memLp c.mean c.cov i).integrable (by norm_num)
  have hmean : ∀ i, g.mean i = ∫ x, x i ∂μ := by
    intro i
    rw [(integral_mixtureND comps hw (fun x => x i) fun c _ => hi1 i c).2]
    change (comps.map fun c => c.mean i * c.weight).sum = _
    congr 1
    exact List.map_congr_left fun c hc => by rw [mvn_mean _ (hcov c hc)]
  have hLp : ∀ i, MemLp (fun x : EuclideanSpace ℝ (Fin d) => x i) 2 μ := by
    intro i
    rw [memLp_two_iff_integrable_sq (by fun_prop)]
    refine (integral_mixtureND comps hw (fun x => x i ^ 2) fun c hc => ?_).1
    simpa [pow_two] using (mvn_second c.mean (hcov c hc) i i).1
  have hC : ∀ i j, g.cov i j = cov[fun x => x i, fun x => x j; μ] := by
    intro i j
    rw [covariance_eq_sub (hLp i) (hLp j), ← hmean i, ← hmean j]
    change ((comps.map fun c => c.weight • (c.cov + vecMulVec c.mean c.mean)).sum - vecMulVec g.mean g.mean) i j = _
    rw [Matrix.sub_apply, vecMulVec_apply, sum_map_matrix]
    congr 1
    have := (integral_mixtureND comps hw (fun x => x i * x j) fun c hc => (mvn_second c.mean (hcov c hc) i j).1).2
    change _ = ∫ x : EuclideanSpace ℝ (Fin d), x i * x j ∂μ
    rw [this]
    congr 1
    refine List.map_congr_left fun c hc => ?_
    rw [(mvn_second c.mean (hcov c hc) i j).2]
    simp [vecMulVec_apply]
    ring
  refine ⟨hprob, hmean, hC, ?_, ?_⟩
  · refine List.map_congr_left fun mi _ => ?_
    rw [(integral_mixtureND comps hw (fun x => ∏ i, x i ^ mi i) fun c hc => integrable_monomial c.mean (hcov c hc) mi).2]
    congr 1
    exact List.map_congr_left fun c hc => by rw [rawKan_eq_integral _ (hcov c hc)]
  · refine List.map_congr_left fun mi _ => ?_
    simp only [← hmean]
    rw [(integral_mixtureND comps hw (fun x => ∏ i, (x i - g.mean i) ^ mi i) fun c hc => ?_).2]
    · congr 1
      refine List.map_congr_left fun c hc => ?_
      rw [← central_moment _ (hcov c hc)]
      rfl
    · have h := integrable_monomial (c.mean - g.mean) (hcov c hc) mi
      rw [← map_sub_mvn, integrable_map_measure (by fun_prop) (by fun_prop)] at h
      exact h

/-- two equally weighted components: covariance `1 + 1 = 2` in the first coordinate. -/
example : (∀ c ∈ [Component.mk (d := 2) ![1, 0] 1 (1/2), ⟨![-1, 0], 1, 1/2⟩], 0 ≤ c.weight ∧ c.cov.PosSemidef) ∧
    (GaussianSumND.new (d := 2) [⟨![1, 0], 1, 1/2⟩, ⟨![-1, 0], 1, 1/2⟩] []).cov 0 0 = 2 := by
  constructor
  · intro c hc
    simp only [List.mem_cons, List.not_mem_nil, or_false] at hc
    rcases hc with rfl | rfl <;> exact ⟨by norm_num, PosSemidef.one⟩
  · norm_num [GaussianSumND.new, vecMulVec_apply]

/-! ## C95 -/

/-- **C95.** `raw_moments_mvn_mgf`, the iterated partial derivative of the moment-generating function at zero, is the same
moment of `N(mean, cov)`, hence equal to `raw_moments_mvn_kan`. -/
theorem C95_mgf (mean : Fin d → ℝ) (cov : Matrix (Fin d) (Fin d) ℝ) (hcov : cov.PosSemidef) (mi : Fin d → ℕ) :
    rawMomentsMvnMgf mean cov mi = ∫ x : EuclideanSpace ℝ (Fin d), ∏ i, x i ^ mi i ∂𝓝(mean, cov) ∧
    rawMomentsMvnMgf mean cov mi = rawMomentsMvnKan mean cov mi :=
  ⟨mgf_eq_integral mean hcov mi, (mgf_eq_integral mean hcov mi).trans (rawKan_eq_integral mean hcov mi).symm⟩

/-- the identity covariance meets the hypothesis; the second moment is `1 + 3 ^ 2`. -/
example : rawMomentsMvnMgf (d := 1) ![3] 1 ![2] = 10 := by
  rw [(C95_mgf (d := 1) ![3] 1 PosSemidef.one ![2]).1]
  have := (mvn_second (d := 1) ![3] (cov := 1) PosSemidef.one 0 0).2
  simp only [Finset.univ_unique, Fin.default_eq_zero, Finset.prod_singleton, Matrix.cons_val_zero, pow_two]
  rw [this]
  norm_num

/-! ## C96 -/

/-- **C96.** For `sde_cond_moments_tme`, whatever linear and normalised functional the package `tme` computes: scaled moments are
central moments divided by `∏ s_i ^ α_i`, central moments about zero are raw moments, the moment of order zero is one and
the first central moments are the conditional mean minus the centre. -/
theorem C96_tme (E : ((Fin d → ℝ) → ℝ) →ₗ[ℝ] ℝ) (h1 : E (fun _ => 1) = 1)
    (x : Fin d → ℝ) (expect : {V : Type} → ((Fin d → ℝ) → V) → (Fin d → ℝ) → V)
    (hexpect : ∀ phi : (Fin d → ℝ) → ℝ, expect phi x = E phi) (hvec : ∀ i, expect id x i = E (fun u => u i))
    (meanCov : (Fin d → ℝ) → (Fin d → ℝ) × Matrix (Fin d) (Fin d) ℝ) (mi : Fin d → ℕ) (m s : Fin d → ℝ) (_hs : ∀ i, s i ≠ 0) :
    let P := sdeCondMomentsTme expect meanCov
    P.scaled x mi m s = P.central x mi m / ∏ i, s i ^ mi i ∧
    P.central x mi 0 = P.raw x mi ∧
    P.raw x 0 = 1 ∧
    ∀ i, P.central x (Pi.single i 1) m = P.mean x i - m i := by
  intro P
  have hsingle : ∀ (i : Fin d) (y : Fin d → ℝ), ∏ j, y j ^ (Pi.single i 1 : Fin d → ℕ) j = y i := by
    intro i y
    have := prod_succ (0 : Fin d → ℕ) i y
    simpa using this
  refine ⟨?_, ?_, ?_, ?_⟩
  · simp only [P, sdeCondMomentsTme, hexpect, div_pow, Finset.prod_div_distrib]
    have : (fun u : Fin d → ℝ => (∏ i, (u i - m i) ^ mi i) / ∏ i, s i ^ mi i) = (∏ i, s i ^ mi i)⁻¹ • fun u : Fin d → ℝ => ∏ i, (u i - m i) ^ mi i := by
      funext u; simp [div_eq_inv_mul]
    rw [this, map_smul, smul_eq_mul, inv_mul_eq_div]
  · simp [P, sdeCondMomentsTme]
  · simp [P, sdeCondMomentsTme, hexpect, h1]
  · intro i
    simp only [P, sdeCondMomentsTme, hexpect, hvec]
    have : (fun u : Fin d → ℝ => ∏ j, (u j - m j) ^ (Pi.single i 1 : Fin d → ℕ) j) = (fun u => u i) - m i • fun _ => 1 := by
      funext u
      rw [hsingle i fun j => u j - m j]
      simp
    rw [this, map_sub, map_smul, h1, smul_eq_mul, mul_one]

/-- evaluation at the current point (expansion of order zero) is such a functional. -/
example : ∃ E : ((Fin 2 → ℝ) → ℝ) →ₗ[ℝ] ℝ, E (fun _ => 1) = 1 ∧ E (fun u => u 0 * u 1) = 6 :=
  ⟨LinearMap.proj ![2, 3], by simp, by norm_num⟩

end Mfs.Props

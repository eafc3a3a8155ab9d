import Verif.Props.ConvergeNDGauss
import Verif.Props.ConvergeNDFirst
import Verif.Lemmas.Kan
import Mathlib.MeasureTheory.Integral.Prod

/-!
# The prediction of a linear model with normal noise, with the moments of `raw_moments_mvn_kan`

Used by C194.
-/

namespace Mfs.Props

open Matrix Mfs.Spec Mfs.QuadND Mfs.MultiIndex Mfs.FilterND Mfs.StrongND Mfs.Converge Mfs.MomentsND
open MeasureTheory ProbabilityTheory Filter Topology

variable {d : ℕ} {Y : Type}

/-- the law of normal noise with covariance `Q`. -/
noncomputable def noiseLaw (Q : Matrix (Fin d) (Fin d) ℝ) : Measure (Fin d → ℝ) :=
  (multivariateGaussian (WithLp.toLp 2 0) Q).map WithLp.ofLp

/-- the law of `F x + w` for `x` of law `μ` and independent normal noise `w` with covariance `Q`. -/
noncomputable def predLaw (F Q : Matrix (Fin d) (Fin d) ℝ) (μ : Measure (Fin d → ℝ)) : Measure (Fin d → ℝ) :=
  (μ.prod (noiseLaw Q)).map fun p => F *ᵥ p.1 + p.2

theorem noiseLaw_eq (Q : Matrix (Fin d) (Fin d) ℝ) : noiseLaw Q = gaussSumLaw [⟨0, Q, 1⟩] := by
  simp [noiseLaw, gaussSumLaw, mixtureND]

instance noiseLaw_prob (Q : Matrix (Fin d) (Fin d) ℝ) : IsProbabilityMeasure (noiseLaw Q) := by
  rw [noiseLaw_eq]
  exact gaussSumLaw_prob _ (by simp) (by simp)

theorem noiseLaw_exp {Q : Matrix (Fin d) (Fin d) ℝ} (hQ : Q.PosSemidef) :
    Integrable (fun x => Real.exp (1 * ∑ j, |x j|)) (noiseLaw Q) := by
  rw [noiseLaw_eq]
  exact gaussSumLaw_exp _ (by simp) (by simpa using hQ)

theorem noiseLaw_ne {Q : Matrix (Fin d) (Fin d) ℝ} (hQ : Q.PosDef) (q : MvPolynomial (Fin d) ℝ)
    (hq : ∀ᵐ x ∂noiseLaw Q, MvPolynomial.eval x q = 0) : q = 0 := by
  rw [noiseLaw_eq] at hq
  exact gaussSumLaw_ne _ (by simp) (by simp) (by simpa using hQ) q hq

theorem continuous_pred (F : Matrix (Fin d) (Fin d) ℝ) : Continuous fun p : (Fin d → ℝ) × (Fin d → ℝ) => F *ᵥ p.1 + p.2 := by
  refine Continuous.add ?_ continuous_snd
  exact continuous_pi fun i => by unfold mulVec dotProduct; fun_prop

instance predLaw_prob (F Q : Matrix (Fin d) (Fin d) ℝ) (μ : Measure (Fin d → ℝ)) [IsProbabilityMeasure μ] : IsProbabilityMeasure (predLaw F Q μ) :=
  Measure.isProbabilityMeasure_map (continuous_pred F).measurable.aemeasurable

theorem integral_predLaw (F Q : Matrix (Fin d) (Fin d) ℝ) (μ : Measure (Fin d → ℝ)) [IsProbabilityMeasure μ] (g : (Fin d → ℝ) → ℝ) (hg : Continuous g)
    (hi : Integrable g (predLaw F Q μ)) : ∫ x, g x ∂predLaw F Q μ = ∫ x, ∫ w, g (F *ᵥ x + w) ∂noiseLaw Q ∂μ := by
  rw [predLaw, integral_map (continuous_pred F).measurable.aemeasurable hg.aestronglyMeasurable]
  rw [predLaw, integrable_map_measure hg.aestronglyMeasurable (continuous_pred F).measurable.aemeasurable] at hi
  exact integral_prod _ hi

/-- an exponential moment survives the prediction. -/
theorem predLaw_exp (F : Matrix (Fin d) (Fin d) ℝ) {Q : Matrix (Fin d) (Fin d) ℝ} (hQ : Q.PosSemidef) (μ : Measure (Fin d → ℝ)) [IsProbabilityMeasure μ]
    (hμ : SomeExpMomentND μ) : SomeExpMomentND (predLaw F Q μ) := by
  obtain ⟨c, hc, hci⟩ := hμ
  -- the size of the matrix
  obtain ⟨K, hK, hKF⟩ : ∃ K : ℝ, 1 ≤ K ∧ ∀ x : Fin d → ℝ, ∑ i, |(F *ᵥ x) i| ≤ K * ∑ j, |x j| := by
    refine ⟨1 + ∑ i, ∑ j, |F i j|, by linarith [Finset.sum_nonneg fun i (_ : i ∈ Finset.univ) => Finset.sum_nonneg fun j (_ : j ∈ Finset.univ) => abs_nonneg (F i j)],
      fun x => ?_⟩
    have hs : 0 ≤ ∑ j, |x j| := Finset.sum_nonneg fun j _ => abs_nonneg _
    have h1 : ∀ i, |(F *ᵥ x) i| ≤ (∑ j, |F i j|) * ∑ j, |x j| := fun i => by
      rw [mulVec, dotProduct, Finset.sum_mul]
      refine (Finset.abs_sum_le_sum_abs _ _).trans (Finset.sum_le_sum fun j _ => ?_)
      rw [abs_mul]
      exact mul_le_mul_of_nonneg_left (Finset.single_le_sum (f := fun j => |x j|) (fun j _ => abs_nonneg _) (Finset.mem_univ j)) (abs_nonneg _)
    calc ∑ i, |(F *ᵥ x) i| ≤ ∑ i, (∑ j, |F i j|) * ∑ j, |x j| := Finset.sum_le_sum fun i _ => h1 i
      _ = (∑ i, ∑ j, |F i j|) * ∑ j, |x j| := by rw [Finset.sum_mul]
      _ ≤ _ := by nlinarith
  refine ⟨min (c / K) 1, lt_min (by positivity) one_pos, ?_⟩
  have hcont : Continuous fun x : Fin d → ℝ => Real.exp (min (c / K) 1 * ∑ j, |x j|) := by fun_prop
  rw [predLaw, integrable_map_measure hcont.aestronglyMeasurable (continuous_pred F).measurable.aemeasurable]
  refine (hci.mul_prod (noiseLaw_exp hQ)).mono' (hcont.comp (continuous_pred F)).aestronglyMeasurable (.of_forall fun p => ?_)
  rw [Real.norm_eq_abs, Function.comp_apply, Real.abs_exp, ← Real.exp_add]
  apply Real.exp_le_exp.2
  have h1 : ∑ j, |(F *ᵥ p.1 + p.2) j| ≤ K * ∑ j, |p.1 j| + ∑ j, |p.2 j| := by
    refine le_trans ?_ (add_le_add_left (hKF p.1) _)
    rw [← Finset.sum_add_distrib]
    exact Finset.sum_le_sum fun j _ => by rw [Pi.add_apply]; exact abs_add_le _ _
  have hm0 : 0 ≤ min (c / K) 1 := (lt_min (by positivity) one_pos).le
  have ha : 0 ≤ ∑ j, |p.1 j| := Finset.sum_nonneg fun j _ => abs_nonneg _
  have hb : 0 ≤ ∑ j, |p.2 j| := Finset.sum_nonneg fun j _ => abs_nonneg _
  have hK0 : 0 < K := by linarith
  calc min (c / K) 1 * ∑ j, |(F *ᵥ p.1 + p.2) j| ≤ min (c / K) 1 * (K * ∑ j, |p.1 j| + ∑ j, |p.2 j|) := mul_le_mul_of_nonneg_left h1 hm0
    _ = (min (c / K) 1 * K) * ∑ j, |p.1 j| + min (c / K) 1 * ∑ j, |p.2 j| := by ring
    _ ≤ c * ∑ j, |p.1 j| + 1 * ∑ j, |p.2 j| := by
        refine add_le_add (mul_le_mul_of_nonneg_right ?_ ha) (mul_le_mul_of_nonneg_right (min_le_right _ _) hb)
        calc min (c / K) 1 * K ≤ c / K * K := mul_le_mul_of_nonneg_right (min_le_left _ _) hK0.le
          _ = c := by field_simp

/-- the predicted law is not concentrated on the zeros of a polynomial. -/
theorem predLaw_ne (F : Matrix (Fin d) (Fin d) ℝ) {Q : Matrix (Fin d) (Fin d) ℝ} (hQ : Q.PosDef) (μ : Measure (Fin d → ℝ)) [IsProbabilityMeasure μ]
    (q : MvPolynomial (Fin d) ℝ) (hq : ∀ᵐ x ∂predLaw F Q μ, MvPolynomial.eval x q = 0) : q = 0 := by
  have h1 := ae_of_ae_map (continuous_pred F).measurable.aemeasurable hq
  have h2 := Measure.ae_ae_of_ae_prod h1
  obtain ⟨x, hx⟩ := h2.exists
  -- the shifted polynomial
  have e : ∀ w : Fin d → ℝ, MvPolynomial.eval (F *ᵥ x + w) q
      = MvPolynomial.eval w (MvPolynomial.bind₁ (fun j => MvPolynomial.C ((F *ᵥ x) j) + MvPolynomial.X j) q) := fun w => by
    change _ = MvPolynomial.eval₂Hom (RingHom.id ℝ) w _
    rw [MvPolynomial.eval₂Hom_bind₁, MvPolynomial.eval]
    refine congrArg (fun g => MvPolynomial.eval₂Hom (RingHom.id ℝ) g q) (funext fun j => ?_)
    simp
  simp only [e] at hx
  have h0 := noiseLaw_ne hQ _ hx
  refine MvPolynomial.funext fun z => ?_
  have := e (z - F *ᵥ x)
  rw [h0, add_sub_cancel] at this
  rw [this]
  simp

/-- `raw_moments_mvn_kan` about the mean `F x - m` as a polynomial in `x`. -/
theorem exists_kanPoly (F Q : Matrix (Fin d) (Fin d) ℝ) (m : Fin d → ℝ) (mi : Fin d → ℕ) : ∃ p : MvPolynomial (Fin d) ℝ,
    p.totalDegree ≤ ∑ i, mi i ∧ ∀ x, MvPolynomial.eval x p = rawMomentsMvnKan (F *ᵥ x - m) Q mi := by
  classical
  have hlin : ∀ h : Fin d → ℝ, ∃ l : MvPolynomial (Fin d) ℝ, l.totalDegree ≤ 1 ∧ ∀ x, MvPolynomial.eval x l = h ⬝ᵥ (F *ᵥ x - m) := fun h => by
    refine ⟨∑ j, MvPolynomial.C ((h ᵥ* F) j) * MvPolynomial.X j - MvPolynomial.C (h ⬝ᵥ m), ?_, fun x => ?_⟩
    · refine (MvPolynomial.totalDegree_sub _ _).trans (max_le ?_ (by rw [MvPolynomial.totalDegree_C]; omega))
      refine (MvPolynomial.totalDegree_finsetSum _ _).trans (Finset.sup_le fun j _ => ?_)
      refine (MvPolynomial.totalDegree_mul _ _).trans ?_
      rw [MvPolynomial.totalDegree_C, MvPolynomial.totalDegree_X]
    · rw [dotProduct_sub, dotProduct_mulVec]
      simp [dotProduct]
  choose l hl1 hl2 using hlin
  refine ⟨∑ v ∈ kanRows mi, ∑ r ∈ Finset.range ((∑ i, mi i) / 2 + 1), MvPolynomial.C (kanSignComb mi v * (kanH mi v ⬝ᵥ Q *ᵥ kanH mi v / 2) ^ r
    / ((r.factorial : ℝ) * (((∑ i, mi i) - 2 * r).factorial : ℝ))) * l (kanH mi v) ^ ((∑ i, mi i) - 2 * r), ?_, fun x => ?_⟩
  · refine (MvPolynomial.totalDegree_finsetSum _ _).trans (Finset.sup_le fun v _ => ?_)
    refine (MvPolynomial.totalDegree_finsetSum _ _).trans (Finset.sup_le fun r _ => ?_)
    refine (MvPolynomial.totalDegree_mul _ _).trans ?_
    rw [MvPolynomial.totalDegree_C, zero_add]
    refine (MvPolynomial.totalDegree_pow _ _).trans ?_
    calc _ ≤ ((∑ i, mi i) - 2 * r) * 1 := Nat.mul_le_mul_left _ (hl1 _)
      _ ≤ _ := by omega
  · rw [rawMomentsMvnKan]
    simp only [map_sum, map_mul, map_pow, MvPolynomial.eval_C, hl2]
    refine Finset.sum_congr rfl fun v _ => Finset.sum_congr rfl fun r _ => ?_
    ring

/-- the code's conditional moment is the moment about `m` of the normal law with mean `F x` and covariance `Q`. -/
theorem kan_eq_noise (F : Matrix (Fin d) (Fin d) ℝ) {Q : Matrix (Fin d) (Fin d) ℝ} (hQ : Q.PosSemidef) (x m : Fin d → ℝ) (mi : Fin d → ℕ) :
    rawMomentsMvnKan (F *ᵥ x - m) Q mi = ∫ w, ∏ i, ((F *ᵥ x + w) i - m i) ^ mi i ∂noiseLaw Q := by
  have h := integral_shift_mvn (0 : Fin d → ℝ) (-(F *ᵥ x - m)) Q (fun z => ∏ i, z i ^ mi i) (by fun_prop)
  rw [zero_sub, neg_neg] at h
  rw [rawKan_eq_integral _ hQ, ← h, noiseLaw, integral_map measurable_ofLp.aemeasurable (by
    have : Continuous fun w : Fin d → ℝ => ∏ i, ((F *ᵥ x + w) i - m i) ^ mi i := by fun_prop
    exact this.aestronglyMeasurable)]
  refine integral_congr_ae (.of_forall fun w => Finset.prod_congr rfl fun i _ => ?_)
  simp only [Pi.neg_apply, Pi.sub_apply, Pi.add_apply]
  congr 1
  ring

/-- the rule of the central moments of a law, about any centre, integrates every polynomial of degree at most `2N - 1` exactly. -/
theorem rule_exact_poly_central (B : Backend) (hB : B.Valid) (ldl : Bool) {N : ℕ} {basis full : List (List ℕ)} {mats : List (List (List ℤ))}
    (T : Tables N d basis full mats) (μ : Measure (Fin d → ℝ)) [IsProbabilityMeasure μ] (hμ : SomeExpMomentND μ)
    (hne : ∀ q : MvPolynomial (Fin d) ℝ, (∀ᵐ x ∂μ, MvPolynomial.eval x q = 0) → q = 0) (mean : List ℝ) (hml : mean.length = d)
    (p : MvPolynomial (Fin d) ℝ) (hp : p.totalDegree ≤ 2 * N - 1) :
    integND (momentQuadratureND B (full.map fun α => ∫ x, ∏ j : Fin d, (x j - mean.getD j 0) ^ α.getD j 0 ∂μ) mats (some mean) none false ldl)
      (fun x => MvPolynomial.eval (fun j : Fin d => x.getD j 0) p) = ∫ x, MvPolynomial.eval x p ∂μ := by
  have U : UpdateData d μ fun _ => 1 := ⟨T.hd, hμ, hne, fun _ => one_pos, 1, fun _ _ _ => 1,
    fun _ => ⟨⟨0, T.hd⟩, ⟨0, T.hd⟩, le_rfl, by simp, fun _ => continuous_const, PolyGrowth.const 1, PolyGrowth.const 1, fun _ _ _ => ⟨1, by simp⟩⟩, by simp⟩
  rw [(U.reps B hB ldl ldl T mean (List.replicate d 1) hml (by simp) (fun t ht => by rw [List.eq_of_mem_replicate ht]; exact one_pos) _).1]
  exact rule_exact_poly B hB false ldl T μ hμ hne p hp

/-- the prediction of `moment_filter_nd_cms`, from the central moments of a law about any centre, with the conditional moments of
`raw_moments_mvn_kan`: the predicted means are those of the predicted law, and the predicted moments about any centre are its moments. -/
theorem linear_prediction (B : Backend) (hB : B.Valid) (ldl : Bool) {N : ℕ} {basis full : List (List ℕ)} {mats : List (List (List ℤ))}
    (T : Tables N d basis full mats) (F : Matrix (Fin d) (Fin d) ℝ) {Q : Matrix (Fin d) (Fin d) ℝ} (hQ : Q.PosSemidef)
    (μ : Measure (Fin d → ℝ)) [IsProbabilityMeasure μ] (hμ : SomeExpMomentND μ)
    (hne : ∀ q : MvPolynomial (Fin d) ℝ, (∀ᵐ x ∂μ, MvPolynomial.eval x q = 0) → q = 0) (mean : List ℝ) (hml : mean.length = d)
    (P : CondMoments (List ℝ))
    (hP : ∀ x m, P.row full m x = full.map fun α => rawMomentsMvnKan (F *ᵥ (fun j : Fin d => x.getD j 0) - fun j : Fin d => m.getD j 0) Q fun j => α.getD j 0)
    (condMean : List ℝ → List ℝ) (hm : ∀ x, condMean x = List.ofFn (F *ᵥ fun j : Fin d => x.getD j 0)) :
    let r := momentQuadratureND B (full.map fun α => ∫ x, ∏ j : Fin d, (x j - mean.getD j 0) ^ α.getD j 0 ∂μ) mats (some mean) none false ldl
    wsumVec d r condMean = List.ofFn (fun i : Fin d => ∫ x, x i ∂predLaw F Q μ) ∧
    ∀ m : List ℝ, wsumVec full.length r (P.row full m) = full.map fun α => ∫ x, ∏ j : Fin d, (x j - m.getD j 0) ^ α.getD j 0 ∂predLaw F Q μ := by
  intro r
  have hex := rule_exact_poly_central B hB ldl T μ hμ hne mean hml
  have hip := integrable_poly (predLaw_exp F hQ μ hμ)
  have hN := T.hN
  have key : ∀ (m : Fin d → ℝ) (mi : Fin d → ℕ), ∑ i, mi i ≤ 2 * N - 1 →
      integND r (fun x => rawMomentsMvnKan (F *ᵥ (fun j : Fin d => x.getD j 0) - m) Q mi) = ∫ x, ∏ j : Fin d, (x j - m j) ^ mi j ∂predLaw F Q μ := by
    intro m mi hmi
    obtain ⟨p, hp1, hp2⟩ := exists_kanPoly F Q m mi
    have h1 := hex p (hp1.trans hmi)
    simp only [hp2] at h1
    rw [h1, integral_predLaw F Q μ (fun x => ∏ j : Fin d, (x j - m j) ^ mi j) (by fun_prop) (by
      refine (hip (∏ j, (MvPolynomial.X j - MvPolynomial.C (m j)) ^ mi j)).congr (.of_forall fun x => ?_)
      dsimp only
      rw [map_prod]
      exact Finset.prod_congr rfl fun j _ => by rw [map_pow, map_sub, MvPolynomial.eval_X, MvPolynomial.eval_C])]
    exact integral_congr_ae (.of_forall fun x => kan_eq_noise F hQ x m mi)
  constructor
  · apply List.ext_getElem
    · simp [wsumVec]
    · intro i h1 h2
      have hi : i < d := by simpa [wsumVec] using h1
      have h := key 0 (Pi.single ⟨i, hi⟩ 1) (by rw [Finset.sum_pi_single']; simp; omega)
      have e : ∀ x : Fin d → ℝ, rawMomentsMvnKan x Q (Pi.single ⟨i, hi⟩ 1) = x ⟨i, hi⟩ := fun x => by
        rw [rawKan_eq_integral _ hQ]
        simp [Pi.single_apply, Finset.prod_ite_eq', pow_ite, mvn_mean x hQ]
      simp only [e, sub_zero, Pi.zero_apply, Pi.single_apply, pow_ite, pow_one, pow_zero, Finset.prod_ite_eq', Finset.mem_univ, if_true] at h
      simp only [wsumVec, List.getElem_map, List.getElem_range, FilterND.wsum_eq, hm, List.getElem_ofFn]
      rw [← h]
      refine congrArg (integND r) (funext fun x => ?_)
      simp [List.getD_eq_getElem?_getD, hi]
  · intro m
    apply List.ext_getElem
    · simp [wsumVec]
    · intro i h1 h2
      have hi : i < full.length := by simpa using h2
      obtain ⟨ha1, _, ha2⟩ := T.mem_full.1 (List.getElem_mem hi)
      have h := key (fun j => m.getD j 0) (fun j => (full[i]).getD j 0) (by
        rw [← List.sum_ofFn, ofFn_getD _ ha1]
        exact ha2)
      simp only [wsumVec, List.getElem_map, List.getElem_range, FilterND.wsum_eq, hP]
      rw [← h]
      refine congrArg (integND r) (funext fun x => ?_)
      simp [List.getD_eq_getElem?_getD, hi]

/-! ### the law predicted from a Gaussian sum -/

theorem predLaw_zero (F Q : Matrix (Fin d) (Fin d) ℝ) : predLaw F Q 0 = 0 := by simp [predLaw]

theorem predLaw_add (F Q : Matrix (Fin d) (Fin d) ℝ) (μ ν : Measure (Fin d → ℝ)) [SFinite μ] [SFinite ν] :
    predLaw F Q (μ + ν) = predLaw F Q μ + predLaw F Q ν := by
  rw [predLaw, Measure.add_prod, Measure.map_add _ _ (continuous_pred F).measurable]
  rfl

theorem predLaw_smul (F Q : Matrix (Fin d) (Fin d) ℝ) (μ : Measure (Fin d → ℝ)) [SFinite μ] (c : ENNReal) :
    predLaw F Q (c • μ) = c • predLaw F Q μ := by
  rw [predLaw, Measure.prod_smul_left, Measure.map_smul]
  rfl

/-- a linear image of a normal vector plus independent normal noise is normal. -/
theorem predLaw_mvn (F : Matrix (Fin d) (Fin d) ℝ) {Q P : Matrix (Fin d) (Fin d) ℝ} (hQ : Q.PosSemidef) (hP : P.PosSemidef) (m : Fin d → ℝ) :
    predLaw F Q ((mvn m P).map WithLp.ofLp) = (mvn (F *ᵥ m) (F * P * Fᵀ + Q)).map WithLp.ofLp := by
  have hFP : (F * P * Fᵀ + Q).PosSemidef := by
    have := hP.mul_mul_conjTranspose_same F
    rw [conjTranspose_eq_transpose_of_trivial] at this
    exact this.add hQ
  have hmt : Measurable (WithLp.toLp 2 : (Fin d → ℝ) → EuclideanSpace ℝ (Fin d)) := (PiLp.continuous_toLp 2 _).measurable
  have key : (predLaw F Q ((mvn m P).map WithLp.ofLp)).map (WithLp.toLp 2) = mvn (F *ᵥ m) (F * P * Fᵀ + Q) := by
    have : IsProbabilityMeasure ((mvn m P).map (WithLp.ofLp : EuclideanSpace ℝ (Fin d) → Fin d → ℝ)) :=
      Measure.isProbabilityMeasure_map measurable_ofLp.aemeasurable
    have : IsProbabilityMeasure ((predLaw F Q ((mvn m P).map WithLp.ofLp)).map (WithLp.toLp 2 : (Fin d → ℝ) → EuclideanSpace ℝ (Fin d))) :=
      Measure.isProbabilityMeasure_map hmt.aemeasurable
    apply Measure.ext_of_charFun (E := EuclideanSpace ℝ (Fin d))
    ext t
    rw [charFun_multivariateGaussian hFP, charFun_apply, integral_map hmt.aemeasurable (by fun_prop), predLaw,
      integral_map (continuous_pred F).measurable.aemeasurable (by
        exact (Continuous.comp (g := fun x : EuclideanSpace ℝ (Fin d) => Complex.exp (inner ℝ x t * Complex.I)) (by fun_prop)
          (PiLp.continuous_toLp 2 _)).aestronglyMeasurable)]
    have e : ∀ p : (Fin d → ℝ) × (Fin d → ℝ), Complex.exp (inner ℝ (WithLp.toLp 2 (F *ᵥ p.1 + p.2) : EuclideanSpace ℝ (Fin d)) t * Complex.I)
        = Complex.exp (inner ℝ (WithLp.toLp 2 p.1 : EuclideanSpace ℝ (Fin d)) (WithLp.toLp 2 (Fᵀ *ᵥ WithLp.ofLp t)) * Complex.I)
          * Complex.exp (inner ℝ (WithLp.toLp 2 p.2 : EuclideanSpace ℝ (Fin d)) t * Complex.I) := fun p => by
      rw [← Complex.exp_add, ← add_mul, ← Complex.ofReal_add]
      congr 3
      simp only [EuclideanSpace.inner_eq_star_dotProduct, star_trivial, dotProduct_add]
      rw [dotProduct_mulVec, mulVec_transpose]
    simp only [e]
    rw [integral_prod_mul (fun x : Fin d → ℝ => Complex.exp (inner ℝ (WithLp.toLp 2 x : EuclideanSpace ℝ (Fin d)) (WithLp.toLp 2 (Fᵀ *ᵥ WithLp.ofLp t)) * Complex.I))
      (fun x : Fin d → ℝ => Complex.exp (inner ℝ (WithLp.toLp 2 x : EuclideanSpace ℝ (Fin d)) t * Complex.I))]
    have hcf : ∀ (m' : Fin d → ℝ) {P' : Matrix (Fin d) (Fin d) ℝ} (_ : P'.PosSemidef) (s : EuclideanSpace ℝ (Fin d)),
        ∫ x, Complex.exp (inner ℝ (WithLp.toLp 2 x : EuclideanSpace ℝ (Fin d)) s * Complex.I) ∂((mvn m' P').map (WithLp.ofLp : EuclideanSpace ℝ (Fin d) → Fin d → ℝ))
          = charFun (mvn m' P') s := fun m' P' _ s => by
      rw [charFun_apply, integral_map measurable_ofLp.aemeasurable (by
        exact (Continuous.comp (g := fun x : EuclideanSpace ℝ (Fin d) => Complex.exp (inner ℝ x s * Complex.I)) (by fun_prop)
          (PiLp.continuous_toLp 2 _)).aestronglyMeasurable)]
    rw [hcf m hP, noiseLaw, hcf 0 hQ, charFun_multivariateGaussian hP, charFun_multivariateGaussian hQ, ← Complex.exp_add]
    congr 1
    have h1 : inner ℝ (WithLp.toLp 2 (Fᵀ *ᵥ t.ofLp) : EuclideanSpace ℝ (Fin d)) (WithLp.toLp 2 m)
        = inner ℝ t (WithLp.toLp 2 (F *ᵥ m) : EuclideanSpace ℝ (Fin d)) := by
      simp only [EuclideanSpace.inner_eq_star_dotProduct, star_trivial]
      rw [dotProduct_comm, ← dotProduct_comm t.ofLp, dotProduct_mulVec, mulVec_transpose]
    have h2 : t.ofLp ⬝ᵥ (F * P * Fᵀ + Q) *ᵥ t.ofLp = (Fᵀ *ᵥ t.ofLp) ⬝ᵥ P *ᵥ (Fᵀ *ᵥ t.ofLp) + t.ofLp ⬝ᵥ Q *ᵥ t.ofLp := by
      rw [add_mulVec, dotProduct_add, ← mulVec_mulVec, ← mulVec_mulVec, dotProduct_mulVec, mulVec_transpose]
    have h3 : inner ℝ t (WithLp.toLp 2 0 : EuclideanSpace ℝ (Fin d)) = (0 : ℝ) := by simp
    rw [h1, h2, h3]
    push_cast
    ring
  rw [← key, Measure.map_map measurable_ofLp hmt]
  simp [Function.comp_def]

/-- the law predicted from a Gaussian sum is the Gaussian sum of the predicted components. -/
theorem predLaw_gaussSum (F : Matrix (Fin d) (Fin d) ℝ) {Q : Matrix (Fin d) (Fin d) ℝ} (hQ : Q.PosSemidef) (comps : List (Component d))
    (hcov : ∀ c ∈ comps, c.cov.PosSemidef) :
    predLaw F Q (gaussSumLaw comps) = gaussSumLaw (comps.map fun c => ⟨F *ᵥ c.mean, F * c.cov * Fᵀ + Q, c.weight⟩) := by
  induction comps with
  | nil => simp [gaussSumLaw, mixtureND, predLaw_zero]
  | cons c l ih =>
    have e : ∀ (c : Component d) (l : List (Component d)), gaussSumLaw (c :: l)
        = ENNReal.ofReal c.weight • (mvn c.mean c.cov).map WithLp.ofLp + gaussSumLaw l := fun c l => by
      rw [gaussSumLaw, mixtureND, List.map_cons, List.sum_cons, Measure.map_add _ _ measurable_ofLp, Measure.map_smul]
      rfl
    have hs : ∀ l : List (Component d), SFinite (gaussSumLaw l) := fun l => by
      induction l with
      | nil => simp only [gaussSumLaw, mixtureND, List.map_nil, List.sum_nil, Measure.map_zero]; infer_instance
      | cons c l ih => rw [e]; infer_instance
    have := hs l
    rw [e, List.map_cons, e, predLaw_add, predLaw_smul, predLaw_mvn F hQ (hcov c (by simp)), ih fun c' h => hcov c' (by simp [h])]

end Mfs.Props

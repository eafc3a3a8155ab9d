import Verif.Lemmas.Kan
import Mathlib.Analysis.Calculus.ParametricIntegral
import Mathlib.Analysis.Calculus.LineDeriv.Basic
import Mathlib.Analysis.SpecialFunctions.ExpDeriv

/-!
# Derivatives of the moment-generating function of a multivariate normal law
-/

namespace Mfs.MomentsND

open Matrix MeasureTheory ProbabilityTheory
open scoped NNReal

variable {d : ℕ}

theorem measurable_dot (z : Fin d → ℝ) : Measurable fun x : EuclideanSpace ℝ (Fin d) => z ⬝ᵥ (x : Fin d → ℝ) := by
  unfold dotProduct; fun_prop

theorem integrable_exp_dot (mean : Fin d → ℝ) {cov : Matrix (Fin d) (Fin d) ℝ} (hcov : cov.PosSemidef) (z : Fin d → ℝ) :
    Integrable (fun x : EuclideanSpace ℝ (Fin d) => Real.exp (z ⬝ᵥ (x : Fin d → ℝ))) (mvn mean cov) := by
  have := integrable_exp_mul_gaussianReal (μ := z ⬝ᵥ mean) (v := (z ⬝ᵥ cov *ᵥ z).toNNReal) 1
  rw [← map_linear_mvn mean hcov z, integrable_map_measure (by fun_prop) (measurable_dot z).aemeasurable] at this
  simpa [Function.comp_def] using this

theorem integral_exp_dot (mean : Fin d → ℝ) {cov : Matrix (Fin d) (Fin d) ℝ} (hcov : cov.PosSemidef) (z : Fin d → ℝ) :
    ∫ x : EuclideanSpace ℝ (Fin d), Real.exp (z ⬝ᵥ (x : Fin d → ℝ)) ∂mvn mean cov
      = Real.exp (z ⬝ᵥ mean + 0.5 * (z ⬝ᵥ cov *ᵥ z)) := by
  have h0 : 0 ≤ z ⬝ᵥ cov *ᵥ z := by simpa using hcov.dotProduct_mulVec_nonneg z
  have h := mgf_gaussianReal (map_linear_mvn mean hcov z) 1
  rw [mgf, Real.coe_toNNReal _ h0] at h
  simp only [one_mul, mul_one, one_pow] at h
  rw [h]
  congr 1
  ring

/-- moments under the exponentially tilted law. -/
noncomputable def tilted (mean : Fin d → ℝ) (cov : Matrix (Fin d) (Fin d) ℝ) (a : Fin d → ℕ) (z : Fin d → ℝ) : ℝ :=
  ∫ x : EuclideanSpace ℝ (Fin d), (∏ i, x i ^ a i) * Real.exp (z ⬝ᵥ (x : Fin d → ℝ)) ∂mvn mean cov

theorem integrable_tilted (mean : Fin d → ℝ) {cov : Matrix (Fin d) (Fin d) ℝ} (hcov : cov.PosSemidef) (a : Fin d → ℕ) (z : Fin d → ℝ) :
    Integrable (fun x : EuclideanSpace ℝ (Fin d) => (∏ i, x i ^ a i) * Real.exp (z ⬝ᵥ (x : Fin d → ℝ))) (mvn mean cov) := by
  have hm := measurable_dot z
  have h1 := integrable_monomial mean hcov (fun i => a i * 2)
  have h2 := integrable_exp_dot mean hcov ((2 : ℝ) • z)
  refine (h1.add h2).mono' (by fun_prop) (Filter.Eventually.of_forall fun x => ?_)
  have e1 : ∏ i, x i ^ (a i * 2) = (∏ i, x i ^ a i) ^ 2 := by
    rw [← Finset.prod_pow]; exact Finset.prod_congr rfl fun i _ => pow_mul _ _ _
  have e2 : Real.exp (((2 : ℝ) • z) ⬝ᵥ (x : Fin d → ℝ)) = Real.exp (z ⬝ᵥ (x : Fin d → ℝ)) ^ 2 := by
    rw [← Real.exp_nat_mul, smul_dotProduct]; norm_num
  rw [Pi.add_apply, e1, e2, Real.norm_eq_abs, abs_mul, ← sq_abs (∏ i, x i ^ a i), Real.abs_exp]
  nlinarith [sq_nonneg (|∏ i, x i ^ a i| - Real.exp (z ⬝ᵥ (x : Fin d → ℝ))), Real.exp_pos (z ⬝ᵥ (x : Fin d → ℝ)), abs_nonneg (∏ i, x i ^ a i),
    sq_nonneg (|∏ i, x i ^ a i|), sq_nonneg (Real.exp (z ⬝ᵥ (x : Fin d → ℝ)))]

theorem prod_succ (a : Fin d → ℕ) (k : Fin d) (x : Fin d → ℝ) : ∏ i, x i ^ (a + Pi.single k 1 : Fin d → ℕ) i = (∏ i, x i ^ a i) * x k := by
  simp only [Pi.add_apply, pow_add, Finset.prod_mul_distrib]
  congr 1
  rw [Finset.prod_eq_single k]
  · simp
  · intro i _ hne; simp [Pi.single_eq_of_ne hne]
  · simp

theorem hasLineDerivAt_tilted (mean : Fin d → ℝ) {cov : Matrix (Fin d) (Fin d) ℝ} (hcov : cov.PosSemidef) (a : Fin d → ℕ) (z : Fin d → ℝ)
    (k : Fin d) : HasLineDerivAt ℝ (tilted mean cov a) (tilted mean cov (a + Pi.single k 1) z) z (Pi.single k 1) := by
  unfold HasLineDerivAt tilted
  have hm := measurable_dot z
  have hdot : ∀ (t : ℝ) (x : EuclideanSpace ℝ (Fin d)), (z + t • Pi.single k (1 : ℝ)) ⬝ᵥ (x : Fin d → ℝ) = z ⬝ᵥ (x : Fin d → ℝ) + t * x k := by
    intro t x
    rw [add_dotProduct, smul_dotProduct, single_dotProduct, one_mul, smul_eq_mul]
  simp only [hdot]
  have hb1 := (integrable_tilted mean hcov (a + Pi.single k 1) (z + (1 : ℝ) • Pi.single k 1)).abs
  have hb2 := (integrable_tilted mean hcov (a + Pi.single k 1) (z + (-1 : ℝ) • Pi.single k 1)).abs
  simp only [hdot] at hb1 hb2
  have := (hasDerivAt_integral_of_dominated_loc_of_deriv_le (μ := mvn mean cov) (x₀ := (0 : ℝ)) (s := Metric.ball 0 1)
    (F := fun (t : ℝ) (x : EuclideanSpace ℝ (Fin d)) => (∏ i, x i ^ a i) * Real.exp (z ⬝ᵥ (x : Fin d → ℝ) + t * x k))
    (F' := fun (t : ℝ) (x : EuclideanSpace ℝ (Fin d)) =>
      (∏ i, x i ^ (a + Pi.single k 1 : Fin d → ℕ) i) * Real.exp (z ⬝ᵥ (x : Fin d → ℝ) + t * x k))
    (bound := fun x => |(∏ i, x i ^ (a + Pi.single k 1 : Fin d → ℕ) i) * Real.exp (z ⬝ᵥ (x : Fin d → ℝ) + 1 * x k)|
      + |(∏ i, x i ^ (a + Pi.single k 1 : Fin d → ℕ) i) * Real.exp (z ⬝ᵥ (x : Fin d → ℝ) + -1 * x k)|)
    (Metric.ball_mem_nhds _ one_pos) (Filter.Eventually.of_forall fun t => by fun_prop) ?_ (by fun_prop) ?_ (hb1.add hb2) ?_).2
  · refine this.congr_deriv ?_
    simp
  · simpa using integrable_tilted mean hcov a z
  · refine Filter.Eventually.of_forall fun x t ht => ?_
    rw [Real.norm_eq_abs, abs_mul, abs_mul, abs_mul, ← mul_add]
    refine mul_le_mul_of_nonneg_left ?_ (abs_nonneg _)
    rw [Real.abs_exp, Real.abs_exp, Real.abs_exp]
    have ht' : |t| < 1 := by simpa using ht
    rw [abs_lt] at ht'
    rcases le_total 0 (x k) with h | h
    · have : Real.exp (z ⬝ᵥ (x : Fin d → ℝ) + t * x k) ≤ Real.exp (z ⬝ᵥ (x : Fin d → ℝ) + 1 * x k) := by
        apply Real.exp_le_exp.mpr; nlinarith
      linarith [Real.exp_pos (z ⬝ᵥ (x : Fin d → ℝ) + -1 * x k)]
    · have : Real.exp (z ⬝ᵥ (x : Fin d → ℝ) + t * x k) ≤ Real.exp (z ⬝ᵥ (x : Fin d → ℝ) + -1 * x k) := by
        apply Real.exp_le_exp.mpr; nlinarith
      linarith [Real.exp_pos (z ⬝ᵥ (x : Fin d → ℝ) + 1 * x k)]
  · refine Filter.Eventually.of_forall fun x t _ => ?_
    have h1 : HasDerivAt (fun t : ℝ => z ⬝ᵥ (x : Fin d → ℝ) + t * x k) (x k) t := by
      simpa using ((hasDerivAt_id t).mul_const (x k)).const_add (z ⬝ᵥ (x : Fin d → ℝ))
    refine (h1.exp.const_mul _).congr_deriv ?_
    rw [prod_succ]
    ring

/-- component `k` of the gradient. -/
noncomputable def partialD (k : Fin d) (g : (Fin d → ℝ) → ℝ) : (Fin d → ℝ) → ℝ := fun x => fderiv ℝ g x (Pi.single k 1)

theorem partialD_tilted (mean : Fin d → ℝ) {cov : Matrix (Fin d) (Fin d) ℝ} (hcov : cov.PosSemidef) (a : Fin d → ℕ)
    (hc : ContDiff ℝ ⊤ (tilted mean cov a)) (k : Fin d) :
    partialD k (tilted mean cov a) = tilted mean cov (a + Pi.single k 1) ∧ ContDiff ℝ ⊤ (tilted mean cov (a + Pi.single k 1)) := by
  have h1 : partialD k (tilted mean cov a) = tilted mean cov (a + Pi.single k 1) := by
    funext z
    rw [partialD, ← (hc.differentiable (by simp)).differentiableAt.lineDeriv_eq_fderiv, (hasLineDerivAt_tilted mean hcov a z k).lineDeriv]
  refine ⟨h1, ?_⟩
  rw [← h1]
  exact (hc.fderiv_right (by simp)).clm_apply contDiff_const

theorem partialD_iter_tilted (mean : Fin d → ℝ) {cov : Matrix (Fin d) (Fin d) ℝ} (hcov : cov.PosSemidef) (k : Fin d) (n : ℕ) (a : Fin d → ℕ)
    (hc : ContDiff ℝ ⊤ (tilted mean cov a)) :
    (partialD k)^[n] (tilted mean cov a) = tilted mean cov (a + Pi.single k n) ∧ ContDiff ℝ ⊤ (tilted mean cov (a + Pi.single k n)) := by
  induction n generalizing a with
  | zero => simpa using hc
  | succ n ih =>
    obtain ⟨h1, h2⟩ := partialD_tilted mean hcov a hc k
    rw [Function.iterate_succ_apply, h1]
    have := ih _ h2
    rwa [add_assoc, ← Pi.single_add, add_comm 1 n] at this

theorem gradient_tilted (mean : Fin d → ℝ) {cov : Matrix (Fin d) (Fin d) ℝ} (hcov : cov.PosSemidef) (mi : Fin d → ℕ) (l : List (Fin d))
    (a : Fin d → ℕ) (hc : ContDiff ℝ ⊤ (tilted mean cov a)) :
    l.foldl (fun f k => (partialD k)^[mi k] f) (tilted mean cov a) = tilted mean cov (a + (l.map fun k => Pi.single k (mi k)).sum) := by
  induction l generalizing a with
  | nil => simp
  | cons k l ih =>
    obtain ⟨h1, h2⟩ := partialD_iter_tilted mean hcov k (mi k) a hc
    rw [List.foldl_cons, h1, ih _ h2, List.map_cons, List.sum_cons, add_assoc]

theorem mgf_eq_integral (mean : Fin d → ℝ) {cov : Matrix (Fin d) (Fin d) ℝ} (hcov : cov.PosSemidef) (mi : Fin d → ℕ) :
    rawMomentsMvnMgf mean cov mi = ∫ x : EuclideanSpace ℝ (Fin d), ∏ i, x i ^ mi i ∂mvn mean cov := by
  have h0 : (fun z : Fin d → ℝ => Real.exp (z ⬝ᵥ mean + 0.5 * (z ⬝ᵥ cov *ᵥ z))) = tilted mean cov 0 := by
    funext z
    rw [tilted, ← integral_exp_dot mean hcov]
    simp
  have hc : ContDiff ℝ ⊤ (tilted mean cov 0) := by
    rw [← h0]
    refine Real.contDiff_exp.comp ?_
    simp only [dotProduct, Matrix.mulVec]
    fun_prop
  have hs : ((List.finRange d).map fun k => (Pi.single k (mi k) : Fin d → ℕ)).sum = mi := by
    rw [← List.ofFn_eq_map, List.sum_ofFn]
    exact Finset.univ_sum_single mi
  have := gradient_tilted mean hcov mi (List.finRange d) 0 hc
  unfold rawMomentsMvnMgf gradientWrtMultiIndex
  rw [h0]
  change (List.foldl (fun f k => (partialD k)^[mi k] f) (tilted mean cov 0) (List.finRange d)) 0 = _
  rw [this, hs, zero_add, tilted]
  simp

end Mfs.MomentsND

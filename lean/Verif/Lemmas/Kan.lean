import Verif.Model.MomentsND
import Verif.Lemmas.GaussReal
import Mathlib.Algebra.Group.ForwardDiff
import Mathlib.Data.Nat.Choose.Multinomial
import Mathlib.Probability.Distributions.Gaussian.Multivariate
import Mathlib.Algebra.BigOperators.Ring.Finset

/-!
# Kan's polarisation identity and moments of multivariate normal laws
-/

namespace Mfs.MomentsND

open Matrix Finset MeasureTheory ProbabilityTheory
open scoped NNReal

variable {d : ℕ}

/-- the sums `Σ_v (-1)^v C(n, v) (n/2 - v)^a` are forward differences. -/
theorem kan_one_dim (n a : ℕ) :
    ∑ v ∈ range (n + 1), (-1 : ℝ) ^ v * (n.choose v : ℝ) * ((n : ℝ) / 2 - v) ^ a = (fwdDiff 1)^[n] (fun r : ℝ => r ^ a) (-(n : ℝ) / 2) := by
  rw [fwdDiff_iter_eq_sum_shift, ← Finset.sum_range_reflect]
  refine Finset.sum_congr rfl fun k hk => ?_
  have hk' : k ≤ n := Nat.lt_succ_iff.mp (mem_range.mp hk)
  rw [show n + 1 - 1 - k = n - k by omega, Nat.choose_symm hk', Nat.cast_sub hk']
  simp only [zsmul_eq_mul, nsmul_eq_mul, mul_one]
  push_cast
  congr 1
  congr 1
  ring

theorem kan_one_dim_lt {n a : ℕ} (h : a < n) :
    ∑ v ∈ range (n + 1), (-1 : ℝ) ^ v * (n.choose v : ℝ) * ((n : ℝ) / 2 - v) ^ a = 0 := by
  rw [kan_one_dim, fwdDiff_iter_pow_eq_zero_of_lt h]; rfl

theorem kan_one_dim_eq (n : ℕ) :
    ∑ v ∈ range (n + 1), (-1 : ℝ) ^ v * (n.choose v : ℝ) * ((n : ℝ) / 2 - v) ^ n = n.factorial := by
  rw [kan_one_dim, fwdDiff_iter_eq_factorial]; rfl

theorem kanSignComb_eq (mi v : Fin d → ℕ) : kanSignComb mi v = ∏ i, ((-1 : ℝ) ^ v i * ((mi i).choose (v i) : ℝ)) := by
  rw [kanSignComb, Finset.prod_mul_distrib, Finset.prod_pow_eq_pow_sum]

theorem kan_multi (mi k : Fin d → ℕ) :
    ∑ v ∈ kanRows mi, kanSignComb mi v * ∏ i, kanH mi v i ^ k i
      = ∏ i, ∑ v ∈ range (mi i + 1), (-1 : ℝ) ^ v * ((mi i).choose v : ℝ) * ((mi i : ℝ) / 2 - v) ^ k i := by
  rw [Finset.prod_univ_sum]
  refine Finset.sum_congr rfl fun v _ => ?_
  rw [kanSignComb_eq, ← Finset.prod_mul_distrib]
  rfl

/-- Kan's identity: a monomial is a combination of powers of linear forms. -/
theorem polarisation (mi : Fin d → ℕ) (x : Fin d → ℝ) :
    ∑ v ∈ kanRows mi, kanSignComb mi v * (kanH mi v ⬝ᵥ x) ^ (∑ i, mi i) = ((∑ i, mi i).factorial : ℝ) * ∏ i, x i ^ mi i := by
  have h1 : ∀ v, (kanH mi v ⬝ᵥ x) ^ (∑ i, mi i) = ∑ k ∈ piAntidiag univ (∑ i, mi i),
      (Nat.multinomial univ k : ℝ) * ((∏ i, kanH mi v i ^ k i) * ∏ i, x i ^ k i) := by
    intro v
    rw [dotProduct, Finset.sum_pow_eq_sum_piAntidiag]
    refine Finset.sum_congr rfl fun k _ => ?_
    rw [← Finset.prod_mul_distrib]
    simp only [mul_pow]
  have h2 : ∑ v ∈ kanRows mi, kanSignComb mi v * (kanH mi v ⬝ᵥ x) ^ (∑ i, mi i)
      = ∑ k ∈ piAntidiag univ (∑ i, mi i), (Nat.multinomial univ k : ℝ) * (∏ i, x i ^ k i)
        * ∑ v ∈ kanRows mi, kanSignComb mi v * ∏ i, kanH mi v i ^ k i := by
    simp only [h1, Finset.mul_sum]
    rw [Finset.sum_comm]
    refine Finset.sum_congr rfl fun k _ => Finset.sum_congr rfl fun v _ => ?_
    ring
  rw [h2, Finset.sum_eq_single mi]
  · rw [kan_multi]
    simp only [kan_one_dim_eq]
    have := Nat.multinomial_spec univ mi
    rw [← this]
    push_cast
    ring
  · intro k hk hne
    rw [kan_multi]
    have hsum : ∑ i, k i = ∑ i, mi i := (mem_piAntidiag.mp hk).1
    obtain ⟨i, hi⟩ : ∃ i, k i < mi i := by
      by_contra hcon
      push Not at hcon
      refine hne ?_
      funext i
      exact (((Finset.sum_eq_sum_iff_of_le fun i _ => hcon i).mp hsum.symm) i (mem_univ i)).symm
    exact mul_eq_zero_of_right _ (Finset.prod_eq_zero (mem_univ i) (kan_one_dim_lt hi))
  · intro h
    exact absurd (mem_piAntidiag.mpr ⟨rfl, fun _ _ => mem_univ _⟩) h

theorem sum_even (f : ℕ → ℝ) (s : ℕ) (hodd : ∀ k, f (2 * k + 1) = 0) :
    ∑ i ∈ range (s + 1), f i = ∑ r ∈ range (s / 2 + 1), f (2 * r) := by
  induction s with
  | zero => simp
  | succ s ih =>
    rw [Finset.sum_range_succ, ih]
    rcases Nat.even_or_odd' s with ⟨k, rfl | rfl⟩
    · rw [hodd, show (2 * k + 1) / 2 = 2 * k / 2 by omega, add_zero]
    · rw [show (2 * k + 1 + 1) / 2 = (2 * k + 1) / 2 + 1 by omega, Finset.sum_range_succ _ ((2 * k + 1) / 2 + 1)]
      congr 2
      omega

/-- the moments of a one-dimensional normal law. -/
theorem gauss_moment_kan (m : ℝ) (v : ℝ≥0) (s : ℕ) : ∫ x, x ^ s ∂gaussianReal m v =
    (s.factorial : ℝ) * ∑ r ∈ range (s / 2 + 1), ((v : ℝ) / 2) ^ r * m ^ (s - 2 * r) / ((r.factorial : ℝ) * ((s - 2 * r).factorial : ℝ)) := by
  rw [gauss_moment, ← Finset.sum_range_reflect]
  rw [Finset.sum_congr rfl (g := fun i => if i ≤ s then ((s.choose i : ℝ) * m ^ (s - i) * √(v : ℝ) ^ i) * ∫ z : ℝ, z ^ i ∂gaussianReal 0 1 else 0)]
  · rw [sum_even]
    · rw [Finset.mul_sum]
      refine Finset.sum_congr rfl fun r hr => ?_
      have hr' : 2 * r ≤ s := by have := mem_range.mp hr; omega
      rw [if_pos hr', std_moment_even, pow_mul, Real.sq_sqrt (NNReal.coe_nonneg v), Nat.choose_eq_factorial_div_factorial hr',
        Nat.cast_div (Nat.factorial_mul_factorial_dvd_factorial hr') (by positivity)]
      have h1 : ((2 * r).factorial : ℝ) ≠ 0 := by positivity
      have h2 : ((s - 2 * r).factorial : ℝ) ≠ 0 := by positivity
      have h3 : (r.factorial : ℝ) ≠ 0 := by positivity
      rw [div_pow]
      push_cast
      field_simp
    · intro k
      rw [std_moment_odd]
      simp
  · intro i hi
    have hi' : i ≤ s := Nat.lt_succ_iff.mp (mem_range.mp hi)
    rw [if_pos hi', show s + 1 - 1 - i = s - i by omega, Nat.sub_sub_self hi', Nat.choose_symm hi']

/-- the law of a random vector `N(mean, cov)`. -/
noncomputable abbrev mvn (mean : Fin d → ℝ) (cov : Matrix (Fin d) (Fin d) ℝ) : Measure (EuclideanSpace ℝ (Fin d)) :=
  multivariateGaussian (WithLp.toLp 2 mean) cov

theorem map_linear_mvn (mean : Fin d → ℝ) {cov : Matrix (Fin d) (Fin d) ℝ} (hcov : cov.PosSemidef) (h : Fin d → ℝ) :
    (mvn mean cov).map (fun x : EuclideanSpace ℝ (Fin d) => h ⬝ᵥ (x : Fin d → ℝ)) = gaussianReal (h ⬝ᵥ mean) (h ⬝ᵥ cov *ᵥ h).toNNReal := by
  have hL : (fun x : EuclideanSpace ℝ (Fin d) => h ⬝ᵥ (x : Fin d → ℝ)) = innerSL ℝ (WithLp.toLp 2 h) := by
    funext x
    simp [PiLp.inner_apply, dotProduct, mul_comm]
  rw [hL, IsGaussian.map_eq_gaussianReal, ContinuousLinearMap.integral_comp_id_comm IsGaussian.integrable_id]
  congr 1
  · simp [PiLp.inner_apply, dotProduct, mul_comm]
  · congr 1
    have := covarianceBilin_multivariateGaussian (μ := WithLp.toLp 2 mean) hcov (WithLp.toLp 2 h) (WithLp.toLp 2 h)
    rw [covarianceBilin_self IsGaussian.memLp_two_id] at this
    exact this

theorem integrable_linear_pow (mean : Fin d → ℝ) {cov : Matrix (Fin d) (Fin d) ℝ} (hcov : cov.PosSemidef) (h : Fin d → ℝ) (s : ℕ) :
    Integrable (fun x : EuclideanSpace ℝ (Fin d) => (h ⬝ᵥ (x : Fin d → ℝ)) ^ s) (mvn mean cov) := by
  have hm : Measurable fun x : EuclideanSpace ℝ (Fin d) => h ⬝ᵥ (x : Fin d → ℝ) := by
    unfold dotProduct; fun_prop
  have := integrable_pow_gaussianReal (h ⬝ᵥ mean) (h ⬝ᵥ cov *ᵥ h).toNNReal s
  rw [← map_linear_mvn mean hcov h, integrable_map_measure (by fun_prop) hm.aemeasurable] at this
  exact this

theorem integral_linear_pow (mean : Fin d → ℝ) {cov : Matrix (Fin d) (Fin d) ℝ} (hcov : cov.PosSemidef) (h : Fin d → ℝ) (s : ℕ) :
    ∫ x : EuclideanSpace ℝ (Fin d), (h ⬝ᵥ (x : Fin d → ℝ)) ^ s ∂mvn mean cov = (s.factorial : ℝ) * ∑ r ∈ range (s / 2 + 1),
      ((h ⬝ᵥ cov *ᵥ h) / 2) ^ r * (h ⬝ᵥ mean) ^ (s - 2 * r) / ((r.factorial : ℝ) * ((s - 2 * r).factorial : ℝ)) := by
  have hm : Measurable fun x : EuclideanSpace ℝ (Fin d) => h ⬝ᵥ (x : Fin d → ℝ) := by
    unfold dotProduct; fun_prop
  have h0 : 0 ≤ h ⬝ᵥ cov *ᵥ h := by simpa using hcov.dotProduct_mulVec_nonneg h
  have := gauss_moment_kan (h ⬝ᵥ mean) (h ⬝ᵥ cov *ᵥ h).toNNReal s
  rw [← map_linear_mvn mean hcov h, integral_map hm.aemeasurable (by fun_prop), Real.coe_toNNReal _ h0] at this
  exact this

theorem monomial_eq (mi : Fin d → ℕ) (x : Fin d → ℝ) : ∏ i, x i ^ mi i =
    (1 / ((∑ i, mi i).factorial : ℝ)) * ∑ v ∈ kanRows mi, kanSignComb mi v * (kanH mi v ⬝ᵥ x) ^ (∑ i, mi i) := by
  rw [polarisation]
  have : ((∑ i, mi i).factorial : ℝ) ≠ 0 := by positivity
  field_simp

theorem integrable_monomial (mean : Fin d → ℝ) {cov : Matrix (Fin d) (Fin d) ℝ} (hcov : cov.PosSemidef) (mi : Fin d → ℕ) :
    Integrable (fun x : EuclideanSpace ℝ (Fin d) => ∏ i, x i ^ mi i) (mvn mean cov) := by
  simp only [monomial_eq mi]
  exact (integrable_finsetSum _ fun v _ => (integrable_linear_pow mean hcov _ _).const_mul _).const_mul _

theorem rawKan_eq_integral (mean : Fin d → ℝ) {cov : Matrix (Fin d) (Fin d) ℝ} (hcov : cov.PosSemidef) (mi : Fin d → ℕ) :
    rawMomentsMvnKan mean cov mi = ∫ x : EuclideanSpace ℝ (Fin d), ∏ i, x i ^ mi i ∂mvn mean cov := by
  simp only [monomial_eq mi]
  rw [integral_const_mul, integral_finsetSum _ fun v _ => (integrable_linear_pow mean hcov _ _).const_mul _]
  simp only [integral_const_mul, integral_linear_pow mean hcov]
  rw [rawMomentsMvnKan, Finset.mul_sum]
  refine Finset.sum_congr rfl fun v _ => ?_
  have : ((∑ i, mi i).factorial : ℝ) ≠ 0 := by positivity
  rw [← Finset.mul_sum]
  field_simp

/-- shifting a normal law. -/
theorem map_sub_mvn (mean m : Fin d → ℝ) (cov : Matrix (Fin d) (Fin d) ℝ) :
    (mvn mean cov).map (fun x => x - WithLp.toLp 2 m) = mvn (mean - m) cov := by
  unfold mvn multivariateGaussian
  rw [Measure.map_map (by fun_prop) (by fun_prop)]
  congr 1
  funext x
  ext i
  simp
  ring

theorem integral_shift_mvn (mean m : Fin d → ℝ) (cov : Matrix (Fin d) (Fin d) ℝ) (f : (Fin d → ℝ) → ℝ) (hf : Continuous f) :
    ∫ x : EuclideanSpace ℝ (Fin d), f (fun i => x i - m i) ∂mvn mean cov = ∫ x : EuclideanSpace ℝ (Fin d), f x ∂mvn (mean - m) cov := by
  rw [← map_sub_mvn, integral_map (by fun_prop)]
  · rfl
  · exact (hf.comp (by fun_prop)).aestronglyMeasurable

end Mfs.MomentsND

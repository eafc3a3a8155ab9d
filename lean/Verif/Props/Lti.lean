import Verif.Model.Utils
import Mathlib.Analysis.SpecialFunctions.Exponential
import Mathlib.Analysis.Calculus.Deriv.Mul
import Mathlib.Analysis.Calculus.Deriv.Prod
import Mathlib.Analysis.Calculus.MeanValue
import Mathlib.MeasureTheory.Integral.IntervalIntegral.FundThmCalculus
import Mathlib.LinearAlgebra.Matrix.PosDef
import Mathlib.Analysis.Normed.Algebra.MatrixExponential

/-!
# Property C54: discretisation of linear time-invariant SDEs
-/

namespace Mfs.Props

open Mfs.Utils Matrix NormedSpace

open scoped Matrix.Norms.Operator

variable {n w : ℕ}

local notation "Mat" n => Matrix (Fin n) (Fin n) ℝ

/-- `exp(s A) Q exp(s A)ᵀ`. -/
noncomputable def ltiSigma (A Q : Mat n) (s : ℝ) : Mat n := exp (s • A) * Q * exp (s • Aᵀ)

theorem exp_transpose_smul (A : Mat n) (s : ℝ) : (exp (s • A))ᵀ = exp (s • Aᵀ) := by
  rw [← transpose_smul, exp_transpose]

theorem hasDerivAt_exp_smul_mat {m : Type} [Fintype m] [DecidableEq m] (A : Matrix m m ℝ) (t : ℝ) :
    HasDerivAt (fun u : ℝ => exp (u • A)) (A * exp (t • A)) t := by
  exact hasDerivAt_exp_smul_const' (𝕂 := ℝ) A t

theorem hasDerivAt_ltiSigma (A Q : Mat n) (t : ℝ) :
    HasDerivAt (ltiSigma A Q) (A * ltiSigma A Q t + ltiSigma A Q t * Aᵀ) t := by
  have h1 := hasDerivAt_exp_smul_mat A t
  have h2 : HasDerivAt (fun u : ℝ => exp (u • Aᵀ)) (exp (t • Aᵀ) * Aᵀ) t := hasDerivAt_exp_smul_const (𝕂 := ℝ) Aᵀ t
  refine ((h1.mul_const Q).mul h2).congr_deriv ?_
  simp only [ltiSigma, Matrix.mul_assoc]

theorem continuous_ltiSigma (A Q : Mat n) : Continuous (ltiSigma A Q) :=
  continuous_iff_continuousAt.2 fun t => (hasDerivAt_ltiSigma A Q t).continuousAt

/-- `∫_0^t exp(s A) Q exp(s A)ᵀ ds`, entry by entry. -/
noncomputable def ltiCov (A Q : Mat n) (t : ℝ) : Mat n := Matrix.of fun i j => ∫ s in (0 : ℝ)..t, ltiSigma A Q s i j

theorem hasDerivAt_matrix {m k : Type} [Fintype m] [Fintype k] [DecidableEq m] [DecidableEq k] {f : ℝ → Matrix m k ℝ}
    {f' : Matrix m k ℝ} {t : ℝ} (h : ∀ i j, HasDerivAt (fun s => f s i j) (f' i j) t) : HasDerivAt f f' t := by
  have e : f = fun s => ∑ i, ∑ j, f s i j • Matrix.single i j (1 : ℝ) := by
    ext1 s
    conv_lhs => rw [matrix_eq_sum_single (f s)]
    simp [Matrix.smul_single]
  have e' : f' = ∑ i, ∑ j, f' i j • Matrix.single i j (1 : ℝ) := by
    conv_lhs => rw [matrix_eq_sum_single f']
    simp [Matrix.smul_single]
  rw [e, e']
  exact HasDerivAt.fun_sum fun i _ => HasDerivAt.fun_sum fun j _ => (h i j).smul_const _

theorem hasDerivAt_ltiCov (A Q : Mat n) (t : ℝ) : HasDerivAt (ltiCov A Q) (ltiSigma A Q t) t := by
  apply hasDerivAt_matrix
  intro i j
  have hc : Continuous fun s => ltiSigma A Q s i j := (continuous_ltiSigma A Q).matrix_elem i j
  exact intervalIntegral.integral_hasDerivAt_right (hc.intervalIntegrable _ _) (hc.stronglyMeasurableAtFilter _ _) hc.continuousAt

theorem ltiCov_zero (A Q : Mat n) : ltiCov A Q 0 = 0 := by
  ext i j; simp [ltiCov]

theorem ltiSigma_zero (A Q : Mat n) : ltiSigma A Q 0 = Q := by
  simp [ltiSigma]

theorem const_of_deriv_zero {m k : Type} [Fintype m] [Fintype k] [DecidableEq m] [DecidableEq k] {f : ℝ → Matrix m k ℝ}
    (h : ∀ t, HasDerivAt f 0 t) (t : ℝ) : f t = f 0 :=
  is_const_of_deriv_eq_zero (fun t => (h t).differentiableAt) (fun t => (h t).deriv) t 0

/-- the Lyapunov equation of the integral. -/
theorem ltiCov_lyapunov (A Q : Mat n) (t : ℝ) : ltiSigma A Q t = A * ltiCov A Q t + ltiCov A Q t * Aᵀ + Q := by
  have h : ∀ t, HasDerivAt (fun t => A * ltiCov A Q t + ltiCov A Q t * Aᵀ + Q - ltiSigma A Q t) 0 t := by
    intro t
    have hP := hasDerivAt_ltiCov A Q t
    refine ((((hP.const_mul A).add (hP.mul_const Aᵀ)).add_const Q).sub (hasDerivAt_ltiSigma A Q t)).congr_deriv ?_
    simp
  have := const_of_deriv_zero h t
  simp only [ltiCov_zero, ltiSigma_zero] at this
  rw [← sub_eq_zero]
  rw [Matrix.mul_zero, Matrix.zero_mul, zero_add, zero_add, sub_self] at this
  rw [← neg_sub, this, neg_zero]

/-- the exponential of the block matrix. -/
theorem exp_ltiPhi (A : Mat n) (B : Matrix (Fin n) (Fin w) ℝ) (t : ℝ) :
    exp (t • ltiPhi A B)
      = fromBlocks (exp (t • A)) (ltiCov A (B * Bᵀ) t * exp (t • -Aᵀ)) 0 (exp (t • -Aᵀ)) := by
  set Q := B * Bᵀ with hQ
  set M : ℝ → Matrix (Fin n ⊕ Fin n) (Fin n ⊕ Fin n) ℝ :=
    fun t => fromBlocks (exp (t • A)) (ltiCov A Q t * exp (t • -Aᵀ)) 0 (exp (t • -Aᵀ)) with hM
  have hent : ∀ {f : ℝ → Mat n} {f' : Mat n} {t : ℝ}, HasDerivAt f f' t → ∀ i j, HasDerivAt (fun s => f s i j) (f' i j) t := by
    intro f f' t h i j
    have := ((LinearMap.toContinuousLinearMap (Matrix.entryLinearMap ℝ ℝ i j)).hasFDerivAt (x := f t)).comp_hasDerivAt t h
    exact this
  have hD : ∀ t, HasDerivAt M (ltiPhi A B * M t) t := by
    intro t
    have h1 := hasDerivAt_exp_smul_mat A t
    have h3 := hasDerivAt_exp_smul_mat (-Aᵀ) t
    have h2 := (hasDerivAt_ltiCov A Q t).mul h3
    have e2 : ltiSigma A Q t * exp (t • -Aᵀ) + ltiCov A Q t * (-Aᵀ * exp (t • -Aᵀ))
        = A * (ltiCov A Q t * exp (t • -Aᵀ)) + Q * exp (t • -Aᵀ) := by
      rw [ltiCov_lyapunov]
      noncomm_ring
    rw [e2] at h2
    rw [hM, ltiPhi, fromBlocks_multiply, ← hQ]
    simp only [Matrix.mul_zero, Matrix.zero_mul, add_zero, zero_add]
    apply hasDerivAt_matrix
    rintro (i | i) (j | j)
    · exact hent h1 i j
    · exact hent h2 i j
    · simpa using hasDerivAt_const t (0 : ℝ)
    · exact hent h3 i j
  have hM0 : M 0 = 1 := by
    simp [hM, ltiCov_zero]
  have hzero : ∀ t, HasDerivAt (fun t => exp (t • -ltiPhi A B) * M t) 0 t := by
    intro t
    have h1 : HasDerivAt (fun u : ℝ => exp (u • -ltiPhi A B)) (exp (t • -ltiPhi A B) * -ltiPhi A B) t :=
      hasDerivAt_exp_smul_const (𝕂 := ℝ) (-ltiPhi A B) t
    refine (h1.mul (hD t)).congr_deriv ?_
    noncomm_ring
  have hc := const_of_deriv_zero hzero t
  simp only [zero_smul, exp_zero, hM0, Matrix.mul_one] at hc
  have hinv : exp (t • ltiPhi A B) * exp (t • -ltiPhi A B) = 1 := by
    rw [smul_neg, ← Matrix.exp_add_of_commute (t • ltiPhi A B) (-(t • ltiPhi A B)) ((Commute.refl (t • ltiPhi A B)).neg_right), add_neg_cancel, exp_zero]
  calc exp (t • ltiPhi A B) = exp (t • ltiPhi A B) * (exp (t • -ltiPhi A B) * M t) := by rw [hc, Matrix.mul_one]
    _ = M t := by rw [← Matrix.mul_assoc, hinv, Matrix.one_mul]

theorem discretise_eq (A : Mat n) (B : Matrix (Fin n) (Fin w) ℝ) (dt : ℝ) :
    discretiseLtiSde A B dt = (exp (dt • A), ltiCov A (B * Bᵀ) dt) := by
  rw [discretiseLtiSde, exp_ltiPhi]
  simp only [Prod.mk.injEq, true_and]
  have h : (fromBlocks (exp (dt • A)) (ltiCov A (B * Bᵀ) dt * exp (dt • -Aᵀ)) 0 (exp (dt • -Aᵀ)) *
      (fromRows 0 1 : Matrix (Fin n ⊕ Fin n) (Fin n) ℝ)).toRows₁ = ltiCov A (B * Bᵀ) dt * exp (dt • -Aᵀ) := by
    rw [fromBlocks_mul_fromRows]
    simp
  rw [h, exp_transpose_smul, Matrix.mul_assoc, ← Matrix.exp_add_of_commute]
  · simp
  · rw [smul_neg]; exact (Commute.refl _).neg_left

/-- **C54.** `discretise_lti_sde(A, B, dt)` returns `F = exp(A dt)` and the integral
`∫_0^dt exp(A s) B Bᵀ exp(A s)ᵀ ds` (entrywise). Consequently steps compose: a step of length `s + t` has
`F = F_t F_s` and covariance `F_t cov_s F_tᵀ + cov_t`; and for `dt ≥ 0` the covariance is symmetric positive semidefinite. -/
theorem C54_discretise (A : Mat n) (B : Matrix (Fin n) (Fin w) ℝ) :
    (∀ dt, (discretiseLtiSde A B dt).1 = exp (dt • A)) ∧
    (∀ dt i j, (discretiseLtiSde A B dt).2 i j = ∫ s in (0 : ℝ)..dt, (exp (s • A) * B * Bᵀ * (exp (s • A))ᵀ) i j) ∧
    (∀ s t, (discretiseLtiSde A B (s + t)).1 = (discretiseLtiSde A B t).1 * (discretiseLtiSde A B s).1) ∧
    (∀ s t, (discretiseLtiSde A B (s + t)).2 = (discretiseLtiSde A B t).1 * (discretiseLtiSde A B s).2 * (discretiseLtiSde A B t).1ᵀ
      + (discretiseLtiSde A B t).2) ∧
    (∀ dt, 0 ≤ dt → (discretiseLtiSde A B dt).2.PosSemidef) := by
  have hadd : ∀ (C : Mat n) (s t : ℝ), exp ((s + t) • C) = exp (t • C) * exp (s • C) := by
    intro C s t
    rw [add_comm, add_smul, Matrix.exp_add_of_commute]
    exact ((Commute.refl C).smul_left t).smul_right s
  have hsig : ∀ s, ltiSigma A (B * Bᵀ) s = (exp (s • A) * B) * (exp (s • A) * B)ᵀ := by
    intro s
    rw [ltiSigma, transpose_mul, exp_transpose_smul]
    simp only [Matrix.mul_assoc]
  refine ⟨fun dt => by rw [discretise_eq], fun dt i j => ?_, fun s t => ?_, fun s t => ?_, fun dt h => ?_⟩
  · rw [discretise_eq]
    simp only [ltiCov, Matrix.of_apply, ltiSigma, exp_transpose_smul, Matrix.mul_assoc]
  · simp only [discretise_eq]
    exact hadd A s t
  · simp only [discretise_eq]
    have h1 := exp_ltiPhi A B (s + t)
    have h2 : exp ((s + t) • ltiPhi A B) = exp (t • ltiPhi A B) * exp (s • ltiPhi A B) := by
      rw [add_comm, add_smul, Matrix.exp_add_of_commute]
      exact ((Commute.refl _).smul_left t).smul_right s
    rw [h2, exp_ltiPhi, exp_ltiPhi, fromBlocks_multiply, fromBlocks_inj] at h1
    have h3 := h1.2.1
    have hinv : ∀ r : ℝ, exp (r • -Aᵀ) * exp (r • Aᵀ) = 1 := by
      intro r
      rw [← Matrix.exp_add_of_commute]
      · simp
      · rw [smul_neg]; exact (Commute.refl _).neg_left
    have hST : exp ((s + t) • Aᵀ) = exp (s • Aᵀ) * exp (t • Aᵀ) := by rw [add_comm, hadd]
    have h4 := congrArg (fun Z => Z * exp ((s + t) • Aᵀ)) h3
    rw [Matrix.mul_assoc, Matrix.mul_assoc (ltiCov A (B * Bᵀ) (s + t)), hinv, Matrix.mul_one] at h4
    rw [← h4, exp_transpose_smul, hST, Matrix.add_mul]
    have hinv' : ∀ (r : ℝ) (Z : Mat n), exp (r • -Aᵀ) * (exp (r • Aᵀ) * Z) = Z := by
      intro r Z
      rw [← Matrix.mul_assoc, hinv, Matrix.one_mul]
    simp only [Matrix.mul_assoc, hinv', hinv, Matrix.mul_one]
  · rw [discretise_eq]
    have hsymm : ∀ s i j, ltiSigma A (B * Bᵀ) s i j = ltiSigma A (B * Bᵀ) s j i := by
      intro s i j
      have : (ltiSigma A (B * Bᵀ) s)ᵀ = ltiSigma A (B * Bᵀ) s := by
        rw [hsig, transpose_mul, transpose_transpose]
      exact (congrFun (congrFun this j) i)
    have hcont : ∀ i j, Continuous fun s => ltiSigma A (B * Bᵀ) s i j := fun i j => (continuous_ltiSigma A _).matrix_elem i j
    refine PosSemidef.of_dotProduct_mulVec_nonneg ?_ fun x => ?_
    · ext i j
      simp only [conjTranspose_apply, star_trivial, ltiCov, Matrix.of_apply, hsymm]
    · have e : star x ⬝ᵥ (ltiCov A (B * Bᵀ) dt *ᵥ x) = ∫ s in (0 : ℝ)..dt, star x ⬝ᵥ (ltiSigma A (B * Bᵀ) s *ᵥ x) := by
        simp only [dotProduct, mulVec, ltiCov, Matrix.of_apply]
        rw [intervalIntegral.integral_finsetSum]
        · apply Finset.sum_congr rfl
          intro i _
          rw [intervalIntegral.integral_const_mul, intervalIntegral.integral_finsetSum]
          · simp only [intervalIntegral.integral_mul_const]
          · intro j _
            exact ((hcont i j).mul continuous_const).intervalIntegrable _ _
        · intro i _
          refine Continuous.intervalIntegrable ?_ _ _
          refine continuous_const.mul (continuous_finsetSum _ fun j _ => (hcont i j).mul continuous_const)
      rw [e]
      refine intervalIntegral.integral_nonneg h fun s _ => ?_
      rw [hsig]
      exact (posSemidef_self_mul_conjTranspose (exp (s • A) * B)).dotProduct_mulVec_nonneg x

/-- the integral is not trivial: for `A = 0`, `B = 1` the covariance of a step of length `dt` is `dt`. -/
example (dt : ℝ) : (discretiseLtiSde (0 : Matrix (Fin 1) (Fin 1) ℝ) (1 : Matrix (Fin 1) (Fin 1) ℝ) dt).2 0 0 = dt := by
  rw [(C54_discretise _ _).2.1]
  simp

end Mfs.Props

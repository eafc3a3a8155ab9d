import Verif.Props.CdLinear
import Mathlib.Analysis.Calculus.FDeriv.Mul

/-!
# C146: the continuous-discrete smoothers on linear SDEs

One backward step of `cd_eks` and `cd_sgp_smoother` is compared with the step of `rts` for the exact transition.
-/

namespace Mfs.Props

open Matrix Mfs.Classical Mfs.Utils Mfs.Spec Filter Topology Asymptotics

open scoped Matrix.Norms.Operator

variable {d w : ℕ}

theorem hasDerivAt_entry {f : ℝ → Matrix (Fin d) (Fin d) ℝ} {f' : Matrix (Fin d) (Fin d) ℝ} {t : ℝ} (h : HasDerivAt f f' t) (i j : Fin d) :
    HasDerivAt (fun s => f s i j) (f' i j) t :=
  ((LinearMap.toContinuousLinearMap (Matrix.entryLinearMap ℝ ℝ i j)).hasFDerivAt (x := f t)).comp_hasDerivAt t h

theorem hasDerivAt_mulVec {f : ℝ → Matrix (Fin d) (Fin d) ℝ} {f' : Matrix (Fin d) (Fin d) ℝ} {g : ℝ → Fin d → ℝ} {g' : Fin d → ℝ} {t : ℝ}
    (hf : HasDerivAt f f' t) (hg : ∀ i, HasDerivAt (fun s => g s i) (g' i) t) (i : Fin d) :
    HasDerivAt (fun s => (f s *ᵥ g s) i) ((f' *ᵥ g t + f t *ᵥ g') i) t := by
  have h : HasDerivAt (fun s => ∑ j, f s i j * g s j) (∑ j, (f' i j * g t j + f t i j * g' j)) t :=
    HasDerivAt.fun_sum fun j _ => (hasDerivAt_entry hf i j).mul (hg j)
  refine h.congr_deriv ?_
  simp [mulVec, dotProduct, Finset.sum_add_distrib]

theorem hasDerivAt_transpose {f : ℝ → Matrix (Fin d) (Fin d) ℝ} {f' : Matrix (Fin d) (Fin d) ℝ} {t : ℝ} (h : HasDerivAt f f' t) :
    HasDerivAt (fun s => (f s)ᵀ) f'ᵀ t := hasDerivAt_matrix fun i j => hasDerivAt_entry h j i

theorem hasDerivAt_inv {f : ℝ → Matrix (Fin d) (Fin d) ℝ} {f' : Matrix (Fin d) (Fin d) ℝ} {t : ℝ} (h : HasDerivAt f f' t)
    (hu : IsUnit (f t).det) : HasDerivAt (fun s => (f s)⁻¹) (-((f t)⁻¹ * f' * (f t)⁻¹)) t := by
  obtain ⟨x, hx⟩ := (Matrix.isUnit_iff_isUnit_det _).2 hu
  have h1 := hasFDerivAt_ringInverse (𝕜 := ℝ) x
  rw [hx] at h1
  have h2 := h1.comp_hasDerivAt t h
  have e : (fun s => (f s)⁻¹) = Ring.inverse ∘ f := by
    funext s; rw [Function.comp, Matrix.nonsing_inv_eq_ringInverse]
  rw [e]
  refine h2.congr_deriv ?_
  have e2 : ((x⁻¹ : (Matrix (Fin d) (Fin d) ℝ)ˣ) : Matrix (Fin d) (Fin d) ℝ) = (f t)⁻¹ := by
    rw [← hx, Matrix.coe_units_inv]
  simp [e2]

/-- the step of `rts` for the exact transition, as a function of `dt`. -/
theorem rtsStep_hasDerivAt (Bk : Backend) (hB : Bk.Valid) (A : Matrix (Fin d) (Fin d) ℝ) (B : Matrix (Fin d) (Fin w) ℝ) (f s : Belief d)
    (hf : f.2.PosDef) :
    (∀ i, HasDerivAt (fun dt => (gaussianSmootherShared Bk ((discretiseLtiSde A B dt).1 * f.2) f
        (linearPredict (discretiseLtiSde A B dt).1 (discretiseLtiSde A B dt).2 f) s).1 i)
      (-((A + B * Bᵀ * f.2⁻¹) *ᵥ s.1 - (B * Bᵀ * f.2⁻¹) *ᵥ f.1) i) 0) ∧
    (∀ i j, HasDerivAt (fun dt => (gaussianSmootherShared Bk ((discretiseLtiSde A B dt).1 * f.2) f
        (linearPredict (discretiseLtiSde A B dt).1 (discretiseLtiSde A B dt).2 f) s).2 i j)
      (-((A + B * Bᵀ * f.2⁻¹) * s.2 + s.2 * (A + B * Bᵀ * f.2⁻¹)ᵀ - B * Bᵀ) i j) 0) ∧
    gaussianSmootherShared Bk ((discretiseLtiSde A B 0).1 * f.2) f
        (linearPredict (discretiseLtiSde A B 0).1 (discretiseLtiSde A B 0).2 f) s = s := by
  set Q := B * Bᵀ with hQ
  set P := f.2 with hP
  have hQs : Qᵀ = Q := by simp [hQ]
  have hPs : Pᵀ = P := by simpa [conjTranspose_eq_transpose_of_trivial] using hf.isHermitian.eq
  have hPu : IsUnit P.det := hf.isUnit.map Matrix.detMonoidHom
  have hPi : (P⁻¹)ᵀ = P⁻¹ := by rw [transpose_nonsing_inv, hPs]
  have hPP : P * P⁻¹ = 1 := mul_nonsing_inv P hPu
  have hPP' : P⁻¹ * P = 1 := nonsing_inv_mul P hPu
  set F : ℝ → Matrix (Fin d) (Fin d) ℝ := fun t => (discretiseLtiSde A B t).1 with hFd
  set Sg : ℝ → Matrix (Fin d) (Fin d) ℝ := fun t => (discretiseLtiSde A B t).2 with hSd
  have hF : HasDerivAt F A 0 := by
    have := hasDerivAt_exp_smul_mat A 0
    simpa [hFd, discretise_eq] using this
  have hF0 : F 0 = 1 := by simp [hFd, discretise_eq]
  have hS0 : Sg 0 = 0 := by simp [hSd, discretise_eq, ltiCov_zero]
  have hS : HasDerivAt Sg Q 0 := by
    have := hasDerivAt_ltiCov A Q 0
    rw [ltiSigma_zero] at this
    have e : Sg = ltiCov A Q := by funext t; simp [hSd, discretise_eq, hQ]
    rw [e]; exact this
  set Pp : ℝ → Matrix (Fin d) (Fin d) ℝ := fun t => F t * P * (F t)ᵀ + Sg t with hPp
  have hPpd : HasDerivAt Pp (A * P + P * Aᵀ + Q) 0 := by
    refine (((hF.mul_const P).mul (hasDerivAt_transpose hF)).add hS).congr_deriv ?_
    simp [hF0]
  have hPp0 : Pp 0 = P := by simp [hPp, hF0, hS0]
  have hPps : ∀ t, (Pp t).IsSymm := by
    intro t
    have hSs : (Sg t)ᵀ = Sg t := by
      have e : Sg t = ltiCov A Q t := by simp [hSd, discretise_eq, hQ]
      rw [e]
      ext i j
      simp only [transpose_apply, ltiCov, of_apply]
      congr 1
      funext r
      have : (ltiSigma A Q r)ᵀ = ltiSigma A Q r := by
        rw [ltiSigma, ← exp_transpose_smul, transpose_mul, transpose_mul, transpose_transpose, hQs, ← Matrix.mul_assoc]
      exact congrFun (congrFun this i) j
    rw [IsSymm, hPp]
    simp only [transpose_add, transpose_mul, transpose_transpose, hSs, hPs, Matrix.mul_assoc]
  have hPd : ∀ᶠ t in 𝓝 0, (Pp t).PosDef :=
    posDef_nhds (fun i j => (hasDerivAt_entry hPpd i j).continuousAt.tendsto) hPps (by rw [hPp0]; exact hf)
  set G : ℝ → Matrix (Fin d) (Fin d) ℝ := fun t => ((Pp t)⁻¹ * (F t * P))ᵀ with hG
  have hG0 : G 0 = 1 := by simp only [hG, hPp0, hF0, Matrix.one_mul, hPP', transpose_one]
  have hGd : HasDerivAt G (-(A + Q * P⁻¹)) 0 := by
    have h1 := hasDerivAt_transpose ((hasDerivAt_inv hPpd (by rw [hPp0]; exact hPu)).mul (hF.mul_const P))
    refine h1.congr_deriv ?_
    rw [hPp0, hF0, Matrix.one_mul]
    rw [show (-(P⁻¹ * (A * P + P * Aᵀ + Q) * P⁻¹) * P + P⁻¹ * (A * P))ᵀ
        = -((P * P⁻¹)ᵀ * ((P⁻¹ * (A * P + P * Aᵀ + Q))ᵀ)) * 1 + (P⁻¹ * (A * P))ᵀ by
      rw [transpose_add, Matrix.neg_mul, transpose_neg, Matrix.mul_assoc (P⁻¹ * _), transpose_mul (P⁻¹ * _), hPP, hPP', Matrix.mul_one]]
    rw [hPP]
    simp only [transpose_one, Matrix.one_mul, Matrix.mul_one, transpose_mul, transpose_add, transpose_transpose, hPs, hQs, hPi,
      Matrix.add_mul, neg_add]
    rw [Matrix.mul_assoc A P, hPP, Matrix.mul_one]
    abel
  have hev : ∀ᶠ t in 𝓝 0, gaussianSmootherShared Bk (F t * P) f (linearPredict (F t) (Sg t) f) s
      = (f.1 + G t *ᵥ (s.1 - F t *ᵥ f.1), P + G t * (s.2 - Pp t) * (G t)ᵀ) := by
    filter_upwards [hPd] with t ht
    simp only [gaussianSmootherShared, linearPredict, hG, ← hP]
    rw [show F t * P * (F t)ᵀ + Sg t = Pp t from rfl, choSolve_eq (hB.chol _ ht)]
  refine ⟨fun i => ?_, fun i j => ?_, ?_⟩
  · have hv : ∀ k, HasDerivAt (fun t => (s.1 - F t *ᵥ f.1) k) ((-(A *ᵥ f.1)) k) 0 := by
      intro k
      have h1 := (hasDerivAt_mulVec hF (g := fun _ => f.1) (g' := 0) (fun j => hasDerivAt_const _ _) k).const_sub (s.1 k)
      refine h1.congr_deriv ?_
      simp
    have h2 := (hasDerivAt_mulVec hGd hv i).const_add (f.1 i)
    refine (h2.congr_of_eventuallyEq (hev.mono fun t ht => ?_)).congr_deriv ?_
    · exact congrFun (congrArg Prod.fst ht) i
    · rw [hG0, hF0, one_mulVec, one_mulVec, neg_mulVec, mulVec_sub, add_mulVec, add_mulVec]
      simp only [Pi.add_apply, Pi.neg_apply, Pi.sub_apply]
      ring
  · have h0 : (G * fun x => s.2 - Pp x) 0 = s.2 - P := by
      rw [Pi.mul_apply, hG0, hPp0, Matrix.one_mul]
    have h3 := hasDerivAt_entry (((hGd.mul (hPpd.const_sub s.2)).mul (hasDerivAt_transpose hGd)).const_add P) i j
    refine (h3.congr_of_eventuallyEq (hev.mono fun t ht => ?_)).congr_deriv ?_
    · exact congrFun (congrFun (congrArg Prod.snd ht) i) j
    · rw [h0, hG0, hPp0, transpose_one, Matrix.mul_one, Matrix.one_mul, ← Matrix.neg_apply]
      refine congrFun (congrFun ?_ i) j
      simp only [transpose_neg, transpose_add, transpose_mul, hQs, hPi, Matrix.mul_sub, Matrix.sub_mul, Matrix.add_mul, Matrix.mul_add,
        Matrix.neg_mul, Matrix.mul_neg]
      rw [Matrix.mul_assoc Q P⁻¹ P, hPP', Matrix.mul_one, ← Matrix.mul_assoc P P⁻¹ Q, hPP, Matrix.one_mul]
      abel
  · refine hev.self_of_nhds.trans ?_
    rw [hG0, hPp0, hF0]
    simp

/-- four Runge-Kutta stages of an affine field start in the direction of the field. -/
theorem rk4_hasDerivAt (M : Matrix (Fin d) (Fin d) ℝ) (b : Belief d) (m : Fin d → ℝ) (v : Matrix (Fin d) (Fin d) ℝ) :
    (∀ i, HasDerivAt (fun dt => (rk4MCov (fun m v => ltiField M (m, v) + b) m v (-dt)).1 i) (-(M *ᵥ m + b.1) i) 0) ∧
    (∀ i j, HasDerivAt (fun dt => (rk4MCov (fun m v => ltiField M (m, v) + b) m v (-dt)).2 i j) (-(M * v + v * Mᵀ + b.2) i j) 0) := by
  have hp : ∀ (c : ℕ → ℝ), HasDerivAt (fun dt : ℝ => ∑ k ∈ Finset.range 4, (-dt) ^ (k + 1) / (k + 1).factorial * c k) (-c 0) 0 := by
    intro c
    have h : ∀ k ∈ Finset.range 4, HasDerivAt (fun dt : ℝ => (-dt) ^ (k + 1) / (k + 1).factorial * c k) (if k = 0 then -c 0 else 0) 0 := by
      intro k _
      refine (((((hasDerivAt_id (0 : ℝ)).neg).pow (k + 1)).div_const _).mul_const _).congr_deriv ?_
      by_cases hk : k = 0
      · subst hk; simp
      · simp [hk]
    refine (HasDerivAt.fun_sum h).congr_deriv ?_
    simp
  have e : ∀ dt, rk4MCov (fun m v => ltiField M (m, v) + b) m v (-dt)
      = (m, v) + ∑ k ∈ Finset.range 4, ((-dt) ^ (k + 1) / (k + 1).factorial) • (ltiField M ^ k) (ltiField M (m, v) + b) :=
    fun dt => C75_rk4_affine (ltiField M) b m v (-dt)
  refine ⟨fun i => ?_, fun i j => ?_⟩
  · refine (((hp fun k => ((ltiField M ^ k) (ltiField M (m, v) + b)).1 i).const_add (m i)).congr_of_eventuallyEq
      (Eventually.of_forall fun dt => ?_)).congr_deriv ?_
    · simp only [e, Prod.fst_add, Prod.fst_sum, Prod.smul_fst, Pi.add_apply, Finset.sum_apply, Pi.smul_apply, smul_eq_mul]
    · rfl
  · refine (((hp fun k => ((ltiField M ^ k) (ltiField M (m, v) + b)).2 i j).const_add (v i j)).congr_of_eventuallyEq
      (Eventually.of_forall fun dt => ?_)).congr_deriv ?_
    · simp only [e, Prod.snd_add, Prod.snd_sum, Prod.smul_snd, Matrix.add_apply, Matrix.sum_apply, Matrix.smul_apply, smul_eq_mul]
    · rfl

/-- the backward equations of `cd_eks` for a linear SDE. -/
theorem cdEksOdes_linear (Bk : Backend) (hB : Bk.Valid) (A : Matrix (Fin d) (Fin d) ℝ) (B : Matrix (Fin d) (Fin w) ℝ) (f : Belief d)
    (hf : f.2.PosDef) (m : Fin d → ℝ) (v : Matrix (Fin d) (Fin d) ℝ) :
    cdEksOdes Bk (fun x => A *ᵥ x) (fun _ => B) m v f.1 f.2
      = ltiField (A + B * Bᵀ * f.2⁻¹) (m, v) + (-((B * Bᵀ * f.2⁻¹) *ᵥ f.1), -(B * Bᵀ)) := by
  have hPs : f.2ᵀ = f.2 := by simpa [conjTranspose_eq_transpose_of_trivial] using hf.isHermitian.eq
  have hPi : (f.2⁻¹)ᵀ = f.2⁻¹ := by rw [transpose_nonsing_inv, hPs]
  have e : (fun i => choSolve (Bk.chol f.2) (Matrix.of fun (i : Fin d) (_ : Fin 1) => m i - f.1 i) i 0) = f.2⁻¹ *ᵥ (m - f.1) := by
    rw [choSolve_eq (hB.chol _ hf)]
    rfl
  simp only [cdEksOdes, e]
  rw [choSolve_eq (hB.chol _ hf), jac_linear]
  refine Prod.ext ?_ ?_
  · change A *ᵥ m + (B * Bᵀ) *ᵥ f.2⁻¹ *ᵥ (m - f.1) = (A + B * Bᵀ * f.2⁻¹) *ᵥ m + -((B * Bᵀ * f.2⁻¹) *ᵥ f.1)
    rw [mulVec_mulVec, mulVec_sub, add_mulVec]
    abel
  · change (A + (f.2⁻¹ * (B * Bᵀ)ᵀ)ᵀ) * v + v * (A + (f.2⁻¹ * (B * Bᵀ)ᵀ)ᵀ)ᵀ - B * Bᵀ = (A + B * Bᵀ * f.2⁻¹) * v + v * (A + B * Bᵀ * f.2⁻¹)ᵀ + -(B * Bᵀ)
    rw [transpose_mul, transpose_transpose, hPi, sub_eq_add_neg]

/-- the backward equations of `cd_sgp_smoother` for a linear SDE, at a positive definite covariance. -/
theorem cdSgpOdes_linear (Bk : Backend) (hB : Bk.Valid) (sgps : SigmaPoints d) (hs : SecondOrder sgps.w sgps.xi) (A : Matrix (Fin d) (Fin d) ℝ)
    (B : Matrix (Fin d) (Fin w) ℝ) (f : Belief d) (hf : f.2.PosDef) (m : Fin d → ℝ) (v : Matrix (Fin d) (Fin d) ℝ) (hv : v.PosDef) :
    cdSgpOdes Bk sgps (fun x => A *ᵥ x) B m v f.1 f.2
      = ltiField (A + B * Bᵀ * f.2⁻¹) (m, v) + (-((B * Bᵀ * f.2⁻¹) *ᵥ f.1), -(B * Bᵀ)) := by
  have hPs : f.2ᵀ = f.2 := by simpa [conjTranspose_eq_transpose_of_trivial] using hf.isHermitian.eq
  have hPi : (f.2⁻¹)ᵀ = f.2⁻¹ := by rw [transpose_nonsing_inv, hPs]
  have hG : (f.2⁻¹ * (B * Bᵀ))ᵀ = B * Bᵀ * f.2⁻¹ := by
    rw [transpose_mul, hPi, transpose_mul, transpose_transpose]
  simp only [cdSgpOdes]
  rw [choSolve_eq (hB.chol _ hf), cdSgpShared_linear Bk hB sgps hs A B m v hv, cdEkfOdes_linear, hG]
  refine Prod.ext ?_ ?_
  · change A *ᵥ m + 0 + (B * Bᵀ * f.2⁻¹) *ᵥ (m - f.1) = (A + B * Bᵀ * f.2⁻¹) *ᵥ m + -((B * Bᵀ * f.2⁻¹) *ᵥ f.1)
    rw [mulVec_sub, add_mulVec]
    abel
  · change A * v + v * Aᵀ + B * Bᵀ + B * Bᵀ * f.2⁻¹ * v + v * (f.2⁻¹ * (B * Bᵀ)) - (2 : ℝ) • (B * Bᵀ)
      = (A + B * Bᵀ * f.2⁻¹) * v + v * (A + B * Bᵀ * f.2⁻¹)ᵀ + -(B * Bᵀ)
    rw [transpose_add, ← hG, transpose_transpose, Matrix.add_mul, Matrix.mul_add, two_smul]
    abel

theorem smoothWith_pair (step : Belief d → Belief d → Belief d) (f s : Belief d) : smoothWith step [f, s] = some [step f s, s] := rfl

theorem isLittleO_of_deriv {f g : ℝ → ℝ} {a b : ℝ} (hf : HasDerivAt f a 0) (hg : HasDerivAt g b 0) (hab : a = b) (h0 : f 0 = g 0) :
    (fun t => f t - g t) =o[𝓝 0] fun t => t := by
  have h := (hf.sub hg).isLittleO
  simpa [hab, h0] using h

/-- C146. On a linear SDE one backward step of `cd_eks` and the step of `rts` for the exact transition agree to first order in `dt`. -/
theorem C146_cd_eks (Bk : Backend) (hB : Bk.Valid) (A : Matrix (Fin d) (Fin d) ℝ) (B : Matrix (Fin d) (Fin w) ℝ) (f s : Belief d)
    (hf : f.2.PosDef) :
    ∃ c r : ℝ → Belief d,
      (∀ dt, cdEks Bk (fun x => A *ᵥ x) (fun _ => B) [f, s] dt = some [c dt, s]) ∧
      (∀ dt, rts Bk (discretiseLtiSde A B dt).1 (discretiseLtiSde A B dt).2 [f, s] = some [r dt, s]) ∧
      (∀ i, (fun dt => (c dt).1 i - (r dt).1 i) =o[𝓝 0] fun dt => dt) ∧
      (∀ i j, (fun dt => (c dt).2 i j - (r dt).2 i j) =o[𝓝 0] fun dt => dt) := by
  obtain ⟨r1, r2, r0⟩ := rtsStep_hasDerivAt Bk hB A B f s hf
  obtain ⟨k1, k2⟩ := rk4_hasDerivAt (A + B * Bᵀ * f.2⁻¹) (-((B * Bᵀ * f.2⁻¹) *ᵥ f.1), -(B * Bᵀ)) s.1 s.2
  have e : ∀ dt, rk4MCovBackward (cdEksOdes Bk (fun x => A *ᵥ x) (fun _ => B)) s.1 s.2 f.1 f.2 (-dt)
      = rk4MCov (fun m v => ltiField (A + B * Bᵀ * f.2⁻¹) (m, v) + (-((B * Bᵀ * f.2⁻¹) *ᵥ f.1), -(B * Bᵀ))) s.1 s.2 (-dt) := by
    intro dt
    rw [← funext fun m => funext fun v => cdEksOdes_linear Bk hB A B f hf m v]
    rfl
  refine ⟨_, _, fun dt => smoothWith_pair _ f s, fun dt => smoothWith_pair _ f s, fun i => ?_, fun i j => ?_⟩
  · refine isLittleO_of_deriv ((k1 i).congr_of_eventuallyEq (Eventually.of_forall fun dt => ?_)) (r1 i) ?_ ?_
    · exact congrFun (congrArg Prod.fst (e dt)) i
    · simp [Pi.sub_apply, sub_eq_add_neg]
    · rw [r0]; simp [rk4MCovBackward]
  · refine isLittleO_of_deriv ((k2 i j).congr_of_eventuallyEq (Eventually.of_forall fun dt => ?_)) (r2 i j) ?_ ?_
    · exact congrFun (congrFun (congrArg Prod.snd (e dt)) i) j
    · rw [sub_eq_add_neg]
    · rw [r0]; simp [rk4MCovBackward]

/-- C146, for `cd_sgp_smoother`: any second-order set of sigma points, from a positive definite smoothed covariance. -/
theorem C146_cd_sgp_smoother (Bk : Backend) (hB : Bk.Valid) (sgps : SigmaPoints d) (hr : SecondOrder sgps.w sgps.xi)
    (A : Matrix (Fin d) (Fin d) ℝ) (B : Matrix (Fin d) (Fin w) ℝ) (f s : Belief d) (hf : f.2.PosDef) (hs : s.2.PosDef) :
    ∃ c r : ℝ → Belief d,
      (∀ dt, cdSgpSmoother Bk (fun x => A *ᵥ x) B sgps [f, s] dt = some [c dt, s]) ∧
      (∀ dt, rts Bk (discretiseLtiSde A B dt).1 (discretiseLtiSde A B dt).2 [f, s] = some [r dt, s]) ∧
      (∀ i, (fun dt => (c dt).1 i - (r dt).1 i) =o[𝓝 0] fun dt => dt) ∧
      (∀ i j, (fun dt => (c dt).2 i j - (r dt).2 i j) =o[𝓝 0] fun dt => dt) := by
  obtain ⟨r1, r2, r0⟩ := rtsStep_hasDerivAt Bk hB A B f s hf
  obtain ⟨k1, k2⟩ := rk4_hasDerivAt (A + B * Bᵀ * f.2⁻¹) (-((B * Bᵀ * f.2⁻¹) *ᵥ f.1), -(B * Bᵀ)) s.1 s.2
  have hQs : (-(B * Bᵀ)).IsSymm := by simp [IsSymm]
  have hneg : Tendsto (fun t : ℝ => -t) (𝓝 0) (𝓝 0) := by simpa using (continuous_neg (G := ℝ)).tendsto 0
  have e : ∀ᶠ dt in 𝓝 0, rk4MCovBackward (cdSgpOdes Bk sgps (fun x => A *ᵥ x) B) s.1 s.2 f.1 f.2 (-dt)
      = rk4MCov (fun m v => ltiField (A + B * Bᵀ * f.2⁻¹) (m, v) + (-((B * Bᵀ * f.2⁻¹) *ᵥ f.1), -(B * Bᵀ))) s.1 s.2 (-dt) :=
    hneg.eventually (rk4_eventually_eq (A + B * Bᵀ * f.2⁻¹) (-((B * Bᵀ * f.2⁻¹) *ᵥ f.1), -(B * Bᵀ)) hQs
      (fun m v => cdSgpOdes Bk sgps (fun x => A *ᵥ x) B m v f.1 f.2)
      (fun m v hv => cdSgpOdes_linear Bk hB sgps hr A B f hf m v hv) s.1 s.2 hs)
  refine ⟨_, _, fun dt => smoothWith_pair _ f s, fun dt => smoothWith_pair _ f s, fun i => ?_, fun i j => ?_⟩
  · refine isLittleO_of_deriv ((k1 i).congr_of_eventuallyEq (e.mono fun dt h => ?_)) (r1 i) ?_ ?_
    · exact congrFun (congrArg Prod.fst h) i
    · simp [Pi.sub_apply, sub_eq_add_neg]
    · rw [r0]; simp [rk4MCovBackward]
  · refine isLittleO_of_deriv ((k2 i j).congr_of_eventuallyEq (e.mono fun dt h => ?_)) (r2 i j) ?_ ?_
    · exact congrFun (congrFun (congrArg Prod.snd h) i) j
    · rw [sub_eq_add_neg]
    · rw [r0]; simp [rk4MCovBackward]

/-- C146. No better than first order, although `rk4_m_cov_backward` is a fourth-order method: for Brownian motion from the filtering law
`N(0, 1)` the smoothed means of `cd_eks` and `rts` differ by `-dt ^ 2 / 2` to leading order, because the filtering law is held at the
start of the interval. -/
theorem C146_first_order_only (Bk : Backend) (hB : Bk.Valid) :
    ∃ c r : ℝ → Belief 1,
      (∀ dt, cdEks Bk (fun x => (0 : Matrix (Fin 1) (Fin 1) ℝ) *ᵥ x) (fun _ => (1 : Matrix (Fin 1) (Fin 1) ℝ)) [(0, 1), (1, 1)] dt
        = some [c dt, (1, 1)]) ∧
      (∀ dt, rts Bk (discretiseLtiSde (0 : Matrix (Fin 1) (Fin 1) ℝ) (1 : Matrix (Fin 1) (Fin 1) ℝ) dt).1
        (discretiseLtiSde (0 : Matrix (Fin 1) (Fin 1) ℝ) (1 : Matrix (Fin 1) (Fin 1) ℝ) dt).2 [(0, 1), (1, 1)] = some [r dt, (1, 1)]) ∧
      Tendsto (fun dt => ((c dt).1 0 - (r dt).1 0) / dt ^ 2) (𝓝[>] 0) (𝓝 (-1 / 2)) := by
  refine ⟨_, _, fun dt => smoothWith_pair _ _ _, fun dt => smoothWith_pair _ _ _, ?_⟩
  have hc : ∀ dt, (rk4MCovBackward (cdEksOdes Bk (fun x => (0 : Matrix (Fin 1) (Fin 1) ℝ) *ᵥ x)
      (fun _ => (1 : Matrix (Fin 1) (Fin 1) ℝ))) ((1, 1) : Belief 1).1 ((1, 1) : Belief 1).2 ((0, 1) : Belief 1).1 ((0, 1) : Belief 1).2 (-dt)).1 0
      = 1 - dt + dt ^ 2 / 2 - dt ^ 3 / 6 + dt ^ 4 / 24 := by
    intro dt
    have h : ∀ m v, cdEksOdes Bk (fun x => (0 : Matrix (Fin 1) (Fin 1) ℝ) *ᵥ x) (fun _ => (1 : Matrix (Fin 1) (Fin 1) ℝ)) m v
        (0 : Fin 1 → ℝ) (1 : Matrix (Fin 1) (Fin 1) ℝ) = (m, v + v - 1) := by
      intro m v
      have h0 := cdEksOdes_linear Bk hB (0 : Matrix (Fin 1) (Fin 1) ℝ) (1 : Matrix (Fin 1) (Fin 1) ℝ) ((0, 1) : Belief 1) PosDef.one m v
      refine h0.trans ?_
      simp [ltiField, sub_eq_add_neg]
    simp only [rk4MCovBackward, h, Pi.add_apply, Pi.smul_apply, smul_eq_mul, Pi.one_apply]
    ring
  have hr : ∀ dt, 0 < dt → (gaussianSmootherShared Bk ((discretiseLtiSde (0 : Matrix (Fin 1) (Fin 1) ℝ) (1 : Matrix (Fin 1) (Fin 1) ℝ) dt).1
        * ((0, 1) : Belief 1).2) (0, 1) (linearPredict (discretiseLtiSde (0 : Matrix (Fin 1) (Fin 1) ℝ) (1 : Matrix (Fin 1) (Fin 1) ℝ) dt).1
        (discretiseLtiSde (0 : Matrix (Fin 1) (Fin 1) ℝ) (1 : Matrix (Fin 1) (Fin 1) ℝ) dt).2 (0, 1)) (1, 1)).1 0 = 1 / (1 + dt) := by
    intro dt hdt
    have hd : discretiseLtiSde (0 : Matrix (Fin 1) (Fin 1) ℝ) (1 : Matrix (Fin 1) (Fin 1) ℝ) dt = (1, dt • 1) := by
      rw [discretise_eq]
      refine Prod.ext (by simp) ?_
      ext i j
      simp [ltiCov, ltiSigma]
    have hp : ((1 : Matrix (Fin 1) (Fin 1) ℝ) + dt • 1).PosDef := PosDef.one.add_posSemidef (PosSemidef.one.smul hdt.le)
    have hi : ((1 : Matrix (Fin 1) (Fin 1) ℝ) + dt • 1)⁻¹ = (1 / (1 + dt)) • 1 := by
      refine inv_eq_right_inv ?_
      rw [show (1 : Matrix (Fin 1) (Fin 1) ℝ) + dt • 1 = (1 + dt) • 1 by rw [add_smul, one_smul]]
      rw [smul_mul_smul_comm, Matrix.one_mul, mul_one_div_cancel (by positivity), one_smul]
    simp only [gaussianSmootherShared, linearPredict, hd, transpose_one, Matrix.mul_one]
    rw [choSolve_eq (hB.chol _ hp), hi]
    simp [smul_mulVec]
  have hlim : Tendsto (fun dt : ℝ => -(1 / 2 - dt / 3 + dt ^ 2 / 8 - dt ^ 3 / 24) / (1 + dt)) (𝓝[>] 0) (𝓝 (-1 / 2)) := by
    have : ContinuousAt (fun dt : ℝ => -(1 / 2 - dt / 3 + dt ^ 2 / 8 - dt ^ 3 / 24) / (1 + dt)) 0 :=
      ContinuousAt.div (by fun_prop) (by fun_prop) (by simp)
    have h := this.tendsto
    rw [show -(1 / 2 - (0 : ℝ) / 3 + 0 ^ 2 / 8 - 0 ^ 3 / 24) / (1 + 0) = -1 / 2 by norm_num] at h
    exact h.mono_left nhdsWithin_le_nhds
  refine hlim.congr' ?_
  filter_upwards [self_mem_nhdsWithin] with dt hdt
  have hdt : 0 < dt := hdt
  rw [hc, hr dt hdt]
  field_simp
  ring

/-- the oscillator with noise on the velocity, smoothed from `N(0, 2)` and `N((1, 0), 1)` by the code's own cubature rule. -/
example (Bk : Backend) (hB : Bk.Valid) :
    ∃ c r : ℝ → Belief 2,
      (∀ dt, cdSgpSmoother Bk (fun x => !![0, 1; -1, 0] *ᵥ x) !![0; 1] (SigmaPoints.cubature 2) [(0, 2), (![1, 0], 1)] dt
        = some [c dt, (![1, 0], 1)]) ∧
      (∀ dt, rts Bk (discretiseLtiSde !![0, 1; -1, 0] !![0; 1] dt).1 (discretiseLtiSde !![0, 1; -1, 0] !![0; 1] dt).2 [(0, 2), (![1, 0], 1)]
        = some [r dt, (![1, 0], 1)]) ∧
      (∀ i, (fun dt => (c dt).1 i - (r dt).1 i) =o[𝓝 0] fun dt => dt) ∧
      (∀ i j, (fun dt => (c dt).2 i j - (r dt).2 i j) =o[𝓝 0] fun dt => dt) :=
  C146_cd_sgp_smoother Bk hB _ (C72_cubature 2 (by norm_num)).1 _ _ _ _
    (by rw [show (2 : Matrix (Fin 2) (Fin 2) ℝ) = 1 + 1 by norm_num]; exact PosDef.one.add PosDef.one) PosDef.one

end Mfs.Props

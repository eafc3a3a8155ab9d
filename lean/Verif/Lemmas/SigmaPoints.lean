import Verif.Lemmas.Gaussian
import Verif.Spec.Sigma

/-!
# Sigma-point rules of second order on linear models
-/

namespace Mfs.Classical

open Matrix Mfs.Spec

variable {dx dy : ℕ}

theorem vecMulVec_mulVec {a b c d : ℕ} (A : Matrix (Fin a) (Fin b) ℝ) (C : Matrix (Fin c) (Fin d) ℝ) (u : Fin b → ℝ) (v : Fin d → ℝ) :
    vecMulVec (A *ᵥ u) (C *ᵥ v) = A * vecMulVec u v * Cᵀ := by
  rw [Matrix.mul_vecMulVec, Matrix.vecMulVec_mul, Matrix.vecMul_transpose]

theorem expectation_mul {a b c d : ℕ} (sgps : SigmaPoints dx) (A : Matrix (Fin a) (Fin b) ℝ) (C : Matrix (Fin c) (Fin d) ℝ)
    (M : Fin sgps.nPoints → Matrix (Fin b) (Fin c) ℝ) :
    sgps.expectation (fun i => A * M i * C) = A * sgps.expectation M * C := by
  simp only [SigmaPoints.expectation, Matrix.mul_sum, Matrix.sum_mul, Matrix.mul_smul, Matrix.smul_mul]

theorem expectation_mulVec {a b : ℕ} (sgps : SigmaPoints dx) (A : Matrix (Fin a) (Fin b) ℝ) (u : Fin sgps.nPoints → Fin b → ℝ) :
    sgps.expectation (fun i => A *ᵥ u i) = A *ᵥ sgps.expectation u := by
  simp only [SigmaPoints.expectation, ← Matrix.mulVec_smul]
  rw [← Matrix.mulVec_sum]

theorem expectation_add {V : Type} [AddCommMonoid V] [Module ℝ V] (sgps : SigmaPoints dx) (f g : Fin sgps.nPoints → V) :
    sgps.expectation (fun i => f i + g i) = sgps.expectation f + sgps.expectation g := by
  simp only [SigmaPoints.expectation, smul_add, Finset.sum_add_distrib]

theorem expectation_const {V : Type} [AddCommMonoid V] [Module ℝ V] (sgps : SigmaPoints dx) (h : ∑ i, sgps.w i = 1) (v : V) :
    sgps.expectation (fun _ => v) = v := by
  simp only [SigmaPoints.expectation, ← Finset.sum_smul, h, one_smul]

variable {sgps : SigmaPoints dx} (hr : SecondOrder sgps.w sgps.xi)
include hr

theorem nPoints_pos : 0 < sgps.nPoints := by
  rcases Nat.eq_zero_or_pos sgps.nPoints with h | h
  · have := hr.total
    have e : IsEmpty (Fin sgps.nPoints) := by rw [h]; infer_instance
    rw [Finset.univ_eq_empty, Finset.sum_empty] at this
    exact absurd this (by norm_num)
  · exact h

theorem expectation_xi : sgps.expectation sgps.xi = 0 := by
  ext a
  rw [SigmaPoints.expectation, Finset.sum_apply]
  simpa using hr.mean a

theorem expectation_xi_xi : sgps.expectation (fun i => vecMulVec (sgps.xi i) (sgps.xi i)) = 1 := by
  ext a b
  rw [SigmaPoints.expectation, Matrix.sum_apply]
  simpa [vecMulVec_apply, Matrix.one_apply] using hr.cov a b

theorem expectation_chi (m : Fin dx → ℝ) (L : Matrix (Fin dx) (Fin dx) ℝ) :
    sgps.expectation (sgps.genSigmaPoints m L) = m := by
  have : sgps.genSigmaPoints m L = fun i => m + L *ᵥ sgps.xi i := rfl
  rw [this, expectation_add, expectation_const sgps hr.total, expectation_mulVec, expectation_xi hr, mulVec_zero, add_zero]

theorem expectation_vecMulVec_const (m : Fin dy → ℝ) (L : Matrix (Fin dx) (Fin dx) ℝ) :
    sgps.expectation (fun i => vecMulVec m (L *ᵥ sgps.xi i)) = 0 := by
  have h := congrFun (expectation_mulVec sgps L sgps.xi)
  rw [expectation_xi hr, mulVec_zero] at h
  ext a b
  have hb := h b
  rw [SigmaPoints.expectation, Finset.sum_apply] at hb
  rw [SigmaPoints.expectation, Matrix.sum_apply]
  simp only [Matrix.smul_apply, vecMulVec_apply, Pi.smul_apply, smul_eq_mul] at hb ⊢
  calc _ = m a * ∑ i, sgps.w i * (L *ᵥ sgps.xi i) b := by
        rw [Finset.mul_sum]; exact Finset.sum_congr rfl fun i _ => by ring
    _ = _ := by rw [hb]; simp

omit hr in
theorem expectation_transpose (M : Fin sgps.nPoints → Matrix (Fin dx) (Fin dy) ℝ) :
    sgps.expectation (fun i => (M i)ᵀ) = (sgps.expectation M)ᵀ := by
  simp only [SigmaPoints.expectation, Matrix.transpose_sum, Matrix.transpose_smul]

theorem expectation_chi_chi (m : Fin dx → ℝ) (L : Matrix (Fin dx) (Fin dx) ℝ) :
    sgps.expectation (fun i => vecMulVec (sgps.genSigmaPoints m L i) (sgps.genSigmaPoints m L i)) = vecMulVec m m + L * Lᵀ := by
  have : (fun i => vecMulVec (sgps.genSigmaPoints m L i) (sgps.genSigmaPoints m L i))
      = fun i => vecMulVec m m + (vecMulVec m (L *ᵥ sgps.xi i) + ((vecMulVec m (L *ᵥ sgps.xi i))ᵀ
        + L * vecMulVec (sgps.xi i) (sgps.xi i) * Lᵀ)) := by
    funext i
    rw [SigmaPoints.genSigmaPoints, ← vecMulVec_mulVec, transpose_vecMulVec, vecMulVec_add, add_vecMulVec, add_vecMulVec]
    abel
  rw [this, expectation_add, expectation_add, expectation_add, expectation_const sgps hr.total, expectation_vecMulVec_const hr,
    expectation_transpose, expectation_vecMulVec_const hr, expectation_mul, expectation_xi_xi hr]
  simp

theorem expectation_lin_lin {a b : ℕ} (A : Matrix (Fin a) (Fin dx) ℝ) (C : Matrix (Fin b) (Fin dx) ℝ) (m : Fin dx → ℝ)
    (L : Matrix (Fin dx) (Fin dx) ℝ) :
    sgps.expectation (fun i => vecMulVec (A *ᵥ sgps.genSigmaPoints m L i) (C *ᵥ sgps.genSigmaPoints m L i))
      - vecMulVec (A *ᵥ m) (C *ᵥ m) = A * (L * Lᵀ) * Cᵀ := by
  simp only [vecMulVec_mulVec]
  rw [expectation_mul, expectation_chi_chi hr, Matrix.mul_add, Matrix.add_mul, add_sub_cancel_left]

theorem expectation_chi_lin {b : ℕ} (C : Matrix (Fin b) (Fin dx) ℝ) (m : Fin dx → ℝ)
    (L : Matrix (Fin dx) (Fin dx) ℝ) :
    sgps.expectation (fun i => vecMulVec (sgps.genSigmaPoints m L i) (C *ᵥ sgps.genSigmaPoints m L i))
      - vecMulVec m (C *ᵥ m) = L * Lᵀ * Cᵀ := by
  have := expectation_lin_lin hr (1 : Matrix (Fin dx) (Fin dx) ℝ) C m L
  simpa using this

variable {B : Backend} (hB : B.Valid)
include hB

theorem sgpPrediction_linear (F Sigma : Matrix (Fin dx) (Fin dx) ℝ) (dt : ℝ) (f : Belief dx) (hf : f.2.PosDef) :
    (sgpPrediction B sgps (fun u _ => (F *ᵥ u, Sigma)) dt f).1 = linearPredict F Sigma f := by
  have hL := (chol_symm hB hf).mul_transpose
  simp only [sgpPrediction, linearPredict]
  rw [expectation_mulVec, expectation_chi hr, expectation_add, expectation_const sgps hr.total, add_sub_right_comm,
    expectation_lin_lin hr, hL]

theorem sgpUpdate_linear (H : Matrix (Fin dy) (Fin dx) ℝ) (Xi : Matrix (Fin dy) (Fin dy) ℝ) (p : Belief dx) (y : Fin dy → ℝ)
    (hp : p.2.PosDef) (hXi : Xi.PosDef) (constCov : Bool) :
    sgpUpdate B sgps (fun u => (H *ᵥ u, Xi)) p y constCov
      = ((p.1 + kgain p.2 H Xi *ᵥ (y - H *ᵥ p.1), kcov p.2 H Xi), -logMvnPdf y (H *ᵥ p.1) (B.chol (symmetrize (innov p.2 H Xi)))) := by
  have hL := (chol_symm hB hp).mul_transpose
  have hS := innov_posDef H hp.posSemidef hXi
  have h1 : sgps.expectation (fun i => H *ᵥ sgps.genSigmaPoints p.1 (B.chol (symmetrize p.2)) i) = H *ᵥ p.1 := by
    rw [expectation_mulVec, expectation_chi hr]
  have h2 : sgps.expectation (fun i => vecMulVec (H *ᵥ sgps.genSigmaPoints p.1 (B.chol (symmetrize p.2)) i)
      (H *ᵥ sgps.genSigmaPoints p.1 (B.chol (symmetrize p.2)) i)) - vecMulVec (H *ᵥ p.1) (H *ᵥ p.1) = H * p.2 * Hᵀ := by
    rw [expectation_lin_lin hr, hL]
  have h3 : (if constCov = true then
      sgps.expectation (fun i => vecMulVec (H *ᵥ sgps.genSigmaPoints p.1 (B.chol (symmetrize p.2)) i)
        (H *ᵥ sgps.genSigmaPoints p.1 (B.chol (symmetrize p.2)) i)) - vecMulVec (H *ᵥ p.1) (H *ᵥ p.1)
        + (if h : 0 < sgps.nPoints then Xi else 0)
    else sgps.expectation (fun i => vecMulVec (H *ᵥ sgps.genSigmaPoints p.1 (B.chol (symmetrize p.2)) i)
        (H *ᵥ sgps.genSigmaPoints p.1 (B.chol (symmetrize p.2)) i) + Xi) - vecMulVec (H *ᵥ p.1) (H *ᵥ p.1)) = innov p.2 H Xi := by
    rw [expectation_add, expectation_const sgps hr.total, add_sub_right_comm, h2, dif_pos (nPoints_pos hr), ite_self]
    rfl
  have h4 : (choSolve (B.chol (symmetrize (innov p.2 H Xi))) (p.2 * Hᵀ)ᵀ)ᵀ = kgain p.2 H Xi := by
    rw [choSolve_eq (chol_symm hB hS), Matrix.transpose_mul p.2, hp.posSemidef.symm, transpose_transpose,
      ← kgain_transpose' H hp.posSemidef hS, transpose_transpose]
  simp only [sgpUpdate]
  rw [h1, h3, expectation_chi_lin hr, hL, h4]
  rfl

omit hr in
theorem logMvnPdf_scalar {S : Matrix (Fin 1) (Fin 1) ℝ} (hS : S.PosDef) (y mu : Fin 1 → ℝ) :
    -logMvnPdf y mu (B.chol (symmetrize S)) = linearNell B mu S y := by
  have hL := chol_symm hB hS
  have h1 := exp_logMvnPdf y mu hL.lower hL.diag_pos
  have h2 := linearNell_scalar B mu y hS
  have e : (Matrix.diagonal fun i => B.chol (symmetrize S) i i ^ 2) = S := by
    conv_rhs => rw [← hL.mul_transpose]
    ext i j
    rw [Subsingleton.elim i 0, Subsingleton.elim j 0]
    simp [Matrix.mul_apply, sq]
  rw [e, ← h2] at h1
  have := Real.exp_injective h1
  rw [this, neg_neg]

omit hr hB

/-! ## symmetry -/

theorem rk4MCov_symm (ode : (Fin dx → ℝ) → Matrix (Fin dx) (Fin dx) ℝ → Belief dx)
    (h : ∀ m v, v.IsSymm → (ode m v).2.IsSymm) (m : Fin dx → ℝ) (v : Matrix (Fin dx) (Fin dx) ℝ) (dt : ℝ) (hv : v.IsSymm) :
    (rk4MCov ode m v dt).2.IsSymm := by
  have h1 := h m v hv
  have h2 := h (m + (dt / 2) • (ode m v).1) _ (hv.add (h1.smul (dt / 2)))
  set k1 := ode m v with hk1
  set k2 := ode (m + (dt / 2) • k1.1) (v + (dt / 2) • k1.2) with hk2
  have h3 := h (m + (dt / 2) • k2.1) _ (hv.add (h2.smul (dt / 2)))
  set k3 := ode (m + (dt / 2) • k2.1) (v + (dt / 2) • k2.2) with hk3
  have h4 := h (m + dt • k3.1) _ (hv.add (h3.smul dt))
  exact hv.add ((((h1.add (h2.smul 2)).add (h3.smul 2)).add h4).smul (dt / 6))

theorem rk4MCovBackward_symm (ode : (Fin dx → ℝ) → Matrix (Fin dx) (Fin dx) ℝ → (Fin dx → ℝ) → Matrix (Fin dx) (Fin dx) ℝ → Belief dx)
    (h : ∀ m v mf vf, v.IsSymm → (ode m v mf vf).2.IsSymm) (m : Fin dx → ℝ) (v : Matrix (Fin dx) (Fin dx) ℝ) (mf : Fin dx → ℝ)
    (vf : Matrix (Fin dx) (Fin dx) ℝ) (dt : ℝ) (hv : v.IsSymm) :
    (rk4MCovBackward ode m v mf vf dt).2.IsSymm :=
  rk4MCov_symm (fun m v => ode m v mf vf) (fun m v hv => h m v mf vf hv) m v dt hv

theorem conj_symm {a b : ℕ} {S : Matrix (Fin b) (Fin b) ℝ} (hS : S.IsSymm) (K : Matrix (Fin a) (Fin b) ℝ) : (K * S * Kᵀ).IsSymm := by
  rw [IsSymm, Matrix.transpose_mul, Matrix.transpose_mul, transpose_transpose, hS.eq, Matrix.mul_assoc]

theorem linearUpdate_symm (B : Backend) (ok : UpdateShapeOk dx dy) (p : Belief dx) (H : Matrix (Fin dy) (Fin dx) ℝ) (predY : Fin dy → ℝ)
    (Xi : Matrix (Fin dy) (Fin dy) ℝ) (y : Fin dy → ℝ) (hp : p.2.IsSymm) (hXi : Xi.IsSymm) :
    (linearUpdate B ok p H predY Xi y).1.2.IsSymm :=
  hp.sub (conj_symm ((conj_symm hp H).add hXi) _)

theorem vecMulVec_symm {n : ℕ} (u : Fin n → ℝ) : (vecMulVec u u).IsSymm := transpose_vecMulVec u u

theorem expectation_symm {n : ℕ} (sgps : SigmaPoints dx) (M : Fin sgps.nPoints → Matrix (Fin n) (Fin n) ℝ) (h : ∀ i, (M i).IsSymm) :
    (sgps.expectation M).IsSymm := by
  rw [IsSymm, SigmaPoints.expectation, Matrix.transpose_sum]
  exact Finset.sum_congr rfl fun i _ => by rw [Matrix.transpose_smul, (h i).eq]

theorem sgpUpdate_symm (B : Backend) (sgps : SigmaPoints dx) (meas : (Fin dx → ℝ) → (Fin dy → ℝ) × Matrix (Fin dy) (Fin dy) ℝ)
    (hmeas : ∀ x, (meas x).2.IsSymm) (p : Belief dx) (y : Fin dy → ℝ) (constCov : Bool) (hp : p.2.IsSymm) :
    (sgpUpdate B sgps meas p y constCov).1.2.IsSymm := by
  simp only [sgpUpdate]
  refine hp.sub (conj_symm ?_ _)
  split_ifs with h1 h2
  · exact ((expectation_symm _ _ fun i => vecMulVec_symm _).sub (vecMulVec_symm _)).add (hmeas _)
  · exact ((expectation_symm _ _ fun i => vecMulVec_symm _).sub (vecMulVec_symm _)).add isSymm_zero
  · exact (expectation_symm _ _ fun i => (vecMulVec_symm _).add (hmeas _)).sub (vecMulVec_symm _)

theorem smoothRec_inv (step : Belief dx → Belief dx → Belief dx) (I : Belief dx → Prop) (fs : List (Belief dx))
    (hfs : ∀ f ∈ fs, I f) (h : ∀ f s, I s → I (step f s)) : ∀ s ∈ smoothRec step fs, I s := by
  induction fs with
  | nil => intro s hs; simp [smoothRec] at hs
  | cons f fs ih =>
    have ih := ih fun g hg => hfs g (List.mem_cons_of_mem _ hg)
    rw [smoothRec]
    cases e : smoothRec step fs with
    | nil => intro s hs; rw [List.mem_singleton.1 hs]; exact hfs f List.mem_cons_self
    | cons t ts =>
      rw [e] at ih
      intro s hs
      rcases List.mem_cons.1 hs with rfl | hs
      · exact h f t (ih t List.mem_cons_self)
      · exact ih s hs

end Mfs.Classical

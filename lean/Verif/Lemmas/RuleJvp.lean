import Verif.Lemmas.SpectralJvp

/-!
# Derivatives of the matrices of the rule by the rules of forward-mode differentiation
-/

namespace Mfs.Spectral

open Matrix Mfs.Spec Filter Topology Mfs.Cont Set Mfs.Jvp Mfs.Quad1

variable {z : ℕ} {t : ℝ}

theorem MDeriv.mul {A C : ℝ → Matrix (Fin z) (Fin z) ℝ} {A' C' : Matrix (Fin z) (Fin z) ℝ} (hA : MDeriv A A' t) (hC : MDeriv C C' t) :
    MDeriv (fun u => A u * C u) (A' * C t + A t * C') t := by
  intro a b
  have := HasDerivAt.fun_sum (u := (Finset.univ : Finset (Fin z))) fun k _ => (hA a k).mul (hC k b)
  simpa [Matrix.mul_apply, Finset.sum_add_distrib] using this

theorem MDeriv.transpose {A : ℝ → Matrix (Fin z) (Fin z) ℝ} {A' : Matrix (Fin z) (Fin z) ℝ} (hA : MDeriv A A' t) :
    MDeriv (fun u => (A u)ᵀ) A'ᵀ t := fun a b => hA b a

theorem MDeriv.symm {A : ℝ → Matrix (Fin z) (Fin z) ℝ} {A' : Matrix (Fin z) (Fin z) ℝ} (hA : MDeriv A A' t) :
    MDeriv (fun u => symmetrize (A u)) (symmetrize A') t := by
  intro a b
  simp only [symmetrize, Matrix.smul_apply, Matrix.add_apply, Matrix.transpose_apply, smul_eq_mul]
  exact ((hA a b).add (hA b a)).const_mul _

theorem MDeriv.unique {A : ℝ → Matrix (Fin z) (Fin z) ℝ} {A' A'' : Matrix (Fin z) (Fin z) ℝ} (h : MDeriv A A' t) (h' : MDeriv A A'' t) : A' = A'' := by
  ext a b
  exact (h a b).unique (h' a b)

theorem MDeriv.congr {A C : ℝ → Matrix (Fin z) (Fin z) ℝ} {A' : Matrix (Fin z) (Fin z) ℝ} (h : MDeriv A A' t) (hc : ∀ᶠ u in 𝓝 t, C u = A u) : MDeriv C A' t := by
  intro a b
  refine (h a b).congr_of_eventuallyEq ?_
  filter_upwards [hc] with u hu
  rw [hu]

theorem MDeriv.of_smooth {A : ℝ → Matrix (Fin z) (Fin z) ℝ} (h : ∀ a b, ContDiffAt ℝ 1 (fun u => A u a b) t) :
    MDeriv A (Matrix.of fun a b => deriv (fun u => A u a b) t) t := fun a b =>
  ((h a b).differentiableAt one_ne_zero).hasDerivAt

theorem mderiv_const (C : Matrix (Fin z) (Fin z) ℝ) : MDeriv (fun _ => C) 0 t := fun _ _ => hasDerivAt_const _ _

/-- the rule for `cholesky`. -/
theorem chol_jvp {G R : ℝ → Matrix (Fin z) (Fin z) ℝ} {G' : Matrix (Fin z) (Fin z) ℝ} (hGs : ∀ a b, ContDiffAt ℝ 1 (fun u => G u a b) t)
    (hG : MDeriv G G' t) (hR : ∀ᶠ u in 𝓝 t, IsChol (G u) (R u)) : MDeriv R (cholJvp (R t) G') t := by
  have hRs := chol_smooth hGs hR
  have h0 : IsChol (G t) (R t) := hR.self_of_nhds
  have hd := MDeriv.of_smooth hRs
  set R' : Matrix (Fin z) (Fin z) ℝ := Matrix.of fun a b => deriv (fun u => R u a b) t with hR'
  have hlow : IsLower R' := by
    intro i j hij
    have h1 : HasDerivAt (fun u => R u i j) 0 t := by
      refine (hasDerivAt_const t (0 : ℝ)).congr_of_eventuallyEq ?_
      filter_upwards [hR] with u hu using hu.lower i j hij
    exact (hd i j).unique h1
  have heq : R' * (R t)ᵀ + R t * R'ᵀ = G' := by
    refine ((hd.mul hd.transpose).congr ?_).unique hG
    filter_upwards [hR] with u hu using hu.mul_transpose.symm
  have hdet : (R t).det ≠ 0 := by
    rw [det_of_isLowerTriangular _ fun a b hab => h0.lower a b hab]
    exact Finset.prod_ne_zero_iff.2 fun a _ => (h0.diag_pos a).ne'
  have hu : IsUnit (R t).det := isUnit_iff_ne_zero.2 hdet
  have hut : IsUnit ((R t)ᵀ).det := by rwa [Matrix.det_transpose]
  have hRl : lowerPart (R t) = R t := lowerPart_eq h0.lower
  have hRinv : (R t)⁻¹ * R t = 1 := Matrix.nonsing_inv_mul _ hu
  have hRTinv : (R t)ᵀ * ((R t)ᵀ)⁻¹ = 1 := Matrix.mul_nonsing_inv _ hut
  set X := (R t)⁻¹ * R' with hX
  have hXt : Xᵀ = R'ᵀ * ((R t)ᵀ)⁻¹ := by rw [hX, Matrix.transpose_mul, Matrix.transpose_nonsing_inv]
  have hXlow : IsLower X := (h0.lower.inv hu).mul hlow
  have hS : X + Xᵀ = triSolveLeft (R t) (triSolveRightT (R t) G') := by
    rw [triSolveLeft, triSolveRightT, hRl, ← heq, hXt, hX, add_mul, mul_add, Matrix.mul_assoc R', hRTinv, Matrix.mul_one, Matrix.mul_assoc (R t), ← Matrix.mul_assoc (R t)⁻¹, hRinv,
      Matrix.one_mul]
  have hphi : phi (X + Xᵀ) = X := by
    ext i j
    simp only [phi, Matrix.of_apply, lowerPart, Matrix.add_apply, Matrix.transpose_apply]
    rcases lt_trichotomy i j with h | h | h
    · rw [if_neg (not_le.2 h), hXlow i j h, zero_div]
    · subst h
      simp
      ring
    · rw [if_pos h.le, if_neg h.ne', hXlow j i h]
      simp
  have : cholJvp (R t) G' = R' := by
    rw [cholJvp, ← hS, hphi, hX, ← Matrix.mul_assoc, Matrix.mul_nonsing_inv _ hu, Matrix.one_mul]
  rw [this]
  exact hd

theorem inv_jvp {A : ℝ → Matrix (Fin z) (Fin z) ℝ} {A' : Matrix (Fin z) (Fin z) ℝ} (hAs : ∀ a b, ContDiffAt ℝ 1 (fun u => A u a b) t)
    (hA : MDeriv A A' t) (h0 : (A t).det ≠ 0) : MDeriv (fun u => (A u)⁻¹) (-((A t)⁻¹ * A' * (A t)⁻¹)) t := by
  have hd := MDeriv.of_smooth (inv_smooth hAs h0)
  set D : Matrix (Fin z) (Fin z) ℝ := Matrix.of fun a b => deriv (fun u => (A u)⁻¹ a b) t with hD
  have hev : ∀ᶠ u in 𝓝 t, (A u).det ≠ 0 := (det_smooth hAs).continuousAt.eventually_ne h0
  have h1 : A' * (A t)⁻¹ + A t * D = 0 := by
    refine (hA.mul hd).unique ((mderiv_const 1).congr ?_)
    filter_upwards [hev] with u hu using Matrix.mul_nonsing_inv _ (isUnit_iff_ne_zero.2 hu)
  have h2 : D = -((A t)⁻¹ * A' * (A t)⁻¹) := by
    have : (A t)⁻¹ * (A' * (A t)⁻¹ + A t * D) = 0 := by rw [h1, Matrix.mul_zero]
    rw [Matrix.mul_add, ← Matrix.mul_assoc (A t)⁻¹ (A t), Matrix.nonsing_inv_mul _ (isUnit_iff_ne_zero.2 h0), Matrix.one_mul, add_comm] at this
    rw [eq_neg_of_add_eq_zero_left this, Matrix.mul_assoc]
  rw [← h2]
  exact hd

/-- the rules for the two triangular solves. -/
theorem orth_jvp {R H : ℝ → Matrix (Fin z) (Fin z) ℝ} {R' H' : Matrix (Fin z) (Fin z) ℝ} (hRs : ∀ a b, ContDiffAt ℝ 1 (fun u => R u a b) t)
    (hR : MDeriv R R' t) (hH : MDeriv H H' t) (hlow : ∀ᶠ u in 𝓝 t, IsLower (R u)) (h0 : (R t).det ≠ 0) :
    MDeriv (fun u => orthonormalise (R u) (H u)) (orthonormaliseJvp (R t) R' (H t) H') t := by
  have hlow' : IsLower R' := by
    intro i j hij
    have h1 : HasDerivAt (fun u => R u i j) 0 t := by
      refine (hasDerivAt_const t (0 : ℝ)).congr_of_eventuallyEq ?_
      filter_upwards [hlow] with u hu using hu i j hij
    exact (hR i j).unique h1
  have h0t : ((R t)ᵀ).det ≠ 0 := by rwa [Matrix.det_transpose]
  have hi := inv_jvp hRs hR h0
  have hit := inv_jvp (A := fun u => (R u)ᵀ) (fun a b => hRs b a) hR.transpose h0t
  have h1 := (hi.mul hH).mul hit
  have h2 : MDeriv (fun u => orthonormalise (R u) (H u)) _ t := h1.congr (by
    filter_upwards [hlow] with u hu
    rw [orthonormalise, triSolveRightT, triSolveLeft, lowerPart_eq hu])
  have h3 : orthonormaliseJvp (R t) R' (H t) H' = (-((R t)⁻¹ * R' * (R t)⁻¹) * H t + (R t)⁻¹ * H') * ((R t)ᵀ)⁻¹
      + (R t)⁻¹ * H t * -(((R t)ᵀ)⁻¹ * R'ᵀ * ((R t)ᵀ)⁻¹) := by
    simp only [orthonormaliseJvp, triSolveRightTJvp, triSolveLeftJvp, triSolveRightT, triSolveLeft, lowerPart_eq hlow.self_of_nhds, lowerPart_eq hlow']
    simp only [Matrix.neg_mul, Matrix.mul_neg, Matrix.add_mul, Matrix.mul_assoc]
    abel
  rw [h3]
  exact h2

end Mfs.Spectral

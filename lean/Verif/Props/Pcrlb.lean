import Verif.Lemmas.Pcrlb
import Verif.Props.Kalman

/-!
# C59: posterior Cramér–Rao recursion
-/

namespace Mfs.Props

open Matrix Mfs.Spec Mfs.Pcrlb

variable {dx dy N : ℕ}

theorem log_mvnPdf {n : ℕ} (P : Matrix (Fin n) (Fin n) ℝ) (hP : P.PosDef) (m x : Fin n → ℝ) :
    Real.log (mvnPdf m P x) = -Real.log (Real.sqrt ((2 * Real.pi) ^ n * P.det)) - (1 / 2) * ((x - m) ⬝ᵥ P⁻¹ *ᵥ (x - m)) := by
  have hd : 0 < Real.sqrt ((2 * Real.pi) ^ n * P.det) :=
    Real.sqrt_pos.2 (mul_pos (pow_pos (by positivity) _) hP.det_pos)
  rw [mvnPdf, Real.log_div (Real.exp_ne_zero _) hd.ne', Real.log_exp]
  ring

/-- the recursion of `posterior_cramer_rao` on a linear Gaussian model, in information form. -/
theorem step_linear (hN : 0 < N) (F Q : Matrix (Fin dx) (Fin dx) ℝ) (H : Matrix (Fin dy) (Fin dx) ℝ) (R : Matrix (Fin dy) (Fin dy) ℝ)
    (hQ : Q.PosDef) (hR : R.PosDef) (j : Matrix (Fin dx) (Fin dx) ℝ)
    (e : (Fin N → Fin dy → ℝ) × (Fin N → Fin dx → ℝ) × (Fin N → Fin dx → ℝ)) :
    step (fun t s => Real.log (mvnPdf (F *ᵥ s) Q t)) (fun y x => Real.log (mvnPdf (H *ᵥ x) R y)) j e
      = kcov Q⁻¹ Fᵀ j + Hᵀ * R⁻¹ * H - (Q⁻¹ * F * (j + Fᵀ * Q⁻¹ * F)⁻¹ * (Fᵀ * Q⁻¹) - (Q⁻¹ - kcov Q⁻¹ Fᵀ j)) := by
  have hQs : (Q⁻¹)ᵀ = Q⁻¹ := hQ.inv.posSemidef.symm
  have hRs : (R⁻¹)ᵀ = R⁻¹ := hR.inv.posSemidef.symm
  have h1 : ∀ t s, hess (fun s => Real.log (mvnPdf (F *ᵥ s) Q t)) s = -(Fᵀ * Q⁻¹ * F) := by
    intro t s
    have := hess_quad (-Real.log (Real.sqrt ((2 * Real.pi) ^ dx * Q.det))) t (-F) Q⁻¹ hQs s
    simp only [neg_mulVec, ← sub_eq_add_neg, transpose_neg, Matrix.neg_mul, Matrix.mul_neg, neg_neg] at this
    simpa only [log_mvnPdf Q hQ] using this
  have h2 : ∀ t s, hess (fun t => Real.log (mvnPdf (F *ᵥ s) Q t)) t = -Q⁻¹ := by
    intro t s
    have := hess_quad (-Real.log (Real.sqrt ((2 * Real.pi) ^ dx * Q.det))) (-(F *ᵥ s)) 1 Q⁻¹ hQs t
    simp only [one_mulVec, neg_add_eq_sub, transpose_one, Matrix.one_mul, Matrix.mul_one] at this
    simpa only [log_mvnPdf Q hQ] using this
  have h3 : ∀ t s, hessTS (fun t s => Real.log (mvnPdf (F *ᵥ s) Q t)) t s = Fᵀ * Q⁻¹ := by
    intro t s
    have := hessTS_quad (-Real.log (Real.sqrt ((2 * Real.pi) ^ dx * Q.det))) 0 1 (-F) Q⁻¹ hQs t s
    simp only [one_mulVec, zero_add, neg_mulVec, ← sub_eq_add_neg, transpose_neg, Matrix.neg_mul, neg_neg, Matrix.mul_one] at this
    simpa only [log_mvnPdf Q hQ] using this
  have h4 : ∀ y x, hess (fun x => Real.log (mvnPdf (H *ᵥ x) R y)) x = -(Hᵀ * R⁻¹ * H) := by
    intro y x
    have := hess_quad (-Real.log (Real.sqrt ((2 * Real.pi) ^ dy * R.det))) y (-H) R⁻¹ hRs x
    simp only [neg_mulVec, ← sub_eq_add_neg, transpose_neg, Matrix.neg_mul, Matrix.mul_neg, neg_neg] at this
    simpa only [log_mvnPdf R hR] using this
  simp only [step, h1, h2, h3, h4, mean_const hN]
  rw [transpose_neg, Matrix.transpose_mul, transpose_transpose, hQs]
  simp only [Matrix.neg_mul, Matrix.mul_neg, neg_neg, Matrix.mul_assoc, neg_add_rev]
  abel

theorem step_kalman (hN : 0 < N) (F Q : Matrix (Fin dx) (Fin dx) ℝ) (H : Matrix (Fin dy) (Fin dx) ℝ) (R : Matrix (Fin dy) (Fin dy) ℝ)
    (hQ : Q.PosDef) (hR : R.PosDef) (j : Matrix (Fin dx) (Fin dx) ℝ) (hj : j.PosDef)
    (e : (Fin N → Fin dy → ℝ) × (Fin N → Fin dx → ℝ) × (Fin N → Fin dx → ℝ)) :
    step (fun t s => Real.log (mvnPdf (F *ᵥ s) Q t)) (fun y x => Real.log (mvnPdf (H *ᵥ x) R y)) j e
      = (kcov (F * j⁻¹ * Fᵀ + Q) H R)⁻¹ := by
  have hPp : (F * j⁻¹ * Fᵀ + Q).PosDef := PosDef.posSemidef_add (psd_conj hj.inv.posSemidef F) hQ
  have hk := kcov_eq Fᵀ hQ.inv.posSemidef hj
  have hki := kcov_eq_inv Fᵀ hQ.inv hj
  rw [step_linear hN F Q H R hQ hR, kcov_inv H hPp hR]
  have e1 : kcov Q⁻¹ Fᵀ j = (F * j⁻¹ * Fᵀ + Q)⁻¹ := by
    rw [hki, Matrix.nonsing_inv_nonsing_inv _ (posDef_det hQ), transpose_transpose, add_comm]
  have e2 : Q⁻¹ * F * (j + Fᵀ * Q⁻¹ * F)⁻¹ * (Fᵀ * Q⁻¹) - (Q⁻¹ - kcov Q⁻¹ Fᵀ j) = 0 := by
    rw [hk, sub_sub_cancel, kgain, innov, transpose_transpose, add_comm, sub_self]
  rw [e2, sub_zero, e1]

/-- **C59 (linear Gaussian models).** With the log-densities of `N(F s, Q)` and `N(H x, R)`, whatever the samples,
`posterior_cramer_rao` returns one matrix per time; each is positive definite, and its inverse is obtained from the inverse `P`
of the previous one by the Kalman covariance recursion `Pp = F P Fᵀ + Q`, `Pp - Pp Hᵀ (H Pp Hᵀ + R)⁻¹ H Pp`. -/
theorem C59_pcrlb_recursion (hN : 0 < N) (F Q : Matrix (Fin dx) (Fin dx) ℝ) (H : Matrix (Fin dy) (Fin dx) ℝ)
    (R : Matrix (Fin dy) (Fin dy) ℝ) (hQ : Q.PosDef) (hR : R.PosDef) (j0 : Matrix (Fin dx) (Fin dx) ℝ) (hj0 : j0.PosDef)
    (traj : List (Fin N → Fin dx → ℝ)) (ys : List (Fin N → Fin dy → ℝ)) (hlen : traj.length = ys.length + 1) :
    ∃ js, posteriorCramerRao traj ys j0 (fun t s => Real.log (mvnPdf (F *ᵥ s) Q t)) (fun y x => Real.log (mvnPdf (H *ᵥ x) R y))
        = some js ∧ js.length = ys.length ∧
      ∀ (k : ℕ) (prev J Pp : Matrix (Fin dx) (Fin dx) ℝ), (j0 :: js)[k]? = some prev → js[k]? = some J → Pp = F * prev⁻¹ * Fᵀ + Q →
        J.PosDef ∧ J⁻¹ = Pp - Pp * Hᵀ * (H * Pp * Hᵀ + R)⁻¹ * (H * Pp) := by
  have hcond : traj.tail.length = ys.length ∧ traj.dropLast.length = ys.length := by
    rw [List.length_tail, List.length_dropLast, hlen]; omega
  refine ⟨_, by rw [posteriorCramerRao, if_pos hcond], ?_, ?_⟩
  · rw [scan_length, List.length_zip, List.length_zip, hcond.1, hcond.2]; simp
  · set g := step (N := N) (fun t s => Real.log (mvnPdf (F *ᵥ s) Q t)) (fun y x => Real.log (mvnPdf (H *ᵥ x) R y)) with hg
    have hinv : ∀ (k : ℕ) (prev : Matrix (Fin dx) (Fin dx) ℝ),
        (j0 :: (scan (fun j e => (g j e, g j e)) j0 (ys.zip (traj.tail.zip traj.dropLast))).2)[k]? = some prev → prev.PosDef := by
      intro k
      induction k with
      | zero => intro prev h; simp only [List.getElem?_cons_zero, Option.some.injEq] at h; rw [← h]; exact hj0
      | succ k ih =>
        intro prev h
        rw [List.getElem?_cons_succ] at h
        obtain ⟨prev', e, h1, -, h3⟩ := scan_get g j0 _ k prev h
        have hp := ih prev' h1
        rw [h3, hg, step_kalman hN F Q H R hQ hR prev' hp]
        exact (kcov_posDef H (PosDef.posSemidef_add (psd_conj hp.inv.posSemidef F) hQ) hR).inv
    rintro k prev J Pp hprev hJ rfl
    obtain ⟨prev', e, h1, -, h3⟩ := scan_get g j0 _ k J hJ
    obtain rfl : prev' = prev := Option.some.inj (h1.symm.trans hprev)
    have hp := hinv k prev' hprev
    have hPp : (F * prev'⁻¹ * Fᵀ + Q).PosDef := PosDef.posSemidef_add (psd_conj hp.inv.posSemidef F) hQ
    have hk := kcov_posDef H hPp hR
    rw [h3, hg, step_kalman hN F Q H R hQ hR prev' hp]
    refine ⟨hk.inv, ?_⟩
    rw [Matrix.nonsing_inv_nonsing_inv _ (posDef_det hk), kcov_eq H hPp.posSemidef hR]
    rfl

/-- **C59 (against `kf`).** For scalar measurements, started from `j0 = v0⁻¹`, the matrices are the inverses of the `kf`
covariances at every step (which do not depend on the measurements). -/
theorem C59_pcrlb_kf (hN : 0 < N) (B : Backend) (F Q : Matrix (Fin dx) (Fin dx) ℝ) (H : Matrix (Fin 1) (Fin dx) ℝ)
    (R : Matrix (Fin 1) (Fin 1) ℝ) (hQ : Q.PosDef) (hR : R.PosDef) (m0 : Fin dx → ℝ) (v0 : Matrix (Fin dx) (Fin dx) ℝ) (hv0 : v0.PosDef)
    (traj : List (Fin N → Fin dx → ℝ)) (ys : List (Fin N → Fin 1 → ℝ)) (zs : List (Fin 1 → ℝ))
    (hlen : traj.length = ys.length + 1) (hz : zs.length = ys.length) :
    ∃ js out, posteriorCramerRao traj ys v0⁻¹ (fun t s => Real.log (mvnPdf (F *ᵥ s) Q t)) (fun y x => Real.log (mvnPdf (H *ᵥ x) R y))
        = some js ∧ Classical.kf B F Q H R m0 v0 zs = some out ∧ js = out.map fun o => (o.1.2)⁻¹ := by
  obtain ⟨js, h1, hl1, h2⟩ := C59_pcrlb_recursion hN F Q H R hQ hR v0⁻¹ hv0.inv traj ys hlen
  obtain ⟨out, h3, hl2, h4⟩ := kf_cov_recursion B F Q H R m0 v0 zs hv0 hQ hR
  refine ⟨js, out, h1, h3, ?_⟩
  have key : ∀ k : ℕ, (v0⁻¹ :: js)[k]? = ((((m0, v0), 0) :: out)[k]?).map fun o => (o.1.2)⁻¹ := by
    intro k
    induction k with
    | zero => rfl
    | succ k ih =>
      rw [List.getElem?_cons_succ, List.getElem?_cons_succ]
      by_cases hk : k < out.length
      · have hk1 : k < js.length := by omega
        have e1 : out[k]? = some out[k] := List.getElem?_eq_getElem hk
        have e2 : js[k]? = some js[k] := List.getElem?_eq_getElem hk1
        have hkc : k < (((m0, v0), 0) :: out).length := by simp only [List.length_cons]; omega
        have e3 : (((m0, v0), 0) :: out)[k]? = some (((m0, v0), 0) :: out)[k] := List.getElem?_eq_getElem hkc
        have hprev := ih
        rw [e3, Option.map_some] at hprev
        obtain ⟨hpd0, hpd, hP⟩ := h4 k _ _ e3 e1
        have hJ := h2 k _ _ _ hprev e2 rfl
        rw [e1, e2, Option.map_some, Option.some.injEq]
        rw [Matrix.nonsing_inv_nonsing_inv _ (posDef_det hpd0), ← hP] at hJ
        rw [← hJ.2, Matrix.nonsing_inv_nonsing_inv _ (posDef_det hJ.1)]
      · rw [List.getElem?_eq_none (by omega), List.getElem?_eq_none (by omega)]; rfl
  refine List.ext_getElem? fun k => ?_
  have := key (k + 1)
  rw [List.getElem?_cons_succ, List.getElem?_cons_succ] at this
  rw [this, List.getElem?_map]

/-- **C59 (symmetry).** For twice continuously differentiable log-densities and a symmetric `j0` all returned matrices are
symmetric. -/
theorem C59_pcrlb_symmetric (logT : (Fin dx → ℝ) → (Fin dx → ℝ) → ℝ) (logL : (Fin dy → ℝ) → (Fin dx → ℝ) → ℝ)
    (h1 : ∀ t, ContDiff ℝ 2 fun s => logT t s) (h2 : ∀ s, ContDiff ℝ 2 fun t => logT t s) (h3 : ∀ y, ContDiff ℝ 2 fun x => logL y x)
    (j0 : Matrix (Fin dx) (Fin dx) ℝ) (hj0 : j0.IsSymm) (traj : List (Fin N → Fin dx → ℝ)) (ys : List (Fin N → Fin dy → ℝ))
    (js : List (Matrix (Fin dx) (Fin dx) ℝ)) (hjs : posteriorCramerRao traj ys j0 logT logL = some js) : ∀ J ∈ js, J.IsSymm := by
  have hstep : ∀ j e, j.IsSymm → (step (N := N) logT logL j e).IsSymm := by
    intro j e hj
    have a1 : (mean fun i => hess (fun s => logT (e.2.1 i) s) (e.2.2 i))ᵀ = mean fun i => hess (fun s => logT (e.2.1 i) s) (e.2.2 i) :=
      mean_symm _ fun i => hess_symm _ (h1 _) _
    have a2 : (mean fun i => hess (fun t => logT t (e.2.2 i)) (e.2.1 i) + hess (fun x => logL (e.1 i) x) (e.2.1 i))ᵀ
        = mean fun i => hess (fun t => logT t (e.2.2 i)) (e.2.1 i) + hess (fun x => logL (e.1 i) x) (e.2.1 i) :=
      mean_symm _ fun i => by rw [transpose_add, hess_symm _ (h2 _), hess_symm _ (h3 _)]
    simp only [step, IsSymm]
    rw [transpose_sub, transpose_neg, a2, Matrix.transpose_mul, Matrix.transpose_mul, transpose_transpose,
      Matrix.transpose_nonsing_inv, transpose_add, hj.eq, transpose_neg (mean fun i => hess (fun s => logT (e.2.1 i) s) (e.2.2 i)), a1, Matrix.mul_assoc]
  rw [posteriorCramerRao] at hjs
  split_ifs at hjs
  rw [Option.some.injEq] at hjs
  subst hjs
  generalize ys.zip (traj.tail.zip traj.dropLast) = es
  induction es generalizing j0 with
  | nil => intro J hJ; simp [scan] at hJ
  | cons e es ih =>
    have hs : (scan (fun j e => (step logT logL j e, step logT logL j e)) j0 (e :: es)).2
        = step logT logL j0 e :: (scan (fun j e => (step logT logL j e, step logT logL j e)) (step logT logL j0 e) es).2 := rfl
    intro J hJ
    have hJ' : J ∈ (scan (fun j e => (step logT logL j e, step logT logL j e)) j0 (e :: es)).2 := hJ
    rw [hs] at hJ'
    rcases List.mem_cons.1 hJ' with rfl | hJ'
    · exact hstep _ _ hj0
    · exact ih (step logT logL j0 e) (hstep _ _ hj0) J hJ'

/-- the hypotheses are met, e.g., by unit covariances and three samples. -/
example : (0 < 3) ∧ (1 : Matrix (Fin 2) (Fin 2) ℝ).PosDef ∧ (1 : Matrix (Fin 1) (Fin 1) ℝ).PosDef :=
  ⟨by norm_num, PosDef.one, PosDef.one⟩

end Mfs.Props

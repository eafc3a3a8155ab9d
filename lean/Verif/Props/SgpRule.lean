import Verif.Lemmas.SigmaPoints
import Verif.Props.SigmaPoints

/-!
# C215: the sigma-point filters depend on the rule only through its integrals
-/

namespace Mfs.Props

open Mfs.Spec Mfs.Classical Matrix

variable {dx dy dw : ℕ}

/-- two rules with the same integrals: for example with the points in another order, with points of weight zero added, or with a point split into two at the same place. -/
def SameRule (sg sg' : SigmaPoints dx) : Prop := ∀ φ : (Fin dx → ℝ) → ℝ, ∑ i, sg.w i * φ (sg.xi i) = ∑ i, sg'.w i * φ (sg'.xi i)

section same

variable {sg sg' : SigmaPoints dx} (h : SameRule sg sg')
include h

theorem SameRule.vec {k : ℕ} (f : (Fin dx → ℝ) → Fin k → ℝ) : sg.expectation (fun i => f (sg.xi i)) = sg'.expectation fun i => f (sg'.xi i) := by
  ext a
  simp only [SigmaPoints.expectation, Finset.sum_apply, Pi.smul_apply, smul_eq_mul]
  exact h fun x => f x a

theorem SameRule.mat {k l : ℕ} (f : (Fin dx → ℝ) → Matrix (Fin k) (Fin l) ℝ) : sg.expectation (fun i => f (sg.xi i)) = sg'.expectation fun i => f (sg'.xi i) := by
  ext a b
  simp only [SigmaPoints.expectation, Matrix.sum_apply, Matrix.smul_apply, smul_eq_mul]
  exact h fun x => f x a b

theorem SameRule.prediction (B : Backend) (state : (Fin dx → ℝ) → ℝ → Belief dx) (dt : ℝ) (f : Belief dx) : (sgpPrediction B sg state dt f).1 = (sgpPrediction B sg' state dt f).1 := by
  simp only [sgpPrediction, SigmaPoints.genSigmaPoints]
  rw [h.vec fun z => (state (f.1 + B.chol (symmetrize f.2) *ᵥ z) dt).1,
    h.mat fun z => vecMulVec (state (f.1 + B.chol (symmetrize f.2) *ᵥ z) dt).1 (state (f.1 + B.chol (symmetrize f.2) *ᵥ z) dt).1 + (state (f.1 + B.chol (symmetrize f.2) *ᵥ z) dt).2]

theorem SameRule.update (B : Backend) (meas : (Fin dx → ℝ) → (Fin dy → ℝ) × Matrix (Fin dy) (Fin dy) ℝ) (p : Belief dx) (y : Fin dy → ℝ) :
    sgpUpdate B sg meas p y false = sgpUpdate B sg' meas p y false := by
  simp only [sgpUpdate, SigmaPoints.genSigmaPoints, Bool.false_eq_true, if_false]
  rw [h.vec fun z => (meas (p.1 + B.chol (symmetrize p.2) *ᵥ z)).1,
    h.mat fun z => vecMulVec (meas (p.1 + B.chol (symmetrize p.2) *ᵥ z)).1 (meas (p.1 + B.chol (symmetrize p.2) *ᵥ z)).1 + (meas (p.1 + B.chol (symmetrize p.2) *ᵥ z)).2,
    h.mat fun z => vecMulVec (p.1 + B.chol (symmetrize p.2) *ᵥ z) (meas (p.1 + B.chol (symmetrize p.2) *ᵥ z)).1]

theorem SameRule.cross (B : Backend) (state : (Fin dx → ℝ) → ℝ → Belief dx) (dt : ℝ) (f : Belief dx) :
    sg.expectation (fun i => vecMulVec ((sgpPrediction B sg state dt f).2.1 i) ((sgpPrediction B sg state dt f).2.2 i))
      = sg'.expectation fun i => vecMulVec ((sgpPrediction B sg' state dt f).2.1 i) ((sgpPrediction B sg' state dt f).2.2 i) :=
  h.mat fun z => vecMulVec (f.1 + B.chol (symmetrize f.2) *ᵥ z) (state (f.1 + B.chol (symmetrize f.2) *ᵥ z) dt).1

theorem SameRule.cdShared (B : Backend) (drift : (Fin dx → ℝ) → Fin dx → ℝ) (dispersion : Matrix (Fin dx) (Fin dw) ℝ) : cdSgpShared B sg drift dispersion = cdSgpShared B sg' drift dispersion := by
  funext m P
  simp only [cdSgpShared, SigmaPoints.genSigmaPoints]
  rw [h.vec fun z => drift (m + B.chol (symmetrize P) *ᵥ z), h.mat fun z => vecMulVec (m + B.chol (symmetrize P) *ᵥ z - m) (drift (m + B.chol (symmetrize P) *ᵥ z))]

end same

/-- **C215 (integrals).** Two sigma-point rules with the same integrals give the same results of `sgp_filter`, `sgp_smoother`, `cd_sgp_filter` and `cd_sgp_smoother`: for all models, data and whatever the
Cholesky routine returns. -/
theorem C215_integrals (B : Backend) (sg sg' : SigmaPoints dx) (h : SameRule sg sg') (state : (Fin dx → ℝ) → ℝ → Belief dx)
    (meas : (Fin dx → ℝ) → (Fin dy → ℝ) × Matrix (Fin dy) (Fin dy) ℝ) (drift : (Fin dx → ℝ) → Fin dx → ℝ) (dispersion : Matrix (Fin dx) (Fin dw) ℝ)
    (m0 : Fin dx → ℝ) (v0 : Matrix (Fin dx) (Fin dx) ℝ) (dt : ℝ) (ys : List (Fin dy → ℝ)) (fs : List (Belief dx)) :
    sgpFilter B state meas sg m0 v0 dt ys false = sgpFilter B state meas sg' m0 v0 dt ys false ∧
    sgpSmoother B state sg fs dt = sgpSmoother B state sg' fs dt ∧
    cdSgpFilter B drift dispersion meas sg m0 v0 dt ys false = cdSgpFilter B drift dispersion meas sg' m0 v0 dt ys false ∧
    cdSgpSmoother B drift dispersion sg fs dt = cdSgpSmoother B drift dispersion sg' fs dt := by
  refine ⟨?_, ?_, ?_, ?_⟩
  · simp only [sgpFilter, h.prediction, h.update]
  · simp only [sgpSmoother]
    congr 1
    funext f s
    rw [h.prediction, h.cross]
  · simp only [cdSgpFilter, h.cdShared, h.update]
  · have e : cdSgpOdes B sg drift dispersion = cdSgpOdes B sg' drift dispersion := by
      funext m v mf vf
      simp only [cdSgpOdes, h.cdShared]
    rw [cdSgpSmoother, cdSgpSmoother, e]

/-- **C215 (order of the points).** Rules with the same weighted points in another order have the same integrals. -/
theorem C215_order (sg sg' : SigmaPoints dx) (e : Fin sg.nPoints ≃ Fin sg'.nPoints) (hw : ∀ i, sg'.w (e i) = sg.w i) (hx : ∀ i, sg'.xi (e i) = sg.xi i) : SameRule sg sg' := fun φ => by
  rw [← e.sum_comp fun i => sg'.w i * φ (sg'.xi i)]
  exact Finset.sum_congr rfl fun i _ => by rw [hw, hx]

/-- **C215 (order of the roots).** The Gauss–Hermite rule does not depend on the order in which `np.roots` lists the roots. -/
theorem C215_roots (order : ℕ) (roots : ℕ → ℝ) (σ : Equiv.Perm (Fin order)) (roots' : ℕ → ℝ) (hσ : ∀ j : Fin order, roots' j = roots (σ j)) :
    SameRule (SigmaPoints.gaussHermite dx order roots') (SigmaPoints.gaussHermite dx order roots) := by
  let e : Fin (order ^ dx) ≃ Fin (order ^ dx) := (finFunctionFinEquiv.symm.trans (Equiv.piCongrRight fun _ : Fin dx => σ)).trans finFunctionFinEquiv
  have hr : ∀ (c : Fin (order ^ dx)) (r : Fin dx), roots (rollTable dx order r (e c)) = roots' (rollTable dx order r c) := fun c r => by
    have h1 : finFunctionFinEquiv.symm (e c) r = σ (finFunctionFinEquiv.symm c r) := by
      simp only [e, Equiv.trans_apply, Equiv.symm_apply_apply]
      rfl
    rw [rollTable_equiv, rollTable_equiv, hσ, h1]
  have h1 : ∀ c : Fin (order ^ dx), 1 / √Real.pi ^ dx * ∏ r : Fin dx, ghWeight1d order (roots (rollTable dx order r (e c)))
      = 1 / √Real.pi ^ dx * ∏ r : Fin dx, ghWeight1d order (roots' (rollTable dx order r c)) := fun c => by simp only [hr]
  have h2 : ∀ c : Fin (order ^ dx), (fun r : Fin dx => √2 * roots (rollTable dx order r (e c))) = fun r : Fin dx => √2 * roots' (rollTable dx order r c) := fun c => by simp only [hr]
  exact C215_order (SigmaPoints.gaussHermite dx order roots') (SigmaPoints.gaussHermite dx order roots) e h1 h2

/-- **C215 (constant covariance).** If the measurement covariance is constant and the weights sum to one, the option for constant measurement covariances changes nothing. -/
theorem C215_const (B : Backend) (sg : SigmaPoints dx) (h1 : ∑ i, sg.w i = 1) (state : (Fin dx → ℝ) → ℝ → Belief dx) (hfun : (Fin dx → ℝ) → Fin dy → ℝ) (Xi : Matrix (Fin dy) (Fin dy) ℝ)
    (drift : (Fin dx → ℝ) → Fin dx → ℝ) (dispersion : Matrix (Fin dx) (Fin dw) ℝ) (m0 : Fin dx → ℝ) (v0 : Matrix (Fin dx) (Fin dx) ℝ) (dt : ℝ) (ys : List (Fin dy → ℝ)) :
    sgpFilter B state (fun x => (hfun x, Xi)) sg m0 v0 dt ys true = sgpFilter B state (fun x => (hfun x, Xi)) sg m0 v0 dt ys false ∧
    cdSgpFilter B drift dispersion (fun x => (hfun x, Xi)) sg m0 v0 dt ys true = cdSgpFilter B drift dispersion (fun x => (hfun x, Xi)) sg m0 v0 dt ys false := by
  have hpos : 0 < sg.nPoints := by
    rcases Nat.eq_zero_or_pos sg.nPoints with h | h
    · have e : IsEmpty (Fin sg.nPoints) := by rw [h]; infer_instance
      rw [Finset.univ_eq_empty, Finset.sum_empty] at h1
      exact absurd h1 (by norm_num)
    · exact h
  have hu : ∀ p y, sgpUpdate B sg (fun x => (hfun x, Xi)) p y true = sgpUpdate B sg (fun x => (hfun x, Xi)) p y false := fun p y => by
    simp only [sgpUpdate, if_true, Bool.false_eq_true, if_false, dif_pos hpos, expectation_add, expectation_const sg h1, add_sub_right_comm]
  exact ⟨by simp only [sgpFilter, hu], by simp only [cdSgpFilter, hu]⟩

/-- non-vacuity: two rules with the same integrals and different numbers of points. -/
example : SameRule (dx := 1) ⟨2, ![1 / 2, 1 / 2], ![fun _ => 1, fun _ => -1]⟩ ⟨3, ![1 / 2, 0, 1 / 2], ![fun _ => -1, fun _ => 7, fun _ => 1]⟩ := fun φ => by
  simp [Fin.sum_univ_two, Fin.sum_univ_three]
  ring

example : (∀ j : Fin 2, (![1, -1] : Fin 2 → ℝ) j = ![-1, 1] (Equiv.swap (0 : Fin 2) 1 j)) := by
  intro j
  fin_cases j <;> simp

end Mfs.Props

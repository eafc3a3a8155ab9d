import Verif.Lemmas.Information
import Verif.Lemmas.VanTrees
import Mathlib.MeasureTheory.Function.L2Space
import Mathlib.Probability.StrongLaw
import Mathlib.Topology.Instances.Matrix
import Mathlib.Analysis.SpecialFunctions.JapaneseBracket

/-!
# C151: what `posterior_cramer_rao` computes bounds the error of every estimator
-/

namespace Mfs.Props

open Matrix Mfs.Pcrlb MeasureTheory Filter Topology

variable {dx dy T : ℕ}

/-- the joint log-density of the states at times `0, …, T` and of the measurements at times `1, …, T`. -/
def logJoint (log0 : (Fin dx → ℝ) → ℝ) (logT : (Fin dx → ℝ) → (Fin dx → ℝ) → ℝ) (logL : (Fin dy → ℝ) → (Fin dx → ℝ) → ℝ)
    (x : Fin (T + 1) → Fin dx → ℝ) (y : Fin T → Fin dy → ℝ) : ℝ :=
  log0 (x 0) + ∑ k : Fin T, (logT (x k.succ) (x k.castSucc) + logL (y k) (x k.succ))

/-- minus the expectation of a random matrix. -/
noncomputable def negE (ℙ : Measure ((Fin (T + 1) → Fin dx → ℝ) × (Fin T → Fin dy → ℝ)))
    (M : (Fin (T + 1) → Fin dx → ℝ) × (Fin T → Fin dy → ℝ) → Matrix (Fin dx) (Fin dx) ℝ) : Matrix (Fin dx) (Fin dx) ℝ :=
  Matrix.of fun i j => -∫ z, M z i j ∂ℙ

theorem negE_form (ℙ : Measure ((Fin (T + 1) → Fin dx → ℝ) × (Fin T → Fin dy → ℝ)))
    {M : (Fin (T + 1) → Fin dx → ℝ) × (Fin T → Fin dy → ℝ) → Matrix (Fin dx) (Fin dx) ℝ} (hM : ∀ i j, Integrable (fun z => M z i j) ℙ)
    (a b : Fin dx → ℝ) : Integrable (fun z => a ⬝ᵥ M z *ᵥ b) ℙ ∧ ∫ z, a ⬝ᵥ M z *ᵥ b ∂ℙ = -(a ⬝ᵥ negE ℙ M *ᵥ b) := by
  have e : ∀ z, a ⬝ᵥ M z *ᵥ b = ∑ i, ∑ j, a i * b j * M z i j := by
    intro z
    rw [dotProduct]
    refine Finset.sum_congr rfl fun i _ => ?_
    rw [mulVec, dotProduct, Finset.mul_sum]
    exact Finset.sum_congr rfl fun j _ => by ring
  have hi : ∀ i j, Integrable (fun z => a i * b j * M z i j) ℙ := fun i j => (hM i j).const_mul _
  simp only [e]
  refine ⟨integrable_finsetSum _ fun i _ => integrable_finsetSum _ fun j _ => hi i j, ?_⟩
  rw [integral_finsetSum _ fun i _ => integrable_finsetSum _ fun j _ => hi i j, dotProduct, ← Finset.sum_neg_distrib]
  refine Finset.sum_congr rfl fun i _ => ?_
  rw [integral_finsetSum _ fun j _ => hi i j, mulVec, dotProduct, Finset.mul_sum, ← Finset.sum_neg_distrib]
  refine Finset.sum_congr rfl fun j _ => ?_
  rw [integral_const_mul, negE, Matrix.of_apply]
  ring

section lines

variable (log0 : (Fin dx → ℝ) → ℝ) (logT : (Fin dx → ℝ) → (Fin dx → ℝ) → ℝ) (logL : (Fin dy → ℝ) → (Fin dx → ℝ) → ℝ)

/-- the second derivative of the joint log-density along a direction `v` of the states. -/
noncomputable def info2 (v x : Fin (T + 1) → Fin dx → ℝ) (y : Fin T → Fin dy → ℝ) : ℝ :=
  v 0 ⬝ᵥ hess log0 (x 0) *ᵥ v 0 + ∑ k : Fin T,
    (v k.castSucc ⬝ᵥ hess (fun s => logT (x k.succ) s) (x k.castSucc) *ᵥ v k.castSucc
      + 2 * (v k.castSucc ⬝ᵥ hessTS logT (x k.succ) (x k.castSucc) *ᵥ v k.succ)
      + v k.succ ⬝ᵥ (hess (fun t => logT t (x k.castSucc)) (x k.succ) + hess (fun u => logL (y k) u) (x k.succ)) *ᵥ v k.succ)

variable {log0 logT logL} (c0 : ContDiff ℝ 2 log0) (cT : ContDiff ℝ 2 fun z : (Fin dx → ℝ) × (Fin dx → ℝ) => logT z.1 z.2)
  (cL : ∀ y, ContDiff ℝ 2 (logL y))

include c0 cT cL

theorem joint_lines (v : Fin (T + 1) → Fin dx → ℝ) (y : Fin T → Fin dy → ℝ) :
    (∀ x, HasLineDerivAt ℝ (fun x => logJoint log0 logT logL x y) (fderiv ℝ (fun x => logJoint log0 logT logL x y) x v) x v) ∧
    ∀ x, HasLineDerivAt ℝ (fun x => fderiv ℝ (fun x => logJoint log0 logT logL x y) x v) (info2 log0 logT logL v x y) x v := by
  have hC : ContDiff ℝ 2 fun x : Fin (T + 1) → Fin dx → ℝ => logJoint log0 logT logL x y := by
    unfold logJoint
    refine ContDiff.add (c0.comp (contDiff_apply ℝ _ _)) (ContDiff.sum fun k _ => ContDiff.add ?_ ?_)
    · exact cT.comp ((contDiff_apply ℝ _ _).prodMk (contDiff_apply ℝ _ _))
    · exact (cL (y k)).comp (contDiff_apply ℝ _ _)
  have hl1 := fun x => line_one hC (ContinuousLinearMap.id ℝ (Fin (T + 1) → Fin dx → ℝ)) x v
  refine ⟨fun x => by simpa using hl1 x, fun x => ?_⟩
  -- the first derivative, term by term
  let π := fun k : Fin (T + 1) => ContinuousLinearMap.proj (R := ℝ) (φ := fun _ : Fin (T + 1) => Fin dx → ℝ) k
  let π2 := fun k : Fin T => (π k.succ).prod (π k.castSucc)
  set F := fun z : (Fin dx → ℝ) × (Fin dx → ℝ) => logT z.1 z.2 with hF
  have t1 : ∀ x, HasLineDerivAt ℝ (fun x => logJoint log0 logT logL x y)
      (fderiv ℝ log0 (π 0 x) (π 0 v) + ∑ k : Fin T, (fderiv ℝ F (π2 k x) (π2 k v) + fderiv ℝ (logL (y k)) (π k.succ x) (π k.succ v))) x v := by
    intro x
    have a0 := line_one c0 (π 0) x v
    have aT := fun k => line_one cT (π2 k) x v
    have aL := fun k : Fin T => line_one (cL (y k)) (π k.succ) x v
    simp only [HasLineDerivAt] at a0 aT aL ⊢
    exact a0.add (HasDerivAt.fun_sum fun k _ => (aT k).add (aL k))
  have e1 : (fun x => fderiv ℝ (fun x => logJoint log0 logT logL x y) x v) = fun x =>
      fderiv ℝ log0 (π 0 x) (π 0 v) + ∑ k : Fin T, (fderiv ℝ F (π2 k x) (π2 k v) + fderiv ℝ (logL (y k)) (π k.succ x) (π k.succ v)) := by
    funext x
    have h1 := hl1 x
    simp only [ContinuousLinearMap.id_apply] at h1
    exact HasDerivAt.unique h1 (t1 x)
  rw [e1]
  have b0 := line_two c0 (π 0) x v
  have bT := fun k => line_two cT (π2 k) x v
  have bL := fun k : Fin T => line_two (cL (y k)) (π k.succ) x v
  have hT : ∀ k : Fin T, fderiv ℝ (fderiv ℝ F) (π2 k x) (π2 k v) (π2 k v)
      = v k.castSucc ⬝ᵥ hess (fun s => logT (x k.succ) s) (x k.castSucc) *ᵥ v k.castSucc
        + 2 * (v k.castSucc ⬝ᵥ hessTS logT (x k.succ) (x k.castSucc) *ᵥ v k.succ)
        + v k.succ ⬝ᵥ hess (fun t => logT t (x k.castSucc)) (x k.succ) *ᵥ v k.succ :=
    fun k => hess_pair cT (x k.succ) (x k.castSucc) (v k.succ) (v k.castSucc)
  have e2 : info2 log0 logT logL v x y = fderiv ℝ (fderiv ℝ log0) (π 0 x) (π 0 v) (π 0 v)
      + ∑ k : Fin T, (fderiv ℝ (fderiv ℝ F) (π2 k x) (π2 k v) (π2 k v) + fderiv ℝ (fderiv ℝ (logL (y k))) (π k.succ x) (π k.succ v) (π k.succ v)) := by
    rw [info2, ← hess_form c0]
    congr 1
    refine Finset.sum_congr rfl fun k _ => ?_
    rw [hT k, ← hess_form (cL (y k)), add_mulVec, dotProduct_add]
    exact (add_assoc _ _ _).symm
  rw [e2]
  simp only [HasLineDerivAt] at b0 bT bL ⊢
  exact b0.add (HasDerivAt.fun_sum fun k _ => (bT k).add (bL k))

end lines

theorem joint_measurable {log0 : (Fin dx → ℝ) → ℝ} {logT : (Fin dx → ℝ) → (Fin dx → ℝ) → ℝ} {logL : (Fin dy → ℝ) → (Fin dx → ℝ) → ℝ}
    (c0 : ContDiff ℝ 2 log0) (cT : ContDiff ℝ 2 fun z : (Fin dx → ℝ) × (Fin dx → ℝ) => logT z.1 z.2)
    (mL : Measurable fun z : (Fin dy → ℝ) × (Fin dx → ℝ) => logL z.1 z.2) :
    Measurable fun z : (Fin (T + 1) → Fin dx → ℝ) × (Fin T → Fin dy → ℝ) => logJoint log0 logT logL z.1 z.2 := by
  unfold logJoint
  have hx : ∀ k : Fin (T + 1), Measurable fun z : (Fin (T + 1) → Fin dx → ℝ) × (Fin T → Fin dy → ℝ) => z.1 k :=
    fun k => (measurable_pi_apply k).comp measurable_fst
  refine (c0.continuous.measurable.comp (hx 0)).add (Finset.measurable_sum _ fun k _ => Measurable.add ?_ ?_)
  · exact cT.continuous.measurable.comp ((hx k.succ).prodMk (hx k.castSucc))
  · exact mL.comp (((measurable_pi_apply k).comp measurable_snd).prodMk (hx k.succ))

theorem info2_mean (log0 : (Fin dx → ℝ) → ℝ) (logT : (Fin dx → ℝ) → (Fin dx → ℝ) → ℝ) (logL : (Fin dy → ℝ) → (Fin dx → ℝ) → ℝ)
    (ℙ : Measure ((Fin (T + 1) → Fin dx → ℝ) × (Fin T → Fin dy → ℝ)))
    (h0 : ∀ i j, Integrable (fun z => hess log0 (z.1 0) i j) ℙ)
    (h11 : ∀ (k : Fin T) i j, Integrable (fun z => hess (fun s => logT (z.1 k.succ) s) (z.1 k.castSucc) i j) ℙ)
    (h12 : ∀ (k : Fin T) i j, Integrable (fun z => hessTS logT (z.1 k.succ) (z.1 k.castSucc) i j) ℙ)
    (h22 : ∀ (k : Fin T) i j, Integrable (fun z =>
      (hess (fun t => logT t (z.1 k.castSucc)) (z.1 k.succ) + hess (fun u => logL (z.2 k) u) (z.1 k.succ)) i j) ℙ)
    (v : Fin (T + 1) → Fin dx → ℝ) :
    Integrable (fun z : (Fin (T + 1) → Fin dx → ℝ) × (Fin T → Fin dy → ℝ) => info2 log0 logT logL v z.1 z.2) ℙ ∧
    ∫ z, info2 log0 logT logL v z.1 z.2 ∂ℙ = -(v 0 ⬝ᵥ (negE ℙ fun z => hess log0 (z.1 0)) *ᵥ v 0 + ∑ k : Fin T,
      (v k.castSucc ⬝ᵥ (negE ℙ fun z => hess (fun s => logT (z.1 k.succ) s) (z.1 k.castSucc)) *ᵥ v k.castSucc
      + 2 * (v k.castSucc ⬝ᵥ (negE ℙ fun z => hessTS logT (z.1 k.succ) (z.1 k.castSucc)) *ᵥ v k.succ)
      + v k.succ ⬝ᵥ (negE ℙ fun z => hess (fun t => logT t (z.1 k.castSucc)) (z.1 k.succ) + hess (fun u => logL (z.2 k) u) (z.1 k.succ))
        *ᵥ v k.succ)) := by
  have f0 := negE_form ℙ h0 (v 0) (v 0)
  have f11 := fun k => negE_form ℙ (h11 k) (v k.castSucc) (v k.castSucc)
  have f12 := fun k => negE_form ℙ (h12 k) (v k.castSucc) (v k.succ)
  have f22 := fun k => negE_form ℙ (h22 k) (v k.succ) (v k.succ)
  have hsumI : ∀ k : Fin T, Integrable (fun z : (Fin (T + 1) → Fin dx → ℝ) × (Fin T → Fin dy → ℝ) =>
      v k.castSucc ⬝ᵥ hess (fun s => logT (z.1 k.succ) s) (z.1 k.castSucc) *ᵥ v k.castSucc
      + 2 * (v k.castSucc ⬝ᵥ hessTS logT (z.1 k.succ) (z.1 k.castSucc) *ᵥ v k.succ)
      + v k.succ ⬝ᵥ (hess (fun t => logT t (z.1 k.castSucc)) (z.1 k.succ) + hess (fun u => logL (z.2 k) u) (z.1 k.succ)) *ᵥ v k.succ) ℙ :=
    fun k => ((f11 k).1.add ((f12 k).1.const_mul 2)).add (f22 k).1
  unfold info2
  refine ⟨f0.1.add (integrable_finsetSum _ fun k _ => hsumI k), ?_⟩
  rw [integral_add f0.1 (integrable_finsetSum _ fun k _ => hsumI k), integral_finsetSum _ fun k _ => hsumI k, f0.2, neg_add,
    ← Finset.sum_neg_distrib]
  congr 1
  refine Finset.sum_congr rfl fun k _ => ?_
  have h12' : Integrable (fun z : (Fin (T + 1) → Fin dx → ℝ) × (Fin T → Fin dy → ℝ) =>
      v k.castSucc ⬝ᵥ hess (fun s => logT (z.1 k.succ) s) (z.1 k.castSucc) *ᵥ v k.castSucc
      + 2 * (v k.castSucc ⬝ᵥ hessTS logT (z.1 k.succ) (z.1 k.castSucc) *ᵥ v k.succ)) ℙ := (f11 k).1.add ((f12 k).1.const_mul 2)
  rw [integral_add h12' (f22 k).1, integral_add (f11 k).1 ((f12 k).1.const_mul 2), integral_const_mul,
    (f11 k).2, (f12 k).2, (f22 k).2]
  ring

theorem err_measurable (est : (Fin T → Fin dy → ℝ) → Fin dx → ℝ) (hest : Measurable est) (b : Fin dx → ℝ) :
    Measurable fun z : (Fin (T + 1) → Fin dx → ℝ) × (Fin T → Fin dy → ℝ) => b ⬝ᵥ (est z.2 - z.1 (Fin.last T)) := by
  simp only [dotProduct, Pi.sub_apply]
  refine Finset.measurable_sum _ fun i _ => measurable_const.mul (Measurable.sub ?_ ?_)
  · exact (measurable_pi_apply i).comp (hest.comp measurable_snd)
  · exact (measurable_pi_apply i).comp ((measurable_pi_apply _).comp measurable_fst)

/-- **C151 (the bound).** Let the states and the measurements have the joint density `exp (log0 (x 0) + ∑ (logT + logL))`, and let
`J` be the recursion of `posterior_cramer_rao` with exact expectations, started from the information of the initial law. Then
whatever estimator of the last state is computed from the measurements, the mean square of each component (in any direction `b`) of
its error is at least `bᵀ J⁻¹ b`. -/
theorem C151_bound (η : Measure (Fin T → Fin dy → ℝ)) [SigmaFinite η]
    (log0 : (Fin dx → ℝ) → ℝ) (logT : (Fin dx → ℝ) → (Fin dx → ℝ) → ℝ) (logL : (Fin dy → ℝ) → (Fin dx → ℝ) → ℝ)
    (c0 : ContDiff ℝ 2 log0) (cT : ContDiff ℝ 2 fun z : (Fin dx → ℝ) × (Fin dx → ℝ) => logT z.1 z.2) (cL : ∀ y, ContDiff ℝ 2 (logL y))
    (mL : Measurable fun z : (Fin dy → ℝ) × (Fin dx → ℝ) => logL z.1 z.2)
    (ℙ : Measure ((Fin (T + 1) → Fin dx → ℝ) × (Fin T → Fin dy → ℝ))) [IsProbabilityMeasure ℙ]
    (hℙ : ℙ = (volume.prod η).withDensity fun z => ENNReal.ofReal (Real.exp (logJoint log0 logT logL z.1 z.2)))
    (hscore : ∀ v, Integrable (fun z => (fderiv ℝ (fun x => logJoint log0 logT logL x z.2) z.1 v) ^ 2) ℙ)
    (h0 : ∀ i j, Integrable (fun z => hess log0 (z.1 0) i j) ℙ)
    (h11 : ∀ (k : Fin T) i j, Integrable (fun z => hess (fun s => logT (z.1 k.succ) s) (z.1 k.castSucc) i j) ℙ)
    (h12 : ∀ (k : Fin T) i j, Integrable (fun z => hessTS logT (z.1 k.succ) (z.1 k.castSucc) i j) ℙ)
    (h22 : ∀ (k : Fin T) i j, Integrable (fun z =>
      (hess (fun t => logT t (z.1 k.castSucc)) (z.1 k.succ) + hess (fun u => logL (z.2 k) u) (z.1 k.succ)) i j) ℙ)
    (J : Fin (T + 1) → Matrix (Fin dx) (Fin dx) ℝ) (d11 d12 d22 : Fin T → Matrix (Fin dx) (Fin dx) ℝ)
    (hJ0 : J 0 = negE ℙ fun z => hess log0 (z.1 0))
    (hd11 : ∀ k, d11 k = negE ℙ fun z => hess (fun s => logT (z.1 k.succ) s) (z.1 k.castSucc))
    (hd12 : ∀ k, d12 k = negE ℙ fun z => hessTS logT (z.1 k.succ) (z.1 k.castSucc))
    (hd22 : ∀ k, d22 k = negE ℙ fun z => hess (fun t => logT t (z.1 k.castSucc)) (z.1 k.succ) + hess (fun u => logL (z.2 k) u) (z.1 k.succ))
    (hJ : ∀ k : Fin T, J k.succ = d22 k - (d12 k)ᵀ * ((J k.castSucc + d11 k)⁻¹ * d12 k))
    (hu : ∀ k : Fin T, IsUnit (J k.castSucc + d11 k).det) (huT : IsUnit (J (Fin.last T)).det)
    (est : (Fin T → Fin dy → ℝ) → Fin dx → ℝ) (hest : Measurable est) (b : Fin dx → ℝ) :
    ENNReal.ofReal (b ⬝ᵥ (J (Fin.last T))⁻¹ *ᵥ b) ≤ ∫⁻ z, ENNReal.ofReal ((b ⬝ᵥ (est z.2 - z.1 (Fin.last T))) ^ 2) ∂ℙ := by
  have hem := err_measurable (dx := dx) est hest b
  by_cases hint : Integrable (fun z : (Fin (T + 1) → Fin dx → ℝ) × (Fin T → Fin dy → ℝ) => (b ⬝ᵥ (est z.2 - z.1 (Fin.last T))) ^ 2) ℙ
  swap
  · refine le_top.trans (le_of_eq ?_)
    by_contra hne
    refine hint ⟨(hem.pow_const 2).aestronglyMeasurable, ?_⟩
    rw [hasFiniteIntegral_iff_ofReal (Eventually.of_forall fun z => sq_nonneg _)]
    exact lt_top_iff_ne_top.2 (Ne.symm hne)
  rw [← ofReal_integral_eq_lintegral_ofReal hint (Eventually.of_forall fun z => sq_nonneg _)]
  refine ENNReal.ofReal_le_ofReal ?_
  -- the direction
  obtain ⟨a, ha⟩ : ∃ a, a = (J (Fin.last T))⁻¹ *ᵥ b := ⟨_, rfl⟩
  obtain ⟨v, hv, hQ⟩ := info_min T J d11 d12 d22 hJ hu a
  obtain ⟨hi2, hE2⟩ := info2_mean log0 logT logL ℙ h0 h11 h12 h22 v
  -- the derivative of the error
  have hde : ∀ (x : Fin (T + 1) → Fin dx → ℝ) (y : Fin T → Fin dy → ℝ),
      HasLineDerivAt ℝ (fun x : Fin (T + 1) → Fin dx → ℝ => b ⬝ᵥ (est y - x (Fin.last T))) (-(b ⬝ᵥ a)) x v := by
    intro x y
    have h1 : ∀ t : ℝ, b ⬝ᵥ (est y - (x + t • v) (Fin.last T)) = b ⬝ᵥ (est y - x (Fin.last T)) + t * (-(b ⬝ᵥ a)) := by
      intro t
      rw [Pi.add_apply, Pi.smul_apply, hv, ← sub_sub, dotProduct_sub, dotProduct_smul, smul_eq_mul]
      ring
    simp only [HasLineDerivAt, h1]
    simpa using ((hasDerivAt_id (0 : ℝ)).mul_const (-(b ⬝ᵥ a))).const_add (b ⬝ᵥ (est y - x (Fin.last T)))
  have hvt := VanTrees.van_trees_law (volume : Measure (Fin (T + 1) → Fin dx → ℝ)) η ℙ hℙ (joint_measurable c0 cT mL) hem
    (fun x y => (joint_lines c0 cT cL v y).1 x) (fun x y => (joint_lines c0 cT cL v y).2 x) hde (hscore v) hi2 hint
  simp only [← hd11, ← hd12, ← hd22, ← hJ0] at hE2
  rw [hE2, hQ, neg_neg, neg_sq] at hvt
  have hJa : J (Fin.last T) *ᵥ a = b := by rw [ha, mulVec_mulVec, Matrix.mul_nonsing_inv _ huT, one_mulVec]
  rw [hJa, dotProduct_comm a b] at hvt
  rw [← ha]
  rcases le_or_gt (b ⬝ᵥ a) 0 with hneg | hpos
  · exact hneg.trans (integral_nonneg fun z => sq_nonneg _)
  · rw [sq] at hvt
    exact le_of_mul_le_mul_left hvt hpos

theorem tendsto_matrix_inv {d : ℕ} {A : ℕ → Matrix (Fin d) (Fin d) ℝ} {M : Matrix (Fin d) (Fin d) ℝ} (h : Tendsto A atTop (𝓝 M))
    (hM : IsUnit M.det) : Tendsto (fun n => (A n)⁻¹) atTop (𝓝 M⁻¹) := by
  simp only [Matrix.inv_def, Ring.inverse_eq_inv']
  have h1 : Tendsto (fun n => (A n).det) atTop (𝓝 M.det) := (continuous_id.matrix_det.tendsto M).comp h
  have h2 : Tendsto (fun n => (A n).adjugate) atTop (𝓝 M.adjugate) := (continuous_id.matrix_adjugate.tendsto M).comp h
  exact (h1.inv₀ hM.ne_zero).smul h2

/-- the mean of a matrix over independent samples converges to its expectation. -/
theorem mean_lln {X Ω : Type} [MeasurableSpace X] [MeasurableSpace Ω] (P : Measure Ω) (Z : ℕ → Ω → X) (hZ : ∀ i, Measurable (Z i))
    (ℙ : Measure X) (hlaw : ∀ i, P.map (Z i) = ℙ) (hind : Pairwise fun i j => ProbabilityTheory.IndepFun (Z i) (Z j) P)
    (M : X → Matrix (Fin dx) (Fin dx) ℝ) (hM : ∀ i j, Integrable (fun z => M z i j) ℙ) :
    ∀ᵐ ω ∂P, Tendsto (fun N : ℕ => -mean fun i : Fin N => M (Z i ω)) atTop (𝓝 (Matrix.of fun i j => -∫ z, M z i j ∂ℙ)) := by
  have key : ∀ i j, ∀ᵐ ω ∂P, Tendsto (fun N : ℕ => (∑ n ∈ Finset.range N, M (Z n ω) i j) / N) atTop (𝓝 (∫ z, M z i j ∂ℙ)) := by
    intro i j
    have hm : ∀ n, AEMeasurable (fun z => M z i j) (P.map (Z n)) := fun n => by rw [hlaw]; exact (hM i j).aestronglyMeasurable.aemeasurable
    have h := ProbabilityTheory.strong_law_ae_real (μ := P) (fun n ω => M (Z n ω) i j)
      (by
        have := hM i j
        rw [← hlaw 0] at this
        exact this.comp_measurable (hZ 0))
      (fun n m hnm => (hind hnm).comp₀ (hZ n).aemeasurable (hZ m).aemeasurable (hm n) (hm m))
      (fun n => ProbabilityTheory.IdentDistrib.comp_of_aemeasurable
        (⟨(hZ n).aemeasurable, (hZ 0).aemeasurable, by rw [hlaw, hlaw]⟩ : ProbabilityTheory.IdentDistrib (Z n) (Z 0) P P) (hm n))
    have e : ∫ ω, M (Z 0 ω) i j ∂P = ∫ z, M z i j ∂ℙ := by
      rw [← hlaw 0, integral_map (f := fun z => M z i j) (hZ 0).aemeasurable (by rw [hlaw]; exact (hM i j).aestronglyMeasurable)]
    rw [e] at h
    exact h
  have key' : ∀ᵐ ω ∂P, ∀ i j, Tendsto (fun N : ℕ => (∑ n ∈ Finset.range N, M (Z n ω) i j) / N) atTop (𝓝 (∫ z, M z i j ∂ℙ)) :=
    ae_all_iff.2 fun i => ae_all_iff.2 fun j => key i j
  filter_upwards [key'] with ω h
  refine tendsto_pi_nhds.2 fun i => tendsto_pi_nhds.2 fun j => ?_
  refine (h i j).neg.congr fun N => ?_
  rw [Matrix.neg_apply, mean, Matrix.smul_apply, Matrix.sum_apply, Finset.sum_range (fun n => M (Z n ω) i j), smul_eq_mul, div_eq_inv_mul]

/-- **C151 (Monte Carlo).** Given independent sample trajectories with their measurements, the matrices which
`posterior_cramer_rao` returns at each time converge almost surely, as their number grows, to the recursion with exact
expectations, and so does the bound `bᵀ J⁻¹ b` computed from the last one. -/
theorem C151_monte_carlo {Ω : Type} [MeasurableSpace Ω] (P : Measure Ω)
    (Z : ℕ → Ω → (Fin (T + 1) → Fin dx → ℝ) × (Fin T → Fin dy → ℝ)) (hZ : ∀ i, Measurable (Z i))
    (ℙ : Measure ((Fin (T + 1) → Fin dx → ℝ) × (Fin T → Fin dy → ℝ))) (hlaw : ∀ i, P.map (Z i) = ℙ)
    (hind : Pairwise fun i j => ProbabilityTheory.IndepFun (Z i) (Z j) P)
    (logT : (Fin dx → ℝ) → (Fin dx → ℝ) → ℝ) (logL : (Fin dy → ℝ) → (Fin dx → ℝ) → ℝ)
    (h11 : ∀ (k : Fin T) i j, Integrable (fun z => hess (fun s => logT (z.1 k.succ) s) (z.1 k.castSucc) i j) ℙ)
    (h12 : ∀ (k : Fin T) i j, Integrable (fun z => hessTS logT (z.1 k.succ) (z.1 k.castSucc) i j) ℙ)
    (h22 : ∀ (k : Fin T) i j, Integrable (fun z =>
      (hess (fun t => logT t (z.1 k.castSucc)) (z.1 k.succ) + hess (fun u => logL (z.2 k) u) (z.1 k.succ)) i j) ℙ)
    (J : Fin (T + 1) → Matrix (Fin dx) (Fin dx) ℝ) (d11 d12 d22 : Fin T → Matrix (Fin dx) (Fin dx) ℝ)
    (hd11 : ∀ k, d11 k = negE ℙ fun z => hess (fun s => logT (z.1 k.succ) s) (z.1 k.castSucc))
    (hd12 : ∀ k, d12 k = negE ℙ fun z => hessTS logT (z.1 k.succ) (z.1 k.castSucc))
    (hd22 : ∀ k, d22 k = negE ℙ fun z => hess (fun t => logT t (z.1 k.castSucc)) (z.1 k.succ) + hess (fun u => logL (z.2 k) u) (z.1 k.succ))
    (hJ : ∀ k : Fin T, J k.succ = d22 k - (d12 k)ᵀ * ((J k.castSucc + d11 k)⁻¹ * d12 k))
    (hu : ∀ k : Fin T, IsUnit (J k.castSucc + d11 k).det) :
    ∀ᵐ ω ∂P, ∃ js : ℕ → List (Matrix (Fin dx) (Fin dx) ℝ),
      (∀ N, posteriorCramerRao (List.ofFn fun (k : Fin (T + 1)) (i : Fin N) => (Z i ω).1 k) (List.ofFn fun (k : Fin T) (i : Fin N) => (Z i ω).2 k)
        (J 0) logT logL = some (js N) ∧ (js N).length = T) ∧
      ∀ k : Fin T, Tendsto (fun N => (js N).getD k 0) atTop (𝓝 (J k.succ)) ∧
        (IsUnit (J k.succ).det → ∀ b : Fin dx → ℝ, Tendsto (fun N => b ⬝ᵥ ((js N).getD k 0)⁻¹ *ᵥ b) atTop (𝓝 (b ⬝ᵥ (J k.succ)⁻¹ *ᵥ b))) := by
  have l11 := ae_all_iff.2 fun k : Fin T => mean_lln P Z hZ ℙ hlaw hind (fun z => hess (fun s => logT (z.1 k.succ) s) (z.1 k.castSucc)) (h11 k)
  have l12 := ae_all_iff.2 fun k : Fin T => mean_lln P Z hZ ℙ hlaw hind (fun z => hessTS logT (z.1 k.succ) (z.1 k.castSucc)) (h12 k)
  have l22 := ae_all_iff.2 fun k : Fin T => mean_lln P Z hZ ℙ hlaw hind
    (fun z => hess (fun t => logT t (z.1 k.castSucc)) (z.1 k.succ) + hess (fun u => logL (z.2 k) u) (z.1 k.succ)) (h22 k)
  filter_upwards [l11, l12, l22] with ω a11 a12 a22
  let traj := fun N : ℕ => List.ofFn fun (k : Fin (T + 1)) (i : Fin N) => (Z i ω).1 k
  let ys := fun N : ℕ => List.ofFn fun (k : Fin T) (i : Fin N) => (Z i ω).2 k
  let es := fun N : ℕ => (ys N).zip ((traj N).tail.zip (traj N).dropLast)
  let js := fun N : ℕ => (scan (fun j e => (step (N := N) logT logL j e, step (N := N) logT logL j e)) (J 0) (es N)).2
  have hlt : ∀ N, (traj N).tail.length = T ∧ (traj N).dropLast.length = T ∧ (ys N).length = T := by
    intro N; simp [traj, ys]
  have hel : ∀ N, (es N).length = T := by
    intro N
    simp only [es, List.length_zip, (hlt N).1, (hlt N).2.1, (hlt N).2.2, min_self]
  have hjl : ∀ N, (js N).length = T := fun N => (scan_length _ _ _).trans (hel N)
  have heg : ∀ N (k : Fin T), (es N)[(k : ℕ)]? = some (fun i : Fin N => (Z i ω).2 k, fun i : Fin N => (Z i ω).1 k.succ, fun i : Fin N => (Z i ω).1 k.castSucc) := by
    intro N k
    have hk := k.2
    have hk' : (k : ℕ) < (es N).length := by rw [hel]; exact hk
    rw [List.getElem?_eq_getElem hk', Option.some.injEq]
    simp only [es, List.getElem_zip, List.getElem_tail, List.getElem_dropLast, ys, traj, List.getElem_ofFn]
    rfl
  have hconv : ∀ k : ℕ, ∀ hk : k < T + 1, Tendsto (fun N => (J 0 :: js N).getD k 0) atTop (𝓝 (J ⟨k, hk⟩)) := by
    intro k
    induction k with
    | zero => intro hk; simp
    | succ k ih =>
      intro hk
      have hkT : k < T := by omega
      have ih' := ih (by omega)
      have hst : ∀ N, (J 0 :: js N).getD (k + 1) 0 = step (N := N) logT logL ((J 0 :: js N).getD k 0)
          (fun i : Fin N => (Z i ω).2 ⟨k, hkT⟩, fun i : Fin N => (Z i ω).1 (Fin.succ ⟨k, hkT⟩), fun i : Fin N => (Z i ω).1 (Fin.castSucc ⟨k, hkT⟩)) := by
        intro N
        have hkj : k < (js N).length := by rw [hjl]; exact hkT
        obtain ⟨prev, e, h1, h2, h3⟩ := scan_get (step (N := N) logT logL) (J 0) (es N) k _ (List.getElem?_eq_getElem hkj)
        rw [heg N ⟨k, hkT⟩, Option.some.injEq] at h2
        rw [List.getD_eq_getElem?_getD, List.getElem?_cons_succ, List.getElem?_eq_getElem hkj, Option.getD_some, h2, h3,
          List.getD_eq_getElem?_getD]
        have h1' : (J 0 :: js N)[k]? = some prev := h1
        rw [h1', Option.getD_some]
      simp only [hst]
      have eJ : J ⟨k + 1, hk⟩ = d22 ⟨k, hkT⟩ - (d12 ⟨k, hkT⟩)ᵀ * ((J ⟨k, by omega⟩ + d11 ⟨k, hkT⟩)⁻¹ * d12 ⟨k, hkT⟩) := hJ ⟨k, hkT⟩
      rw [eJ]
      have t11 := a11 ⟨k, hkT⟩
      have t12 := a12 ⟨k, hkT⟩
      have t22 := a22 ⟨k, hkT⟩
      change Tendsto _ _ (𝓝 (negE ℙ _)) at t11 t12 t22
      rw [← hd11] at t11
      rw [← hd12] at t12
      rw [← hd22] at t22
      have tI := tendsto_matrix_inv (ih'.add t11) (hu ⟨k, hkT⟩)
      have tT := ((continuous_id.matrix_transpose).tendsto (d12 ⟨k, hkT⟩)).comp t12
      exact t22.sub (tT.mul (tI.mul t12))
  refine ⟨js, fun N => ⟨?_, hjl N⟩, fun k => ?_⟩
  · rw [posteriorCramerRao, if_pos]
    exact ⟨(hlt N).1.trans (hlt N).2.2.symm, (hlt N).2.1.trans (hlt N).2.2.symm⟩
  · have h := hconv (k + 1) (by omega)
    have h' : Tendsto (fun N => (js N).getD k 0) atTop (𝓝 (J k.succ)) := by 
      simp only [List.getD_cons_succ] at h; exact h
    refine ⟨h', fun hk b => ?_⟩
    have hi := tendsto_matrix_inv h' hk
    have hc : Continuous fun A : Matrix (Fin dx) (Fin dx) ℝ => b ⬝ᵥ A *ᵥ b := by
      simp only [dotProduct, mulVec]
      fun_prop
    exact (hc.tendsto _).comp hi

section walk

/-! the hypotheses are met by the Gaussian random walk observed in noise -/

/-- functions of at most quadratic growth times a Gaussian factor are integrable. -/
theorem integrable_of_gauss {E : Type} [NormedAddCommGroup E] [NormedSpace ℝ E] [FiniteDimensional ℝ E] [MeasurableSpace E] [BorelSpace E]
    (μ : Measure E) [μ.IsAddHaarMeasure] {g : E → ℝ} (hg : Continuous g) {K c : ℝ} (hc : 0 < c)
    (h : ∀ z, |g z| ≤ K * ((1 + ‖z‖ ^ 2) * Real.exp (-(c * ‖z‖ ^ 2)))) : Integrable g μ := by
  obtain ⟨n, hn⟩ : ∃ n : ℕ, n = Module.finrank ℝ E + 1 := ⟨_, rfl⟩
  have hi := integrable_rpow_neg_one_add_norm_sq (E := E) (μ := μ) (r := 2 * (n : ℝ)) (by rw [hn]; push_cast; linarith)
  have hK : 0 ≤ K := by
    have h0 := (abs_nonneg _).trans (h 0)
    simp only [norm_zero, ne_eq, OfNat.ofNat_ne_zero, not_false_eq_true, zero_pow, mul_zero, neg_zero, Real.exp_zero, add_zero, mul_one] at h0
    exact h0
  refine (hi.const_mul (K * (Real.exp c * ((n + 1).factorial : ℝ) / c ^ (n + 1)))).mono' hg.aestronglyMeasurable (Eventually.of_forall fun z => ?_)
  refine (h z).trans ?_
  rw [mul_assoc]
  refine mul_le_mul_of_nonneg_left ?_ hK
  have ht : 0 < 1 + ‖z‖ ^ 2 := by positivity
  have hp := Real.pow_div_factorial_le_exp (x := c * (1 + ‖z‖ ^ 2)) (by positivity) (n + 1)
  have e1 : ((1 : ℝ) + ‖z‖ ^ 2) ^ (-(2 * (n : ℝ)) / 2) = ((1 + ‖z‖ ^ 2) ^ n)⁻¹ := by
    rw [show -(2 * (n : ℝ)) / 2 = -(n : ℝ) by ring, Real.rpow_neg ht.le, Real.rpow_natCast]
  have e2 : Real.exp (-(c * ‖z‖ ^ 2)) = Real.exp c * (Real.exp (c * (1 + ‖z‖ ^ 2)))⁻¹ := by
    rw [← Real.exp_neg, ← Real.exp_add]; congr 1; ring
  rw [e1, e2]
  have hf : (0 : ℝ) < ((n + 1).factorial : ℝ) := by exact_mod_cast Nat.factorial_pos _
  have h3 : (Real.exp (c * (1 + ‖z‖ ^ 2)))⁻¹ ≤ ((n + 1).factorial : ℝ) / (c * (1 + ‖z‖ ^ 2)) ^ (n + 1) := by
    rw [← inv_div]
    exact inv_anti₀ (by positivity) hp
  calc (1 + ‖z‖ ^ 2) * (Real.exp c * (Real.exp (c * (1 + ‖z‖ ^ 2)))⁻¹)
      ≤ (1 + ‖z‖ ^ 2) * (Real.exp c * (((n + 1).factorial : ℝ) / (c * (1 + ‖z‖ ^ 2)) ^ (n + 1))) := by gcongr
    _ = Real.exp c * ((n + 1).factorial : ℝ) / c ^ (n + 1) * ((1 + ‖z‖ ^ 2) ^ n)⁻¹ := by
      rw [mul_pow, pow_succ (1 + ‖z‖ ^ 2)]
      field_simp

theorem haar_traj (n d : ℕ) : (volume : Measure (Fin n → Fin d → ℝ)).IsAddHaarMeasure :=
  Measure.pi.isAddHaarMeasure _

noncomputable def wlog0 (c : ℝ) (x : Fin 1 → ℝ) : ℝ := -c - (1 / 2) * x 0 ^ 2
noncomputable def wlog (t s : Fin 1 → ℝ) : ℝ := 0 - (1 / 2) * (t 0 - s 0) ^ 2

theorem w_hess0 (c : ℝ) (x : Fin 1 → ℝ) : hess (wlog0 c) x = -1 := by
  have := hess_quad (-c) (0 : Fin 1 → ℝ) (1 : Matrix (Fin 1) (Fin 1) ℝ) 1 (by simp) x
  simp only [zero_add, one_mulVec, transpose_one, Matrix.mul_one] at this
  rw [← this]
  congr 1
  funext u
  simp [wlog0, dotProduct, sq]

theorem w_hess_s (t s : Fin 1 → ℝ) : hess (fun s => wlog t s) s = -1 := by
  have := hess_quad 0 t (-1 : Matrix (Fin 1) (Fin 1) ℝ) 1 (by simp) s
  simp only [one_mulVec, neg_mulVec, transpose_neg, transpose_one, Matrix.mul_one, Matrix.mul_neg, neg_neg] at this
  rw [← this]
  congr 1
  funext u
  simp [wlog, dotProduct, sq, ← sub_eq_add_neg]

theorem w_hess_t (t s : Fin 1 → ℝ) : hess (fun t => wlog t s) t = -1 := by
  have := hess_quad 0 (-s) (1 : Matrix (Fin 1) (Fin 1) ℝ) 1 (by simp) t
  simp only [one_mulVec, transpose_one, Matrix.mul_one, neg_add_eq_sub] at this
  rw [← this]
  congr 1
  funext u
  simp [wlog, dotProduct, sq]

theorem w_hess_ts (t s : Fin 1 → ℝ) : hessTS wlog t s = 1 := by
  have := hessTS_quad 0 0 (1 : Matrix (Fin 1) (Fin 1) ℝ) (-1) 1 (by simp) t s
  simp only [one_mulVec, zero_add, neg_mulVec, ← sub_eq_add_neg, transpose_neg, transpose_one, Matrix.mul_one, neg_neg] at this
  rw [← this]
  congr 1
  funext u w
  simp [wlog, dotProduct, sq]

theorem w_smooth0 (c : ℝ) : ContDiff ℝ 2 (wlog0 c) := by
  unfold wlog0
  fun_prop

theorem w_smooth : ContDiff ℝ 2 fun z : (Fin 1 → ℝ) × (Fin 1 → ℝ) => wlog z.1 z.2 := by
  unfold wlog
  fun_prop

theorem w_quad (c : ℝ) (x : Fin 2 → Fin 1 → ℝ) (y : Fin 1 → Fin 1 → ℝ) : logJoint (T := 1) (wlog0 c) wlog wlog x y
    = -c - (1 / 2) * (x 0 0 ^ 2 + (x 1 0 - x 0 0) ^ 2 + (y 0 0 - x 1 0) ^ 2) := by
  simp only [logJoint, wlog0, wlog, Fin.sum_univ_one]
  simp only [Fin.isValue, Fin.succ_zero_eq_one, Fin.castSucc_zero]
  ring

theorem w_norm (z : (Fin 2 → Fin 1 → ℝ) × (Fin 1 → Fin 1 → ℝ)) :
    ‖z‖ ^ 2 ≤ z.1 0 0 ^ 2 + z.1 1 0 ^ 2 + z.2 0 0 ^ 2 ∧ |z.1 0 0| ≤ ‖z‖ ∧ |z.1 1 0| ≤ ‖z‖ ∧ |z.2 0 0| ≤ ‖z‖ := by
  have b1 : ∀ k, |z.1 k 0| ≤ ‖z‖ := fun k => ((norm_le_pi_norm (z.1 k) 0).trans (norm_le_pi_norm z.1 k)).trans (norm_fst_le z)
  have b2 : |z.2 0 0| ≤ ‖z‖ := ((norm_le_pi_norm (z.2 0) 0).trans (norm_le_pi_norm z.2 0)).trans (norm_snd_le z)
  refine ⟨?_, b1 0, b1 1, b2⟩
  have hle : ‖z‖ ≤ Real.sqrt (z.1 0 0 ^ 2 + z.1 1 0 ^ 2 + z.2 0 0 ^ 2) := by
    refine norm_prod_le_iff.2 ⟨?_, ?_⟩
    · refine (pi_norm_le_iff_of_nonneg (Real.sqrt_nonneg _)).2 fun k => (pi_norm_le_iff_of_nonneg (Real.sqrt_nonneg _)).2 fun i => ?_
      rw [Real.norm_eq_abs]
      refine Real.abs_le_sqrt ?_
      obtain rfl : i = 0 := Subsingleton.elim _ _
      fin_cases k
      · simp only [Fin.zero_eta]; nlinarith [sq_nonneg (z.1 1 0), sq_nonneg (z.2 0 0)]
      · simp only [Fin.mk_one]; nlinarith [sq_nonneg (z.1 0 0), sq_nonneg (z.2 0 0)]
    · refine (pi_norm_le_iff_of_nonneg (Real.sqrt_nonneg _)).2 fun k => (pi_norm_le_iff_of_nonneg (Real.sqrt_nonneg _)).2 fun i => ?_
      rw [Real.norm_eq_abs]
      refine Real.abs_le_sqrt ?_
      obtain rfl : i = 0 := Subsingleton.elim _ _
      obtain rfl : k = 0 := Subsingleton.elim _ _
      nlinarith [sq_nonneg (z.1 1 0), sq_nonneg (z.1 0 0)]
  calc ‖z‖ ^ 2 ≤ Real.sqrt (z.1 0 0 ^ 2 + z.1 1 0 ^ 2 + z.2 0 0 ^ 2) ^ 2 := pow_le_pow_left₀ (norm_nonneg _) hle 2
    _ = _ := Real.sq_sqrt (by positivity)

theorem w_exp (c : ℝ) (z : (Fin 2 → Fin 1 → ℝ) × (Fin 1 → Fin 1 → ℝ)) :
    Real.exp (logJoint (T := 1) (wlog0 c) wlog wlog z.1 z.2) ≤ Real.exp (-c) * Real.exp (-((1 / 20) * ‖z‖ ^ 2)) := by
  rw [w_quad, ← Real.exp_add]
  refine Real.exp_le_exp.2 ?_
  have := (w_norm z).1
  nlinarith [sq_nonneg (10 * z.1 0 0 - 6 * z.1 1 0), sq_nonneg (10 * z.1 1 0 - 8 * z.2 0 0), sq_nonneg (z.1 0 0 - z.1 1 0),
    sq_nonneg (19 * z.1 0 0 - 10 * z.1 1 0), sq_nonneg (13 * z.1 1 0 - 10 * z.2 0 0), sq_nonneg (z.1 1 0), sq_nonneg (z.2 0 0)]

/-- a random walk from a standard normal with standard normal increments, its last state observed in standard normal noise: every
estimator of the last state has mean square error at least `2/3`. -/
example : ∃ (c : ℝ) (ℙ : Measure ((Fin 2 → Fin 1 → ℝ) × (Fin 1 → Fin 1 → ℝ))), IsProbabilityMeasure ℙ ∧
    ℙ = (volume.prod volume).withDensity (fun z => ENNReal.ofReal (Real.exp (logJoint (T := 1) (wlog0 c) wlog wlog z.1 z.2))) ∧
    ∀ est : (Fin 1 → Fin 1 → ℝ) → Fin 1 → ℝ, Measurable est →
      ENNReal.ofReal (2 / 3) ≤ ∫⁻ z, ENNReal.ofReal ((est z.2 0 - z.1 1 0) ^ 2) ∂ℙ := by
  have i1 := haar_traj 2 1
  have i2 := haar_traj 1 1
  have : ((volume : Measure (Fin 2 → Fin 1 → ℝ)).prod (volume : Measure (Fin 1 → Fin 1 → ℝ))).IsAddHaarMeasure :=
    Measure.prod.instIsAddHaarMeasure _ _
  have hcont : ∀ c, Continuous fun z : (Fin 2 → Fin 1 → ℝ) × (Fin 1 → Fin 1 → ℝ) => Real.exp (logJoint (T := 1) (wlog0 c) wlog wlog z.1 z.2) := by
    intro c
    simp only [w_quad]
    fun_prop
  have hI0 : Integrable (fun z : (Fin 2 → Fin 1 → ℝ) × (Fin 1 → Fin 1 → ℝ) => Real.exp (logJoint (T := 1) (wlog0 0) wlog wlog z.1 z.2))
      (volume.prod volume) := by
    refine integrable_of_gauss _ (hcont 0) (c := 1 / 20) (K := 1) (by norm_num) fun z => ?_
    rw [abs_of_pos (Real.exp_pos _), one_mul]
    refine (w_exp 0 z).trans ?_
    rw [neg_zero, Real.exp_zero, one_mul]
    refine le_mul_of_one_le_left (Real.exp_pos _).le ?_
    nlinarith [sq_nonneg ‖z‖]
  obtain ⟨Z, hZ⟩ : ∃ Z, Z = ∫ z : (Fin 2 → Fin 1 → ℝ) × (Fin 1 → Fin 1 → ℝ), Real.exp (logJoint (T := 1) (wlog0 0) wlog wlog z.1 z.2) ∂(volume.prod volume) :=
    ⟨_, rfl⟩
  have hZpos : 0 < Z := by
    rw [hZ]
    exact integral_exp_pos hI0
  have hlog : ∀ z : (Fin 2 → Fin 1 → ℝ) × (Fin 1 → Fin 1 → ℝ), Real.exp (logJoint (T := 1) (wlog0 (Real.log Z)) wlog wlog z.1 z.2)
      = Z⁻¹ * Real.exp (logJoint (T := 1) (wlog0 0) wlog wlog z.1 z.2) := by
    intro z
    rw [w_quad, w_quad, show ∀ q : ℝ, -Real.log Z - q = -Real.log Z + (-0 - q) by intro q; ring, Real.exp_add, Real.exp_neg, Real.exp_log hZpos]
  obtain ⟨ℙ, hℙ⟩ : ∃ ℙ : Measure ((Fin 2 → Fin 1 → ℝ) × (Fin 1 → Fin 1 → ℝ)), ℙ = (volume.prod volume).withDensity
    (fun z => ENNReal.ofReal (Real.exp (logJoint (T := 1) (wlog0 (Real.log Z)) wlog wlog z.1 z.2))) := ⟨_, rfl⟩
  have hprob : IsProbabilityMeasure ℙ := by
    constructor
    rw [hℙ, withDensity_apply _ MeasurableSet.univ, Measure.restrict_univ, ← ofReal_integral_eq_lintegral_ofReal]
    · simp only [hlog]
      rw [integral_const_mul, ← hZ, inv_mul_cancel₀ hZpos.ne', ENNReal.ofReal_one]
    · simp only [hlog]; exact hI0.const_mul _
    · exact Eventually.of_forall fun z => (Real.exp_pos _).le
  refine ⟨Real.log Z, ℙ, hprob, hℙ, fun est hest => ?_⟩
  have hIq : ∀ g : (Fin 2 → Fin 1 → ℝ) × (Fin 1 → Fin 1 → ℝ) → ℝ, Continuous g → ∀ K, (∀ z, |g z| ≤ K * (1 + ‖z‖ ^ 2)) → Integrable g ℙ := by
    intro g hg K hK
    have hm : Measurable fun z : (Fin 2 → Fin 1 → ℝ) × (Fin 1 → Fin 1 → ℝ) =>
        ENNReal.ofReal (Real.exp (logJoint (T := 1) (wlog0 (Real.log Z)) wlog wlog z.1 z.2)) := (hcont _).measurable.ennreal_ofReal
    rw [hℙ, integrable_withDensity_iff_integrable_smul' hm (Eventually.of_forall fun z => ENNReal.ofReal_lt_top)]
    simp only [ENNReal.toReal_ofReal (Real.exp_pos _).le, smul_eq_mul]
    refine integrable_of_gauss _ ((hcont _).mul hg) (c := 1 / 20) (K := K * Real.exp (-Real.log Z)) (by norm_num) fun z => ?_
    rw [abs_mul, abs_of_pos (Real.exp_pos _)]
    calc _ ≤ (Real.exp (-Real.log Z) * Real.exp (-((1 / 20) * ‖z‖ ^ 2))) * (K * (1 + ‖z‖ ^ 2)) :=
          mul_le_mul (w_exp _ z) (hK z) (abs_nonneg _) (by positivity)
      _ = _ := by ring
  have hneg : ∀ M : Matrix (Fin 1) (Fin 1) ℝ, (negE ℙ fun _ => M) = -M := by
    intro M
    ext i j
    simp [negE]
  have hsc : ∀ v, Integrable (fun z : (Fin 2 → Fin 1 → ℝ) × (Fin 1 → Fin 1 → ℝ) =>
      (fderiv ℝ (fun x => logJoint (T := 1) (wlog0 (Real.log Z)) wlog wlog x z.2) z.1 v) ^ 2) ℙ := by
    intro v
    have hd : ∀ z : (Fin 2 → Fin 1 → ℝ) × (Fin 1 → Fin 1 → ℝ), fderiv ℝ (fun x => logJoint (T := 1) (wlog0 (Real.log Z)) wlog wlog x z.2) z.1 v
        = -(z.1 0 0 * v 0 0 + (z.1 1 0 - z.1 0 0) * (v 1 0 - v 0 0) - (z.2 0 0 - z.1 1 0) * v 1 0) := by
      intro z
      have h1 := (joint_lines (T := 1) (logL := wlog) (w_smooth0 (Real.log Z)) w_smooth (fun y => w_smooth.comp (contDiff_prodMk_right y)) v z.2).1 z.1
      refine HasDerivAt.unique (f := fun t : ℝ => logJoint (T := 1) (wlog0 (Real.log Z)) wlog wlog (z.1 + t • v) z.2) h1 ?_
      have e : ∀ t : ℝ, logJoint (T := 1) (wlog0 (Real.log Z)) wlog wlog (z.1 + t • v) z.2
          = logJoint (T := 1) (wlog0 (Real.log Z)) wlog wlog z.1 z.2
            + (t * -(z.1 0 0 * v 0 0 + (z.1 1 0 - z.1 0 0) * (v 1 0 - v 0 0) - (z.2 0 0 - z.1 1 0) * v 1 0)
              + t ^ 2 * (-(1 / 2) * (v 0 0 ^ 2 + (v 1 0 - v 0 0) ^ 2 + v 1 0 ^ 2))) := by
        intro t
        simp only [w_quad, Pi.add_apply, Pi.smul_apply, smul_eq_mul]
        ring
      simp only [e]
      have h2 := ((hasDerivAt_id (0 : ℝ)).mul_const (-(z.1 0 0 * v 0 0 + (z.1 1 0 - z.1 0 0) * (v 1 0 - v 0 0) - (z.2 0 0 - z.1 1 0) * v 1 0))).add
        (((hasDerivAt_id (0 : ℝ)).pow 2).mul_const (-(1 / 2) * (v 0 0 ^ 2 + (v 1 0 - v 0 0) ^ 2 + v 1 0 ^ 2)))
      simpa using h2.const_add (logJoint (T := 1) (wlog0 (Real.log Z)) wlog wlog z.1 z.2)
    simp only [hd]
    refine hIq _ (by fun_prop) ((|v 0 0| + 2 * |v 1 0 - v 0 0| + 2 * |v 1 0|) ^ 2) fun z => ?_
    obtain ⟨-, b1, b2, b3⟩ := w_norm z
    rw [abs_pow, abs_neg]
    have hab : |z.1 0 0 * v 0 0 + (z.1 1 0 - z.1 0 0) * (v 1 0 - v 0 0) - (z.2 0 0 - z.1 1 0) * v 1 0|
        ≤ (|v 0 0| + 2 * |v 1 0 - v 0 0| + 2 * |v 1 0|) * ‖z‖ := by
      calc _ ≤ |z.1 0 0| * |v 0 0| + (|z.1 1 0| + |z.1 0 0|) * |v 1 0 - v 0 0| + (|z.2 0 0| + |z.1 1 0|) * |v 1 0| := by
            refine (abs_sub _ _).trans (add_le_add ((abs_add_le _ _).trans (add_le_add ?_ ?_)) ?_)
            · rw [abs_mul]
            · rw [abs_mul]; exact mul_le_mul_of_nonneg_right (abs_sub _ _) (abs_nonneg _)
            · rw [abs_mul]; exact mul_le_mul_of_nonneg_right (abs_sub _ _) (abs_nonneg _)
        _ ≤ ‖z‖ * |v 0 0| + (‖z‖ + ‖z‖) * |v 1 0 - v 0 0| + (‖z‖ + ‖z‖) * |v 1 0| := by gcongr
        _ = _ := by ring
    calc _ ≤ ((|v 0 0| + 2 * |v 1 0 - v 0 0| + 2 * |v 1 0|) * ‖z‖) ^ 2 := pow_le_pow_left₀ (abs_nonneg _) hab 2
      _ ≤ _ := by
        rw [mul_pow]
        exact mul_le_mul_of_nonneg_left (by linarith) (sq_nonneg _)
  have h := C151_bound (T := 1) volume (wlog0 (Real.log Z)) wlog wlog (w_smooth0 _) w_smooth (fun y => w_smooth.comp (contDiff_prodMk_right y))
    w_smooth.continuous.measurable ℙ hℙ hsc (fun i j => by simp only [w_hess0]; exact integrable_const _)
    (fun k i j => by simp only [w_hess_s]; exact integrable_const _) (fun k i j => by simp only [w_hess_ts]; exact integrable_const _)
    (fun k i j => by simp only [w_hess_s, w_hess_t]; exact integrable_const _)
    ![1, Matrix.diagonal fun _ => 3 / 2] (fun _ => 1) (fun _ => -1) (fun _ => 1 + 1)
    (by simp only [w_hess0, hneg]; simp) (fun k => by simp only [w_hess_s, hneg]; simp) (fun k => by simp only [w_hess_ts, hneg])
    (fun k => by simp only [w_hess_s, w_hess_t, hneg]; simp)
    (fun k => by
      obtain rfl : k = 0 := Subsingleton.elim _ _
      ext i j
      obtain rfl : i = 0 := Subsingleton.elim _ _
      obtain rfl : j = 0 := Subsingleton.elim _ _
      simp
      norm_num)
    (fun k => by
      obtain rfl : k = 0 := Subsingleton.elim _ _
      simp)
    (by simp [Fin.last]) est hest (fun _ => 1)
  refine le_trans (le_of_eq ?_) (h.trans (le_of_eq ?_))
  · congr 1
    simp [Fin.last, dotProduct, mulVec]
  · refine lintegral_congr fun z => ?_
    simp [Fin.last, dotProduct]

end walk

end Mfs.Props

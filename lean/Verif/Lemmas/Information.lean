import Verif.Lemmas.Pcrlb
import Mathlib.Analysis.Calculus.LineDeriv.Basic
import Mathlib.Analysis.Calculus.ContDiff.Operations

/-!
# The information recursion as a minimisation, and second derivatives of log-densities along a line
-/

namespace Mfs.Pcrlb

open Matrix

variable {dx : ℕ}

/-- the recursion eliminates the earlier states: the quadratic form of the information about all states, minimised over the earlier
ones, is the quadratic form of the last matrix. -/
theorem info_min : ∀ (T : ℕ) (J : Fin (T + 1) → Matrix (Fin dx) (Fin dx) ℝ) (d11 d12 d22 : Fin T → Matrix (Fin dx) (Fin dx) ℝ)
    (_ : ∀ k : Fin T, J k.succ = d22 k - (d12 k)ᵀ * ((J k.castSucc + d11 k)⁻¹ * d12 k))
    (_ : ∀ k : Fin T, IsUnit (J k.castSucc + d11 k).det) (a : Fin dx → ℝ),
    ∃ v : Fin (T + 1) → Fin dx → ℝ, v (Fin.last T) = a ∧
      v 0 ⬝ᵥ J 0 *ᵥ v 0 + ∑ k : Fin T, (v k.castSucc ⬝ᵥ d11 k *ᵥ v k.castSucc + 2 * (v k.castSucc ⬝ᵥ d12 k *ᵥ v k.succ)
        + v k.succ ⬝ᵥ d22 k *ᵥ v k.succ) = a ⬝ᵥ J (Fin.last T) *ᵥ a
  | 0, J, _, _, _, _, _, a => ⟨fun _ => a, rfl, by simp⟩
  | T + 1, J, d11, d12, d22, hJ, hu, a => by
    set M := J (Fin.last T).castSucc + d11 (Fin.last T) with hM
    have hMu : IsUnit M.det := hu (Fin.last T)
    set w := -(M⁻¹ *ᵥ (d12 (Fin.last T) *ᵥ a)) with hw
    obtain ⟨v, hv, hQ⟩ := info_min T (fun k => J k.castSucc) (fun k => d11 k.castSucc) (fun k => d12 k.castSucc) (fun k => d22 k.castSucc)
      (fun k => hJ k.castSucc) (fun k => hu k.castSucc) w
    refine ⟨Fin.snoc v a, by simp, ?_⟩
    rw [Fin.sum_univ_castSucc]
    have e0 : (Fin.snoc v a : Fin (T + 1 + 1) → Fin dx → ℝ) 0 = v 0 := Fin.snoc_castSucc (α := fun _ => Fin dx → ℝ) a v 0
    have e1 : ∀ k : Fin (T + 1), (Fin.snoc v a : Fin (T + 1 + 1) → Fin dx → ℝ) k.castSucc = v k :=
      fun k => Fin.snoc_castSucc (α := fun _ => Fin dx → ℝ) a v k
    have e2 : ∀ k : Fin T, (Fin.snoc v a : Fin (T + 1 + 1) → Fin dx → ℝ) k.castSucc.succ = v k.succ := fun k => e1 k.succ
    have e3 : (Fin.snoc v a : Fin (T + 1 + 1) → Fin dx → ℝ) (Fin.last T).succ = a := Fin.snoc_last (α := fun _ => Fin dx → ℝ) a v
    rw [e0, e1, e3]
    simp only [e1, e2]
    rw [← add_assoc]
    have hQ' := hQ
    simp only [Fin.castSucc_zero] at hQ'
    rw [hQ', hv]
    have hlast : J (Fin.last (T + 1)) = d22 (Fin.last T) - (d12 (Fin.last T))ᵀ * (M⁻¹ * d12 (Fin.last T)) := hJ (Fin.last T)
    rw [hlast]
    set c := d12 (Fin.last T) *ᵥ a with hc
    have hq1 : w ⬝ᵥ J (Fin.last T).castSucc *ᵥ w + w ⬝ᵥ d11 (Fin.last T) *ᵥ w = c ⬝ᵥ M⁻¹ *ᵥ c := by
      have hMw : M *ᵥ w = -c := by
        rw [hw, mulVec_neg]
        conv_lhs => rw [mulVec_mulVec c, Matrix.mul_nonsing_inv _ hMu, one_mulVec]
      rw [← dotProduct_add, ← add_mulVec, ← hM, hMw, hw, neg_dotProduct_neg, dotProduct_comm]
    have hq2 : w ⬝ᵥ c = -(c ⬝ᵥ M⁻¹ *ᵥ c) := by rw [hw, neg_dotProduct, dotProduct_comm]
    have hq3 : a ⬝ᵥ ((d12 (Fin.last T))ᵀ * (M⁻¹ * d12 (Fin.last T))) *ᵥ a = c ⬝ᵥ M⁻¹ *ᵥ c := by
      rw [← mulVec_mulVec, ← mulVec_mulVec, ← hc, dotProduct_mulVec a, vecMul_transpose]
    rw [sub_mulVec, dotProduct_sub, hq3]
    linarith

/-- first and second derivatives along a line, of a function seen through a linear map. -/
theorem line_one {E V : Type*} [NormedAddCommGroup E] [NormedSpace ℝ E] [NormedAddCommGroup V] [NormedSpace ℝ V] {f : V → ℝ}
    (hf : ContDiff ℝ 2 f) (L : E →L[ℝ] V) (x v : E) : HasLineDerivAt ℝ (fun x => f (L x)) (fderiv ℝ f (L x) (L v)) x v := by
  have h : HasFDerivAt (fun x => f (L x)) ((fderiv ℝ f (L x)).comp L) x :=
    ((hf.differentiable (by norm_num)) (L x)).hasFDerivAt.comp x L.hasFDerivAt
  exact h.hasLineDerivAt v

theorem line_two {E V : Type*} [NormedAddCommGroup E] [NormedSpace ℝ E] [NormedAddCommGroup V] [NormedSpace ℝ V] {f : V → ℝ}
    (hf : ContDiff ℝ 2 f) (L : E →L[ℝ] V) (x v : E) :
    HasLineDerivAt ℝ (fun x => fderiv ℝ f (L x) (L v)) (fderiv ℝ (fderiv ℝ f) (L x) (L v) (L v)) x v := by
  have hd : Differentiable ℝ (fderiv ℝ f) := (hf.fderiv_right (m := 1) (by norm_num)).differentiable (by norm_num)
  have h1 : HasFDerivAt (fun x => fderiv ℝ f (L x)) ((fderiv ℝ (fderiv ℝ f) (L x)).comp L) x := (hd (L x)).hasFDerivAt.comp x L.hasFDerivAt
  have h2 := h1.clm_apply (hasFDerivAt_const (L v) x)
  have := h2.hasLineDerivAt v
  simpa using this

theorem clm_pi {d : ℕ} (A : (Fin d → ℝ) →L[ℝ] ℝ) (v : Fin d → ℝ) : A v = ∑ i, v i * A (Pi.single i 1) := by
  conv_lhs => rw [pi_eq_sum_univ' v, map_sum]
  simp

theorem hess_form {d : ℕ} {f : (Fin d → ℝ) → ℝ} (hf : ContDiff ℝ 2 f) (x v : Fin d → ℝ) :
    v ⬝ᵥ hess f x *ᵥ v = fderiv ℝ (fderiv ℝ f) x v v := by
  have hd : Differentiable ℝ (fderiv ℝ f) := (hf.fderiv_right (m := 1) (by norm_num)).differentiable (by norm_num)
  have he : ∀ i j, hess f x i j = fderiv ℝ (fderiv ℝ f) x (Pi.single j 1) (Pi.single i 1) := by
    intro i j
    simp only [hess, Matrix.of_apply, pd]
    have h2 := (hd x).hasFDerivAt.clm_apply (hasFDerivAt_const (Pi.single i (1 : ℝ) : Fin d → ℝ) x)
    rw [h2.fderiv]
    simp
  rw [clm_pi (fderiv ℝ (fderiv ℝ f) x v) v, dotProduct]
  refine Finset.sum_congr rfl fun i _ => ?_
  congr 1
  rw [mulVec, dotProduct]
  have := clm_pi ((fderiv ℝ (fderiv ℝ f) x).flip (Pi.single i 1)) v
  simp only [ContinuousLinearMap.flip_apply] at this
  rw [this]
  exact Finset.sum_congr rfl fun j _ => by rw [he, mul_comm]

/-- the second derivative of a function of two arguments along `(a, b)`. -/
theorem hess_pair {d : ℕ} {f : (Fin d → ℝ) → (Fin d → ℝ) → ℝ} (hf : ContDiff ℝ 2 fun z : (Fin d → ℝ) × (Fin d → ℝ) => f z.1 z.2)
    (t s a b : Fin d → ℝ) :
    fderiv ℝ (fderiv ℝ fun z : (Fin d → ℝ) × (Fin d → ℝ) => f z.1 z.2) (t, s) (a, b) (a, b)
      = b ⬝ᵥ hess (fun s => f t s) s *ᵥ b + 2 * (b ⬝ᵥ hessTS f t s *ᵥ a) + a ⬝ᵥ hess (fun t => f t s) t *ᵥ a := by
  set F := fun z : (Fin d → ℝ) × (Fin d → ℝ) => f z.1 z.2 with hF
  have hd : Differentiable ℝ F := hf.differentiable (by norm_num)
  have hd2 : Differentiable ℝ (fderiv ℝ F) := (hf.fderiv_right (m := 1) (by norm_num)).differentiable (by norm_num)
  have hi1 : ∀ t s : Fin d → ℝ, HasFDerivAt (fun t : Fin d → ℝ => (t, s)) (ContinuousLinearMap.inl ℝ (Fin d → ℝ) (Fin d → ℝ)) t :=
    fun t s => hasFDerivAt_prodMk_left t s
  have hi2 : ∀ t s : Fin d → ℝ, HasFDerivAt (fun s : Fin d → ℝ => (t, s)) (ContinuousLinearMap.inr ℝ (Fin d → ℝ) (Fin d → ℝ)) s :=
    fun t s => hasFDerivAt_prodMk_right t s
  have p1 : ∀ t s, fderiv ℝ (fun t => f t s) t = (fderiv ℝ F (t, s)).comp (ContinuousLinearMap.inl ℝ (Fin d → ℝ) (Fin d → ℝ)) := by
    intro t s
    have : HasFDerivAt (F ∘ fun t => (t, s)) _ t := (hd (t, s)).hasFDerivAt.comp t (hi1 t s)
    exact this.fderiv
  have p2 : ∀ t s, fderiv ℝ (fun s => f t s) s = (fderiv ℝ F (t, s)).comp (ContinuousLinearMap.inr ℝ (Fin d → ℝ) (Fin d → ℝ)) := by
    intro t s
    have : HasFDerivAt (F ∘ fun s => (t, s)) _ s := (hd (t, s)).hasFDerivAt.comp s (hi2 t s)
    exact this.fderiv
  have c1 : ContDiff ℝ 2 fun t => f t s := hf.comp (contDiff_prodMk_left s)
  have c2 : ContDiff ℝ 2 fun s => f t s := hf.comp (contDiff_prodMk_right t)
  have q1 : fderiv ℝ (fderiv ℝ fun t => f t s) t a a = fderiv ℝ (fderiv ℝ F) (t, s) (a, 0) (a, 0) := by
    have h := ((hd2 (t, s)).hasFDerivAt.comp t (hi1 t s)).clm_comp (hasFDerivAt_const (ContinuousLinearMap.inl ℝ (Fin d → ℝ) (Fin d → ℝ)) t)
    have e : (fderiv ℝ fun t => f t s) = fun t => ((fderiv ℝ F ∘ fun t => (t, s)) t).comp (ContinuousLinearMap.inl ℝ (Fin d → ℝ) (Fin d → ℝ)) :=
      funext fun t => p1 t s
    rw [e, h.fderiv]
    simp
  have q2 : fderiv ℝ (fderiv ℝ fun s => f t s) s b b = fderiv ℝ (fderiv ℝ F) (t, s) (0, b) (0, b) := by
    have h := ((hd2 (t, s)).hasFDerivAt.comp s (hi2 t s)).clm_comp (hasFDerivAt_const (ContinuousLinearMap.inr ℝ (Fin d → ℝ) (Fin d → ℝ)) s)
    have e : (fderiv ℝ fun s => f t s) = fun s => ((fderiv ℝ F ∘ fun s => (t, s)) s).comp (ContinuousLinearMap.inr ℝ (Fin d → ℝ) (Fin d → ℝ)) :=
      funext fun s => p2 t s
    rw [e, h.fderiv]
    simp
  have q3 : b ⬝ᵥ hessTS f t s *ᵥ a = fderiv ℝ (fderiv ℝ F) (t, s) (a, 0) (0, b) := by
    have he : ∀ i j, hessTS f t s i j = fderiv ℝ (fderiv ℝ F) (t, s) (Pi.single j 1, 0) (0, Pi.single i 1) := by
      intro i j
      simp only [hessTS, Matrix.of_apply, pd, p2]
      have h2 := ((hd2 (t, s)).hasFDerivAt.comp t (hi1 t s)).clm_apply (hasFDerivAt_const ((0, Pi.single i (1 : ℝ)) : (Fin d → ℝ) × (Fin d → ℝ)) t)
      have e : (fun t' => ((fderiv ℝ F (t', s)).comp (ContinuousLinearMap.inr ℝ (Fin d → ℝ) (Fin d → ℝ))) (Pi.single i 1))
          = fun t' => ((fderiv ℝ F ∘ fun t => (t, s)) t') (0, Pi.single i 1) := by
        funext t'; simp
      rw [e, h2.fderiv]
      simp
    have e1 := clm_pi ((fderiv ℝ (fderiv ℝ F) (t, s) (a, 0)).comp (ContinuousLinearMap.inr ℝ (Fin d → ℝ) (Fin d → ℝ))) b
    simp only [ContinuousLinearMap.comp_apply, ContinuousLinearMap.inr_apply] at e1
    rw [e1, dotProduct]
    refine Finset.sum_congr rfl fun i _ => ?_
    congr 1
    have e2 := clm_pi (((fderiv ℝ (fderiv ℝ F) (t, s)).flip (0, Pi.single i 1)).comp (ContinuousLinearMap.inl ℝ (Fin d → ℝ) (Fin d → ℝ))) a
    simp only [ContinuousLinearMap.comp_apply, ContinuousLinearMap.inl_apply, ContinuousLinearMap.flip_apply] at e2
    rw [e2, mulVec, dotProduct]
    exact Finset.sum_congr rfl fun j _ => by rw [he, mul_comm]
  have hsym : fderiv ℝ (fderiv ℝ F) (t, s) (0, b) (a, 0) = fderiv ℝ (fderiv ℝ F) (t, s) (a, 0) (0, b) :=
    (hf.contDiffAt.isSymmSndFDerivAt (by simp)).eq _ _
  rw [hess_form c1, hess_form c2, q1, q2, q3]
  have hab : ((a, b) : (Fin d → ℝ) × (Fin d → ℝ)) = (a, 0) + (0, b) := by simp
  rw [hab, map_add, map_add, _root_.add_apply, _root_.add_apply, hsym]
  ring

end Mfs.Pcrlb

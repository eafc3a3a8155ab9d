import Verif.Props.GaussianEquiv
import Verif.Props.SigmaPoints
import Verif.Lemmas.Tri
import Mathlib.Analysis.Calculus.FDeriv.Add
import Mathlib.Analysis.Calculus.FDeriv.Equiv
import Mathlib.Topology.Algebra.Module.FiniteDimension
import Mathlib.LinearAlgebra.Matrix.ToLin

/-!
# C144: the Gaussian filters and smoothers do not depend on the coordinates of the state

The state is written in other coordinates `z = T x + c`. A model in the new coordinates is any model that is related to the old one by
this change. The results in the new coordinates are the old results, transformed: mean `T m + c`, covariance `T P Tᵀ`, the same negative
log-likelihood.
-/

namespace Mfs.Props

open Matrix Mfs.Classical Mfs.Spec

variable {dx dy dw : ℕ}

/-- a Gaussian belief in the coordinates `z = T x + c`. -/
def inCoord (T : Matrix (Fin dx) (Fin dx) ℝ) (c : Fin dx → ℝ) (b : Belief dx) : Belief dx := (T *ᵥ b.1 + c, T * b.2 * Tᵀ)

/-- filter results in the coordinates `z = T x + c`. -/
def inCoordOut (T : Matrix (Fin dx) (Fin dx) ℝ) (c : Fin dx → ℝ) (o : Belief dx × ℝ) : Belief dx × ℝ := (inCoord T c o.1, o.2)

/-! ### pieces -/

theorem jac_coord {a b : ℕ} {T : Matrix (Fin a) (Fin a) ℝ} (hT : IsUnit T.det) {S : Matrix (Fin b) (Fin b) ℝ} (hS : IsUnit S.det)
    (c : Fin a → ℝ) (e : Fin b → ℝ) (f f' : (Fin a → ℝ) → Fin b → ℝ) (h : ∀ x, f' (T *ᵥ x + c) = S *ᵥ f x + e) (x : Fin a → ℝ) :
    jac f' (T *ᵥ x + c) * T = S * jac f x := by
  have mk : ∀ {n : ℕ} {M : Matrix (Fin n) (Fin n) ℝ}, IsUnit M.det → ∃ E : (Fin n → ℝ) ≃L[ℝ] (Fin n → ℝ), ∀ x, E x = M *ᵥ x := by
    intro n M hM
    exact ⟨(Matrix.toLin'OfInv (Matrix.nonsing_inv_mul M hM) (Matrix.mul_nonsing_inv M hM)).toContinuousLinearEquiv,
      fun x => by simp [Matrix.toLin'OfInv]⟩
  obtain ⟨ET, hET⟩ := mk hT
  obtain ⟨ES, hES⟩ := mk hS
  have h1 : fderiv ℝ (fun x => f' (T *ᵥ x + c)) x = (fderiv ℝ f' (T *ᵥ x + c)).comp (ET : (Fin a → ℝ) →L[ℝ] (Fin a → ℝ)) := by
    have : (fun x => f' (T *ᵥ x + c)) = (fun z => f' (z + c)) ∘ ET := by funext x; simp [hET]
    rw [this, ContinuousLinearEquiv.comp_right_fderiv, fderiv_comp_add_right, hET]
  have h2 : fderiv ℝ (fun x => f' (T *ᵥ x + c)) x = (ES : (Fin b → ℝ) →L[ℝ] (Fin b → ℝ)).comp (fderiv ℝ f x) := by
    have : (fun x => f' (T *ᵥ x + c)) = fun x => (ES ∘ f) x + e := by funext x; simp [hES, h]
    rw [this, fderiv_add_const, ContinuousLinearEquiv.comp_fderiv]
  have key : ∀ u, fderiv ℝ f' (T *ᵥ x + c) (T *ᵥ u) = S *ᵥ fderiv ℝ f x u := fun u => by
    have := DFunLike.congr_fun (h1.symm.trans h2) u
    simpa [hET, hES] using this
  have hjac : ∀ {p q : ℕ} (g : (Fin p → ℝ) → Fin q → ℝ) (x u : Fin p → ℝ), jac g x *ᵥ u = fderiv ℝ g x u := by
    intro p q g x u
    ext i
    conv_rhs => rw [show u = ∑ j, u j • (Pi.single j (1 : ℝ) : Fin p → ℝ) from by
      funext k; simp [Finset.sum_apply, Pi.single_apply]]
    simp [jac, Matrix.mulVec, dotProduct, map_sum, Finset.sum_apply, mul_comm]
  apply Matrix.ext_of_mulVec_single
  intro j
  rw [← Matrix.mulVec_mulVec, ← Matrix.mulVec_mulVec, hjac, hjac, key]

theorem rk4_coord {d : ℕ} {ode ode' : (Fin d → ℝ) → Matrix (Fin d) (Fin d) ℝ → (Fin d → ℝ) × Matrix (Fin d) (Fin d) ℝ}
    (T : Matrix (Fin d) (Fin d) ℝ) (c : Fin d → ℝ)
    (h : ∀ m v, ode' (T *ᵥ m + c) (T * v * Tᵀ) = (T *ᵥ (ode m v).1, T * (ode m v).2 * Tᵀ)) (b : Belief d) (dt : ℝ) :
    rk4MCov ode' (inCoord T c b).1 (inCoord T c b).2 dt = inCoord T c (rk4MCov ode b.1 b.2 dt) := by
  have step : ∀ (m : Fin d → ℝ) (v : Matrix (Fin d) (Fin d) ℝ) (s : ℝ) (k : (Fin d → ℝ) × Matrix (Fin d) (Fin d) ℝ),
      ode' (T *ᵥ m + c + s • T *ᵥ k.1) (T * v * Tᵀ + s • (T * k.2 * Tᵀ)) =
        (T *ᵥ (ode (m + s • k.1) (v + s • k.2)).1, T * (ode (m + s • k.1) (v + s • k.2)).2 * Tᵀ) := by
    intro m v s k
    rw [← h]
    congr 1
    · rw [mulVec_add, mulVec_smul]; abel
    · rw [Matrix.mul_add, Matrix.add_mul, Matrix.mul_smul, Matrix.smul_mul]
  simp only [rk4MCov, inCoord, h, step]
  refine Prod.ext ?_ ?_
  · simp only [mulVec_add, mulVec_smul]; abel
  · simp only [Matrix.mul_add, Matrix.add_mul, Matrix.mul_smul, Matrix.smul_mul]

theorem rk4Backward_coord {d : ℕ}
    {ode ode' : (Fin d → ℝ) → Matrix (Fin d) (Fin d) ℝ → (Fin d → ℝ) → Matrix (Fin d) (Fin d) ℝ → (Fin d → ℝ) × Matrix (Fin d) (Fin d) ℝ}
    (T : Matrix (Fin d) (Fin d) ℝ) (c : Fin d → ℝ) (f : Belief d)
    (h : ∀ m v, ode' (T *ᵥ m + c) (T * v * Tᵀ) (T *ᵥ f.1 + c) (T * f.2 * Tᵀ) = (T *ᵥ (ode m v f.1 f.2).1, T * (ode m v f.1 f.2).2 * Tᵀ))
    (b : Belief d) (dt : ℝ) :
    rk4MCovBackward ode' (inCoord T c b).1 (inCoord T c b).2 (inCoord T c f).1 (inCoord T c f).2 dt
      = inCoord T c (rk4MCovBackward ode b.1 b.2 f.1 f.2 dt) :=
  rk4_coord (ode := fun m v => ode m v f.1 f.2) (ode' := fun m v => ode' m v (T *ᵥ f.1 + c) (T * f.2 * Tᵀ)) T c h b dt

theorem scan_coord {Y : Type} (T : Matrix (Fin dx) (Fin dx) ℝ) (c : Fin dx → ℝ) (pr pr' : Belief dx → Belief dx)
    (up up' : Belief dx → Y → Belief dx × ℝ) (hp : ∀ b, pr' (inCoord T c b) = inCoord T c (pr b))
    (hu : ∀ b y, up' (inCoord T c b) y = inCoordOut T c (up b y)) (s : Belief dx × ℝ) (ys : List Y) :
    (scan (filterBody pr' up') (inCoordOut T c s) ys).2 = (scan (filterBody pr up) s ys).2.map (inCoordOut T c) := by
  induction ys generalizing s with
  | nil => rfl
  | cons y ys ih =>
    have hs : filterBody pr' up' (inCoordOut T c s) y
        = (inCoordOut T c (filterBody pr up s y).1, inCoordOut T c (filterBody pr up s y).2) := by
      simp only [filterBody, inCoordOut, hp, hu]
    simp only [scan, hs, List.map_cons, ih]

theorem smooth_coord (T : Matrix (Fin dx) (Fin dx) ℝ) (c : Fin dx → ℝ) (st st' : Belief dx → Belief dx → Belief dx)
    (fs : List (Belief dx)) (h : ∀ f ∈ fs, ∀ s, st' (inCoord T c f) (inCoord T c s) = inCoord T c (st f s)) :
    smoothWith st' (fs.map (inCoord T c)) = (smoothWith st fs).map (List.map (inCoord T c)) := by
  have key : smoothRec st' (fs.map (inCoord T c)) = (smoothRec st fs).map (inCoord T c) := by
    induction fs with
    | nil => rfl
    | cons f fs ih =>
      rw [List.map_cons, smoothRec, smoothRec, ih fun f hf => h f (List.mem_cons_of_mem _ hf)]
      cases smoothRec st fs with
      | nil => rfl
      | cons s ss => simp [h f List.mem_cons_self]
  rw [smoothWith_eq, smoothWith_eq]
  by_cases hf : fs = []
  · simp [hf]
  · simp [hf, key]

theorem gainScalar_coord (B : Backend) (T : Matrix (Fin dx) (Fin dx) ℝ) (ok : UpdateShapeOk dx 1) (vp : Matrix (Fin dx) (Fin dx) ℝ)
    (H H' : Matrix (Fin 1) (Fin dx) ℝ) (hH : H' * T = H) (S : Matrix (Fin 1) (Fin 1) ℝ) :
    linearGain B ok (T * vp * Tᵀ) H' S = T * linearGain B ok vp H S := by
  have h1 : T * vp * Tᵀ * H'ᵀ = T * (vp * Hᵀ) := by
    rw [← hH, transpose_mul]; simp only [Matrix.mul_assoc]
  ext i j
  simp only [linearGain, dif_pos, of_apply, h1]
  rw [Matrix.mul_apply, Matrix.mul_apply, Finset.sum_div]
  simp only [of_apply, mul_div_assoc]

theorem update_coord (B : Backend) (T : Matrix (Fin dx) (Fin dx) ℝ) (c : Fin dx → ℝ) (ok : UpdateShapeOk dx 1) (p : Belief dx)
    (H H' : Matrix (Fin 1) (Fin dx) ℝ) (hH : H' * T = H) (predY : Fin 1 → ℝ) (Xi : Matrix (Fin 1) (Fin 1) ℝ) (y : Fin 1 → ℝ) :
    linearUpdate B ok (inCoord T c p) H' predY Xi y = inCoordOut T c (linearUpdate B ok p H predY Xi y) := by
  have hS : H' * (T * p.2 * Tᵀ) * H'ᵀ + Xi = H * p.2 * Hᵀ + Xi := by
    rw [← hH, transpose_mul]; simp only [Matrix.mul_assoc]
  simp only [linearUpdate, inCoord, inCoordOut, hS, gainScalar_coord B T ok p.2 H H' hH]
  refine Prod.ext (Prod.ext ?_ ?_) rfl
  · simp only [mulVec_add, mulVec_mulVec]; abel
  · simp only [Matrix.mul_sub, Matrix.sub_mul, transpose_mul, Matrix.mul_assoc]

theorem smootherShared_coord (B : Backend) (hB : B.Valid) {T : Matrix (Fin dx) (Fin dx) ℝ} (hT : IsUnit T.det) (c : Fin dx → ℝ)
    (DT : Matrix (Fin dx) (Fin dx) ℝ) (f p s : Belief dx) (hp : p.2.PosDef) :
    gaussianSmootherShared B (T * DT * Tᵀ) (inCoord T c f) (inCoord T c p) (inCoord T c s)
      = inCoord T c (gaussianSmootherShared B DT f p s) := by
  have hTT : IsUnit Tᵀ.det := by rwa [det_transpose]
  have hp' : (T * p.2 * Tᵀ).PosDef := by
    have := hp.conjTranspose_mul_mul_same (B := Tᵀ) (by
      rw [Matrix.mulVec_injective_iff_isUnit, Matrix.isUnit_iff_isUnit_det]; exact hTT)
    simpa [conjTranspose_eq_transpose_of_trivial] using this
  have hG : T⁻¹ᵀ * (p.2⁻¹ * DT) * Tᵀ = (T * p.2 * Tᵀ)⁻¹ * (T * DT * Tᵀ) := by
    rw [Matrix.mul_inv_rev, Matrix.mul_inv_rev, transpose_nonsing_inv]
    simp only [Matrix.mul_assoc]
    rw [← Matrix.mul_assoc T⁻¹ T, nonsing_inv_mul T hT, Matrix.one_mul]
  simp only [gaussianSmootherShared, inCoord, choSolve_eq (hB.chol _ hp), choSolve_eq (hB.chol _ hp'), ← hG]
  have h1 : ∀ (M : Matrix (Fin dx) (Fin dx) ℝ), (T⁻¹ᵀ * M * Tᵀ)ᵀ * T = T * Mᵀ := by
    intro M
    simp only [transpose_mul, transpose_transpose, Matrix.mul_assoc]
    rw [nonsing_inv_mul T hT, Matrix.mul_one]
  generalize p.2⁻¹ * DT = M
  refine Prod.ext ?_ ?_
  · have : T *ᵥ s.1 + c - (T *ᵥ p.1 + c) = T *ᵥ (s.1 - p.1) := by rw [mulVec_sub]; abel
    simp only [this, mulVec_mulVec, h1, mulVec_add]
    abel
  · have h2 : T * s.2 * Tᵀ - T * p.2 * Tᵀ = T * (s.2 - p.2) * Tᵀ := by simp only [Matrix.mul_sub, Matrix.sub_mul]
    have h3 : ∀ X : Matrix (Fin dx) (Fin dx) ℝ, (T⁻¹ᵀ * M * Tᵀ)ᵀ * (T * X * Tᵀ) * (T⁻¹ᵀ * M * Tᵀ)ᵀᵀ = T * (Mᵀ * X * M) * Tᵀ := by
      intro X
      have h4 : Tᵀ * (T⁻¹ᵀ * M * Tᵀ)ᵀᵀ = M * Tᵀ := by
        rw [← transpose_mul, h1, transpose_mul, transpose_transpose]
      rw [show (T⁻¹ᵀ * M * Tᵀ)ᵀ * (T * X * Tᵀ) * (T⁻¹ᵀ * M * Tᵀ)ᵀᵀ = ((T⁻¹ᵀ * M * Tᵀ)ᵀ * T) * X * (Tᵀ * (T⁻¹ᵀ * M * Tᵀ)ᵀᵀ) by
        simp only [Matrix.mul_assoc], h1, h4]
      simp only [Matrix.mul_assoc]
    simp only [transpose_transpose] at h3
    simp only [h2, h3, Matrix.mul_add, Matrix.add_mul, transpose_transpose]

/-! ### Kalman and extended Kalman filters -/

/-- **C144, filters.** `kf`, `ekf` and `cd_ekf` with scalar measurements give the same filter in all coordinates `z = T x + c` of the
state, `T` any invertible matrix, for all models, linear or not. -/
theorem C144_ekf (B : Backend) {T : Matrix (Fin dx) (Fin dx) ℝ} (hT : IsUnit T.det) (c : Fin dx → ℝ)
    (state state' : (Fin dx → ℝ) → ℝ → Belief dx) (dt : ℝ) (hs : ∀ x, state' (T *ᵥ x + c) dt = inCoord T c (state x dt))
    (drift drift' : (Fin dx → ℝ) → Fin dx → ℝ) (hd : ∀ x, drift' (T *ᵥ x + c) = T *ᵥ drift x)
    (disp disp' : (Fin dx → ℝ) → Matrix (Fin dx) (Fin dw) ℝ) (hb : ∀ x, disp' (T *ᵥ x + c) = T * disp x)
    (meas meas' : (Fin dx → ℝ) → (Fin 1 → ℝ) × Matrix (Fin 1) (Fin 1) ℝ) (hm : ∀ x, meas' (T *ᵥ x + c) = meas x)
    (m0 : Fin dx → ℝ) (v0 : Matrix (Fin dx) (Fin dx) ℝ) (ys : List (Fin 1 → ℝ)) :
    ekf B state' meas' (T *ᵥ m0 + c) (T * v0 * Tᵀ) dt ys = (ekf B state meas m0 v0 dt ys).map (List.map (inCoordOut T c)) ∧
    cdEkf B drift' disp' meas' (T *ᵥ m0 + c) (T * v0 * Tᵀ) dt ys
      = (cdEkf B drift disp meas m0 v0 dt ys).map (List.map (inCoordOut T c)) := by
  have ok : UpdateShapeOk dx 1 := Or.inl rfl
  have hJs : ∀ x, jac (fun u => (state' u dt).1) (T *ᵥ x + c) * T = T * jac (fun u => (state u dt).1) x :=
    jac_coord hT hT c c _ _ fun x => by rw [hs]; rfl
  have hJd : ∀ x, jac drift' (T *ᵥ x + c) * T = T * jac drift x := jac_coord hT hT c 0 _ _ fun x => by rw [hd, add_zero]
  have hJm : ∀ x, jac (fun u => (meas' u).1) (T *ᵥ x + c) * T = jac (fun u => (meas u).1) x := fun x => by
    rw [jac_coord hT (S := 1) (by simp) c 0 (fun u => (meas u).1) _ fun x => by rw [hm, one_mulVec, add_zero], Matrix.one_mul]
  have hu : ∀ b y, ekfUpdate B ok meas' (inCoord T c b) y = inCoordOut T c (ekfUpdate B ok meas b y) := by
    intro b y
    have e : (inCoord T c b).1 = T *ᵥ b.1 + c := rfl
    rw [ekfUpdate, ekfUpdate, e, hm]
    exact update_coord B T c ok b _ _ (hJm b.1) _ _ y
  have hcong : ∀ (J J' v : Matrix (Fin dx) (Fin dx) ℝ), J' * T = T * J → J' * (T * v * Tᵀ) * J'ᵀ = T * (J * v * Jᵀ) * Tᵀ := by
    intro J J' v h
    rw [show J' * (T * v * Tᵀ) * J'ᵀ = (J' * T) * v * (J' * T)ᵀ by simp only [transpose_mul, Matrix.mul_assoc], h]
    simp only [transpose_mul, Matrix.mul_assoc]
  refine ⟨?_, ?_⟩
  · rw [ekf, ekf, dif_pos ok, dif_pos ok, Option.map_some]
    refine congrArg some (scan_coord T c _ _ _ _ (fun b => ?_) hu ((m0, v0), 0) ys)
    have e : (inCoord T c b).1 = T *ᵥ b.1 + c := rfl
    simp only [ekfPredict, e, hs]
    refine Prod.ext rfl ?_
    change _ * (T * b.2 * Tᵀ) * _ + T * _ * Tᵀ = T * (_ + _) * Tᵀ
    rw [hcong _ _ _ (hJs b.1), Matrix.mul_add, Matrix.add_mul]
  · rw [cdEkf, cdEkf, dif_pos ok, dif_pos ok, Option.map_some]
    refine congrArg some (scan_coord T c _ _ _ _ (fun b => ?_) hu ((m0, v0), 0) ys)
    refine rk4_coord T c (fun m v => ?_) b dt
    refine Prod.ext (hd m) ?_
    simp only [cdEkfOdes, hb]
    have h1 : jac drift' (T *ᵥ m + c) * (T * v * Tᵀ) = T * (jac drift m * v) * Tᵀ := by
      simp only [← Matrix.mul_assoc, hJd]
    have h2 : T * v * Tᵀ * (jac drift' (T *ᵥ m + c))ᵀ = T * (v * (jac drift m)ᵀ) * Tᵀ := by
      rw [Matrix.mul_assoc (T * v), ← transpose_mul, hJd, transpose_mul]
      simp only [Matrix.mul_assoc]
    rw [h1, h2]
    simp only [Matrix.mul_add, Matrix.add_mul, transpose_mul, Matrix.mul_assoc]

/-- **C144, Kalman filter.** -/
theorem C144_kf (B : Backend) {T : Matrix (Fin dx) (Fin dx) ℝ} (c : Fin dx → ℝ)
    (F F' Q : Matrix (Fin dx) (Fin dx) ℝ) (hF : F' * T = T * F) (hc : F' *ᵥ c = c) (H H' : Matrix (Fin 1) (Fin dx) ℝ) (hH : H' * T = H)
    (Xi : Matrix (Fin 1) (Fin 1) ℝ) (hHc : H' *ᵥ c = 0) (m0 : Fin dx → ℝ) (v0 : Matrix (Fin dx) (Fin dx) ℝ) (ys : List (Fin 1 → ℝ)) :
    kf B F' (T * Q * Tᵀ) H' Xi (T *ᵥ m0 + c) (T * v0 * Tᵀ) ys = (kf B F Q H Xi m0 v0 ys).map (List.map (inCoordOut T c)) := by
  have ok : UpdateShapeOk dx 1 := Or.inl rfl
  rw [kf, kf, dif_pos ok, dif_pos ok, Option.map_some]
  refine congrArg some (scan_coord T c _ _ _ _ (fun b => ?_) (fun b y => ?_) ((m0, v0), 0) ys)
  · refine Prod.ext ?_ ?_
    · simp only [linearPredict, inCoord, mulVec_add, mulVec_mulVec, hF, hc]
    · simp only [linearPredict, inCoord]
      rw [show F' * (T * b.2 * Tᵀ) * F'ᵀ = (F' * T) * b.2 * (F' * T)ᵀ by simp only [transpose_mul, Matrix.mul_assoc], hF]
      simp only [transpose_mul, Matrix.mul_assoc, Matrix.mul_add, Matrix.add_mul]
  · have : H' *ᵥ (inCoord T c b).1 = H *ᵥ b.1 := by simp only [inCoord, mulVec_add, mulVec_mulVec, hH, hHc, add_zero]
    rw [this]
    exact update_coord B T c ok b _ _ hH _ _ y

/-- **C144, smoothers.** `rts`, `eks` and `cd_eks`. -/
theorem C144_eks (B : Backend) (hB : B.Valid) {T : Matrix (Fin dx) (Fin dx) ℝ} (hT : IsUnit T.det) (c : Fin dx → ℝ)
    (F F' Q : Matrix (Fin dx) (Fin dx) ℝ) (hF : F' * T = T * F) (hc : F' *ᵥ c = c)
    (state state' : (Fin dx → ℝ) → ℝ → Belief dx) (dt : ℝ) (hs : ∀ x, state' (T *ᵥ x + c) dt = inCoord T c (state x dt))
    (drift drift' : (Fin dx → ℝ) → Fin dx → ℝ) (hd : ∀ x, drift' (T *ᵥ x + c) = T *ᵥ drift x)
    (disp disp' : (Fin dx → ℝ) → Matrix (Fin dx) (Fin dw) ℝ) (hb : ∀ x, disp' (T *ᵥ x + c) = T * disp x)
    (fs : List (Belief dx)) :
    ((∀ f ∈ fs, (linearPredict F Q f).2.PosDef) →
      rts B F' (T * Q * Tᵀ) (fs.map (inCoord T c)) = (rts B F Q fs).map (List.map (inCoord T c))) ∧
    ((∀ f ∈ fs, (ekfPredict state dt f).2.PosDef) →
      eks B state' (fs.map (inCoord T c)) dt = (eks B state fs dt).map (List.map (inCoord T c))) ∧
    ((∀ f ∈ fs, f.2.PosDef) → cdEks B drift' disp' (fs.map (inCoord T c)) dt = (cdEks B drift disp fs dt).map (List.map (inCoord T c))) := by
  have hJs : ∀ x, jac (fun u => (state' u dt).1) (T *ᵥ x + c) * T = T * jac (fun u => (state u dt).1) x :=
    jac_coord hT hT c c _ _ fun x => by rw [hs]; rfl
  have hJd : ∀ x, jac drift' (T *ᵥ x + c) * T = T * jac drift x := jac_coord hT hT c 0 _ _ fun x => by rw [hd, add_zero]
  have hcong : ∀ (J J' v : Matrix (Fin dx) (Fin dx) ℝ), J' * T = T * J → J' * (T * v * Tᵀ) * J'ᵀ = T * (J * v * Jᵀ) * Tᵀ := by
    intro J J' v h
    rw [show J' * (T * v * Tᵀ) * J'ᵀ = (J' * T) * v * (J' * T)ᵀ by simp only [transpose_mul, Matrix.mul_assoc], h]
    simp only [transpose_mul, Matrix.mul_assoc]
  have hleft : ∀ (J J' v : Matrix (Fin dx) (Fin dx) ℝ), J' * T = T * J → J' * (T * v * Tᵀ) = T * (J * v) * Tᵀ := by
    intro J J' v h
    simp only [← Matrix.mul_assoc, h]
  refine ⟨fun hp => ?_, fun hp => ?_, fun hp => ?_⟩
  · refine smooth_coord T c _ _ fs fun f hf s => ?_
    have e : linearPredict F' (T * Q * Tᵀ) (inCoord T c f) = inCoord T c (linearPredict F Q f) := by
      refine Prod.ext ?_ ?_
      · simp only [linearPredict, inCoord, mulVec_add, mulVec_mulVec, hF, hc]
      · simp only [linearPredict, inCoord]
        rw [hcong _ _ _ hF, Matrix.mul_add, Matrix.add_mul]
    simp only [e]
    rw [show F' * (inCoord T c f).2 = T * (F * f.2) * Tᵀ from hleft _ _ _ hF]
    exact smootherShared_coord B hB hT c _ _ _ _ (hp f hf)
  · refine smooth_coord T c _ _ fs fun f hf s => ?_
    have e1 : (inCoord T c f).1 = T *ᵥ f.1 + c := rfl
    have e : ekfPredict state' dt (inCoord T c f) = inCoord T c (ekfPredict state dt f) := by
      simp only [ekfPredict, e1, hs]
      refine Prod.ext rfl ?_
      change _ * (T * f.2 * Tᵀ) * _ + T * _ * Tᵀ = T * (_ + _) * Tᵀ
      rw [hcong _ _ _ (hJs f.1), Matrix.mul_add, Matrix.add_mul]
    simp only [e, e1]
    rw [show jac (fun u => (state' u dt).1) (T *ᵥ f.1 + c) * (inCoord T c f).2 = T * (jac (fun u => (state u dt).1) f.1 * f.2) * Tᵀ
      from hleft _ _ _ (hJs f.1)]
    exact smootherShared_coord B hB hT c _ _ _ _ (hp f hf)
  · refine smooth_coord T c _ _ fs fun f hf s => ?_
    refine rk4Backward_coord T c f (fun m v => ?_) s (-dt)
    have hTT : IsUnit Tᵀ.det := by rwa [det_transpose]
    have hp' : (T * f.2 * Tᵀ).PosDef := by
      have := (hp f hf).conjTranspose_mul_mul_same (B := Tᵀ) (by
        rw [Matrix.mulVec_injective_iff_isUnit, Matrix.isUnit_iff_isUnit_det]; exact hTT)
      simpa [conjTranspose_eq_transpose_of_trivial] using this
    have hinv : (T * f.2 * Tᵀ)⁻¹ = T⁻¹ᵀ * f.2⁻¹ * T⁻¹ := by
      rw [Matrix.mul_inv_rev, Matrix.mul_inv_rev, transpose_nonsing_inv]
      simp only [Matrix.mul_assoc]
    have hT1 : T⁻¹ * T = 1 := nonsing_inv_mul T hT
    have hT2 : Tᵀ * T⁻¹ᵀ = 1 := by rw [← transpose_mul, hT1, transpose_one]
    set g := disp m * (disp m)ᵀ with hg
    have hg' : disp' (T *ᵥ m + c) * (disp' (T *ᵥ m + c))ᵀ = T * g * Tᵀ := by
      rw [hb, hg]; simp only [transpose_mul, Matrix.mul_assoc]
    have hgs : gᵀ = g := by rw [hg]; simp
    have hfs : (f.2⁻¹)ᵀ = f.2⁻¹ := by
      rw [transpose_nonsing_inv]; congr 1
      simpa [conjTranspose_eq_transpose_of_trivial] using (hp f hf).isHermitian.eq
    simp only [cdEksOdes, hg', ← hg, choSolve_eq (hB.chol _ (hp f hf)), choSolve_eq (hB.chol _ hp'), hinv]
    have hA : (jac drift' (T *ᵥ m + c) + (T⁻¹ᵀ * f.2⁻¹ * T⁻¹ * (T * g * Tᵀ)ᵀ)ᵀ) * T = T * (jac drift m + (f.2⁻¹ * gᵀ)ᵀ) := by
      simp only [Matrix.add_mul, Matrix.mul_add, hJd, transpose_mul, transpose_transpose, hfs, hgs, Matrix.mul_assoc]
      congr 1
      rw [hT1, Matrix.mul_one, ← Matrix.mul_assoc Tᵀ, hT2, Matrix.one_mul]
    refine Prod.ext ?_ ?_
    · have h1 : (Matrix.of fun (i : Fin dx) (_ : Fin 1) => (T *ᵥ m + c) i - (T *ᵥ f.1 + c) i)
          = T * Matrix.of fun (i : Fin dx) (_ : Fin 1) => m i - f.1 i := by
        ext i j
        simp only [of_apply, Pi.add_apply, Matrix.mul_apply, mulVec, dotProduct, mul_sub, Finset.sum_sub_distrib]
        ring
      have h2 : ∀ X : Matrix (Fin dx) (Fin 1) ℝ, T⁻¹ᵀ * f.2⁻¹ * T⁻¹ * (T * X) = T⁻¹ᵀ * (f.2⁻¹ * X) := by
        intro X
        rw [Matrix.mul_assoc (T⁻¹ᵀ * f.2⁻¹), ← Matrix.mul_assoc T⁻¹ T, hT1, Matrix.one_mul, Matrix.mul_assoc]
      have h3 : ∀ X : Matrix (Fin dx) (Fin 1) ℝ, (fun i => (T⁻¹ᵀ * X) i 0) = T⁻¹ᵀ *ᵥ fun i => X i 0 := fun X => rfl
      simp only [h1, h2, h3, hd, mulVec_add, mulVec_mulVec]
      rw [Matrix.mul_assoc (T * g), hT2, Matrix.mul_one]
    · simp only
      generalize jac drift' (T *ᵥ m + c) + (T⁻¹ᵀ * f.2⁻¹ * T⁻¹ * (T * g * Tᵀ)ᵀ)ᵀ = A' at hA ⊢
      generalize jac drift m + (f.2⁻¹ * gᵀ)ᵀ = A at hA ⊢
      have h4 : T * v * Tᵀ * A'ᵀ = T * (v * Aᵀ) * Tᵀ := by
        rw [Matrix.mul_assoc (T * v), ← transpose_mul, hA, transpose_mul]
        simp only [Matrix.mul_assoc]
      rw [hleft _ _ _ hA, h4]
      simp only [Matrix.mul_add, Matrix.add_mul, Matrix.mul_sub, Matrix.sub_mul]

/-! ### sigma-point filters and smoothers -/

theorem expectation_coord (sg : SigmaPoints dx) (hw : ∑ i, sg.w i = 1) {k : ℕ} (A : Matrix (Fin k) (Fin dx) ℝ) (a : Fin k → ℝ)
    (x : Fin sg.nPoints → Fin dx → ℝ) : sg.expectation (fun i => A *ᵥ x i + a) = A *ᵥ sg.expectation x + a := by
  simp only [SigmaPoints.expectation, smul_add, Finset.sum_add_distrib, ← Finset.sum_smul, hw, one_smul, mulVec_sum, mulVec_smul]

theorem expectation_mulVec (sg : SigmaPoints dx) {k l : ℕ} (A : Matrix (Fin k) (Fin l) ℝ) (x : Fin sg.nPoints → Fin l → ℝ) :
    sg.expectation (fun i => A *ᵥ x i) = A *ᵥ sg.expectation x := by
  simp only [SigmaPoints.expectation, mulVec_sum, mulVec_smul]

theorem expectation_conj (sg : SigmaPoints dx) {k l k' l' : ℕ} (A : Matrix (Fin k) (Fin l) ℝ) (C : Matrix (Fin k') (Fin l') ℝ)
    (X : Fin sg.nPoints → Matrix (Fin l) (Fin l') ℝ) : sg.expectation (fun i => A * X i * Cᵀ) = A * sg.expectation X * Cᵀ := by
  simp only [SigmaPoints.expectation, Matrix.mul_sum, Matrix.sum_mul, Matrix.mul_smul, Matrix.smul_mul]

theorem vecMulVec_conj {k l k' l' : ℕ} (A : Matrix (Fin k) (Fin l) ℝ) (C : Matrix (Fin k') (Fin l') ℝ) (x : Fin l → ℝ) (y : Fin l' → ℝ) :
    vecMulVec (A *ᵥ x) (C *ᵥ y) = A * vecMulVec x y * Cᵀ := by
  rw [mul_vecMulVec, vecMulVec_mul, vecMul_transpose]

/-- second moments about `(u, w)` in other coordinates. -/
theorem second_coord (sg : SigmaPoints dx) (hw : ∑ i, sg.w i = 1) {k l k' l' : ℕ} (A : Matrix (Fin k) (Fin l) ℝ) (a : Fin k → ℝ)
    (C : Matrix (Fin k') (Fin l') ℝ) (e : Fin k' → ℝ) (x : Fin sg.nPoints → Fin l → ℝ) (y : Fin sg.nPoints → Fin l' → ℝ)
    (u : Fin l → ℝ) (w : Fin l' → ℝ) (hu : sg.expectation x = u ∨ e = 0) (hy : sg.expectation y = w ∨ a = 0) :
    sg.expectation (fun i => vecMulVec (A *ᵥ x i + a) (C *ᵥ y i + e)) - vecMulVec (A *ᵥ u + a) (C *ᵥ w + e)
      = A * (sg.expectation (fun i => vecMulVec (x i) (y i)) - vecMulVec u w) * Cᵀ := by
  have h1 : sg.expectation (fun i => vecMulVec (A *ᵥ x i + a) (C *ᵥ y i + e))
      = A * sg.expectation (fun i => vecMulVec (x i) (y i)) * Cᵀ + vecMulVec (A *ᵥ sg.expectation x) e
        + (vecMulVec a (C *ᵥ sg.expectation y) + vecMulVec a e) := by
    rw [← expectation_conj]
    simp only [← vecMulVec_conj, SigmaPoints.expectation, add_vecMulVec, vecMulVec_add, smul_add, Finset.sum_add_distrib]
    have hl : ∀ (e : Fin k' → ℝ), vecMulVec (A *ᵥ ∑ i, sg.w i • x i) e = ∑ i, sg.w i • vecMulVec (A *ᵥ x i) e := fun e => by
      ext p q
      simp [vecMulVec_apply, mulVec_sum, mulVec_smul, Finset.sum_apply, Matrix.sum_apply, Finset.sum_mul, mul_assoc]
    have hr : ∀ (a : Fin k → ℝ), vecMulVec a (C *ᵥ ∑ i, sg.w i • y i) = ∑ i, sg.w i • vecMulVec a (C *ᵥ y i) := fun a => by
      ext p q
      simp [vecMulVec_apply, mulVec_sum, mulVec_smul, Finset.sum_apply, Matrix.sum_apply, Finset.mul_sum, mul_left_comm]
    rw [hl, hr, ← Finset.sum_smul, hw, one_smul]
    abel
  have h2 : vecMulVec (A *ᵥ u + a) (C *ᵥ w + e)
      = A * vecMulVec u w * Cᵀ + vecMulVec (A *ᵥ u) e + (vecMulVec a (C *ᵥ w) + vecMulVec a e) := by
    rw [← vecMulVec_conj]
    simp only [add_vecMulVec, vecMulVec_add]
    abel
  have h3 : vecMulVec (A *ᵥ sg.expectation x) e = vecMulVec (A *ᵥ u) e := by
    rcases hu with h | h
    · rw [h]
    · ext p q; simp [h, vecMulVec_apply]
  have h4 : vecMulVec a (C *ᵥ sg.expectation y) = vecMulVec a (C *ᵥ w) := by
    rcases hy with h | h
    · rw [h]
    · ext p q; simp [h, vecMulVec_apply]
  rw [h1, h2, h3, h4, Matrix.mul_sub, Matrix.sub_mul]
  abel

theorem symmetrize_conj {n : ℕ} (T P : Matrix (Fin n) (Fin n) ℝ) : symmetrize (T * P * Tᵀ) = T * symmetrize P * Tᵀ := by
  simp only [symmetrize, Matrix.mul_smul, Matrix.smul_mul, Matrix.mul_add, Matrix.add_mul, transpose_mul, transpose_transpose, Matrix.mul_assoc]

/-- the Cholesky routine commutes with the change of coordinates `T`. For `T` lower triangular with positive diagonal and positive
definite `P` this follows from the uniqueness of the factor (`chol_coord_of_posDef`); for other `P` it says that the routine fails
in both coordinates in the same way. -/
def CholCoord (B : Backend) (T : Matrix (Fin dx) (Fin dx) ℝ) : Prop := ∀ P : Matrix (Fin dx) (Fin dx) ℝ, B.chol (T * P * Tᵀ) = T * B.chol P

theorem chol_coord_of_posDef (B : Backend) (hB : B.Valid) {T : Matrix (Fin dx) (Fin dx) ℝ} (hl : IsLower T) (hd : ∀ i, 0 < T i i)
    (P : Matrix (Fin dx) (Fin dx) ℝ) (hP : P.PosDef) : B.chol (T * P * Tᵀ) = T * B.chol P := by
  have hc := hB.chol P hP
  have hprod : IsChol (T * P * Tᵀ) (T * B.chol P) := by
    refine ⟨fun i j hij => ?_, fun i => ?_, ?_⟩
    · rw [Matrix.mul_apply]
      refine Finset.sum_eq_zero fun k _ => ?_
      rcases lt_or_ge i k with h | h
      · rw [hl i k h, zero_mul]
      · rw [hc.lower k j (h.trans_lt hij), mul_zero]
    · rw [Matrix.mul_apply, Finset.sum_eq_single i]
      · exact mul_pos (hd i) (hc.diag_pos i)
      · intro k _ hk
        rcases lt_or_gt_of_ne hk with h | h
        · rw [hc.lower k i h, mul_zero]
        · rw [hl i k h, zero_mul]
      · simp
    · rw [transpose_mul, ← hc.mul_transpose]
      simp only [Matrix.mul_assoc]
      rw [hc.mul_transpose]
  have hT : IsUnit T.det := by
    have hbt : T.BlockTriangular OrderDual.toDual := fun i j hij => hl i j hij
    rw [Matrix.det_of_isLowerTriangular T hbt]
    exact (Finset.prod_pos fun i _ => hd i).ne'.isUnit
  have hp' : (T * P * Tᵀ).PosDef := by
    have := hP.conjTranspose_mul_mul_same (B := Tᵀ) (by
      rw [Matrix.mulVec_injective_iff_isUnit, Matrix.isUnit_iff_isUnit_det, det_transpose]; exact hT)
    simpa [conjTranspose_eq_transpose_of_trivial] using this
  exact (hB.chol _ hp').unique hprod

theorem sgpPrediction_coord (B : Backend) {T : Matrix (Fin dx) (Fin dx) ℝ} (hBT : CholCoord B T) (c : Fin dx → ℝ) (sg : SigmaPoints dx)
    (hw : ∑ i, sg.w i = 1) (state state' : (Fin dx → ℝ) → ℝ → Belief dx) (dt : ℝ)
    (hs : ∀ x, state' (T *ᵥ x + c) dt = inCoord T c (state x dt)) (f : Belief dx) :
    (sgpPrediction B sg state' dt (inCoord T c f)).1 = inCoord T c (sgpPrediction B sg state dt f).1 ∧
    (∀ i, (sgpPrediction B sg state' dt (inCoord T c f)).2.1 i = T *ᵥ (sgpPrediction B sg state dt f).2.1 i + c) ∧
    (∀ i, (sgpPrediction B sg state' dt (inCoord T c f)).2.2 i = T *ᵥ (sgpPrediction B sg state dt f).2.2 i + c) := by
  have hchi : ∀ i, sg.genSigmaPoints (inCoord T c f).1 (B.chol (symmetrize (inCoord T c f).2)) i
      = T *ᵥ sg.genSigmaPoints f.1 (B.chol (symmetrize f.2)) i + c := by
    intro i
    simp only [SigmaPoints.genSigmaPoints, inCoord, symmetrize_conj, hBT _, mulVec_add, mulVec_mulVec]
    abel
  refine ⟨?_, hchi, fun i => ?_⟩
  · simp only [sgpPrediction, hchi, hs]
    generalize sg.genSigmaPoints f.1 (B.chol (symmetrize f.2)) = chi
    refine Prod.ext ?_ ?_
    · exact expectation_coord sg hw T c _
    · simp only [inCoord]
      have hadd : ∀ (X Y : Fin sg.nPoints → Matrix (Fin dx) (Fin dx) ℝ), sg.expectation (fun i => X i + Y i) = sg.expectation X + sg.expectation Y := by
        intro X Y; simp only [SigmaPoints.expectation, smul_add, Finset.sum_add_distrib]
      rw [hadd, hadd, expectation_conj, expectation_coord sg hw]
      rw [add_sub_right_comm, second_coord sg hw T c T c _ _ _ _ (Or.inl rfl) (Or.inl rfl), add_sub_right_comm, Matrix.mul_add, Matrix.add_mul]
  · simp only [sgpPrediction, hchi, hs]
    rfl

theorem sgpUpdate_coord (B : Backend) {T : Matrix (Fin dx) (Fin dx) ℝ} (hBT : CholCoord B T) (c : Fin dx → ℝ) (sg : SigmaPoints dx)
    (hw : ∑ i, sg.w i = 1) (meas meas' : (Fin dx → ℝ) → (Fin dy → ℝ) × Matrix (Fin dy) (Fin dy) ℝ)
    (hm : ∀ x, meas' (T *ᵥ x + c) = meas x) (p : Belief dx) (y : Fin dy → ℝ) (constCov : Bool) :
    sgpUpdate B sg meas' (inCoord T c p) y constCov = inCoordOut T c (sgpUpdate B sg meas p y constCov) := by
  have hchi : ∀ i, sg.genSigmaPoints (inCoord T c p).1 (B.chol (symmetrize (inCoord T c p).2)) i
      = T *ᵥ sg.genSigmaPoints p.1 (B.chol (symmetrize p.2)) i + c := by
    intro i
    simp only [SigmaPoints.genSigmaPoints, inCoord, symmetrize_conj, hBT _, mulVec_add, mulVec_mulVec]
    abel
  simp only [sgpUpdate, hchi, hm]
  generalize sg.genSigmaPoints p.1 (B.chol (symmetrize p.2)) = chi
  have hC : sg.expectation (fun i => vecMulVec (T *ᵥ chi i + c) (meas (chi i)).1)
      - vecMulVec (inCoord T c p).1 (sg.expectation fun i => (meas (chi i)).1)
      = T * (sg.expectation (fun i => vecMulVec (chi i) (meas (chi i)).1) - vecMulVec p.1 (sg.expectation fun i => (meas (chi i)).1)) := by
    have := second_coord sg hw T c (1 : Matrix (Fin dy) (Fin dy) ℝ) 0 chi (fun i => (meas (chi i)).1) p.1
      (sg.expectation fun i => (meas (chi i)).1) (Or.inr rfl) (Or.inl rfl)
    simpa [inCoord] using this
  rw [hC]
  generalize (sg.expectation (fun i => vecMulVec (chi i) (meas (chi i)).1)
    - vecMulVec p.1 (sg.expectation fun i => (meas (chi i)).1) : Matrix (Fin dx) (Fin dy) ℝ) = C
  have hK : ∀ (L : Matrix (Fin dy) (Fin dy) ℝ), (choSolve L (T * C)ᵀ)ᵀ = T * (choSolve L Cᵀ)ᵀ := by
    intro L
    simp only [choSolve, transpose_mul, transpose_transpose, Matrix.mul_assoc]
  simp only [hK]
  refine Prod.ext (Prod.ext ?_ ?_) rfl
  · simp only [inCoord, inCoordOut, mulVec_add, mulVec_mulVec]
    abel
  · simp only [inCoord, inCoordOut, transpose_mul, Matrix.mul_sub, Matrix.sub_mul, Matrix.mul_assoc]

theorem cdSgpShared_coord (B : Backend) {T : Matrix (Fin dx) (Fin dx) ℝ} (hBT : CholCoord B T) (c : Fin dx → ℝ) (sg : SigmaPoints dx)
    (drift drift' : (Fin dx → ℝ) → Fin dx → ℝ) (hd : ∀ x, drift' (T *ᵥ x + c) = T *ᵥ drift x)
    (disp : Matrix (Fin dx) (Fin dw) ℝ) (m : Fin dx → ℝ) (v : Matrix (Fin dx) (Fin dx) ℝ) :
    cdSgpShared B sg drift' (T * disp) (T *ᵥ m + c) (T * v * Tᵀ)
      = (T *ᵥ (cdSgpShared B sg drift disp m v).1, T * (cdSgpShared B sg drift disp m v).2 * Tᵀ) := by
  have hchi : ∀ i, sg.genSigmaPoints (T *ᵥ m + c) (B.chol (symmetrize (T * v * Tᵀ))) i
      = T *ᵥ sg.genSigmaPoints m (B.chol (symmetrize v)) i + c := by
    intro i
    simp only [SigmaPoints.genSigmaPoints, symmetrize_conj, hBT _, mulVec_add, mulVec_mulVec]
    abel
  simp only [cdSgpShared, hchi, hd]
  generalize sg.genSigmaPoints m (B.chol (symmetrize v)) = chi
  have h1 : ∀ i, T *ᵥ chi i + c - (T *ᵥ m + c) = T *ᵥ (chi i - m) := fun i => by rw [mulVec_sub]; abel
  simp only [h1, vecMulVec_conj, expectation_conj, expectation_mulVec]
  refine Prod.ext rfl ?_
  simp only [Matrix.mul_add, Matrix.add_mul, transpose_mul, transpose_transpose, Matrix.mul_assoc]

/-- **C144, sigma-point filters.** -/
theorem C144_sgp (B : Backend) {T : Matrix (Fin dx) (Fin dx) ℝ} (hBT : CholCoord B T) (c : Fin dx → ℝ) (sg : SigmaPoints dx)
    (hw : ∑ i, sg.w i = 1) (state state' : (Fin dx → ℝ) → ℝ → Belief dx) (dt : ℝ)
    (hs : ∀ x, state' (T *ᵥ x + c) dt = inCoord T c (state x dt))
    (drift drift' : (Fin dx → ℝ) → Fin dx → ℝ) (hd : ∀ x, drift' (T *ᵥ x + c) = T *ᵥ drift x) (disp : Matrix (Fin dx) (Fin dw) ℝ)
    (meas meas' : (Fin dx → ℝ) → (Fin dy → ℝ) × Matrix (Fin dy) (Fin dy) ℝ) (hm : ∀ x, meas' (T *ᵥ x + c) = meas x)
    (m0 : Fin dx → ℝ) (v0 : Matrix (Fin dx) (Fin dx) ℝ) (ys : List (Fin dy → ℝ)) (constCov : Bool) :
    sgpFilter B state' meas' sg (T *ᵥ m0 + c) (T * v0 * Tᵀ) dt ys constCov
      = (sgpFilter B state meas sg m0 v0 dt ys constCov).map (inCoordOut T c) ∧
    cdSgpFilter B drift' (T * disp) meas' sg (T *ᵥ m0 + c) (T * v0 * Tᵀ) dt ys constCov
      = (cdSgpFilter B drift disp meas sg m0 v0 dt ys constCov).map (inCoordOut T c) :=
  ⟨scan_coord T c _ _ _ _ (fun b => (sgpPrediction_coord B hBT c sg hw state state' dt hs b).1)
      (fun b y => sgpUpdate_coord B hBT c sg hw meas meas' hm b y constCov) ((m0, v0), 0) ys,
    scan_coord T c _ _ _ _ (fun b => rk4_coord T c (fun m v => cdSgpShared_coord B hBT c sg drift drift' hd disp m v) b dt)
      (fun b y => sgpUpdate_coord B hBT c sg hw meas meas' hm b y constCov) ((m0, v0), 0) ys⟩

/-- **C144, sigma-point smoothers.** -/
theorem C144_sgp_smoothers (B : Backend) (hB : B.Valid) {T : Matrix (Fin dx) (Fin dx) ℝ} (hT : IsUnit T.det) (hBT : CholCoord B T)
    (c : Fin dx → ℝ) (sg : SigmaPoints dx) (hw : ∑ i, sg.w i = 1) (hxi : ∑ i, sg.w i • sg.xi i = 0)
    (state state' : (Fin dx → ℝ) → ℝ → Belief dx) (dt : ℝ) (hs : ∀ x, state' (T *ᵥ x + c) dt = inCoord T c (state x dt))
    (drift drift' : (Fin dx → ℝ) → Fin dx → ℝ) (hd : ∀ x, drift' (T *ᵥ x + c) = T *ᵥ drift x) (disp : Matrix (Fin dx) (Fin dw) ℝ)
    (fs : List (Belief dx)) :
    ((∀ f ∈ fs, (sgpPrediction B sg state dt f).1.2.PosDef) →
      sgpSmoother B state' sg (fs.map (inCoord T c)) dt = (sgpSmoother B state sg fs dt).map (List.map (inCoord T c))) ∧
    ((∀ f ∈ fs, f.2.PosDef) →
      cdSgpSmoother B drift' (T * disp) sg (fs.map (inCoord T c)) dt = (cdSgpSmoother B drift disp sg fs dt).map (List.map (inCoord T c))) := by
  refine ⟨fun hp => smooth_coord T c _ _ fs fun f hf s => ?_, fun hp => smooth_coord T c _ _ fs fun f hf s => ?_⟩
  · obtain ⟨h1, h2, h3⟩ := sgpPrediction_coord B hBT c sg hw state state' dt hs f
    simp only [h1, h2, h3]
    have hmean : sg.expectation (sgpPrediction B sg state dt f).2.1 = f.1 := by
      simp only [sgpPrediction, SigmaPoints.genSigmaPoints, SigmaPoints.expectation, smul_add, Finset.sum_add_distrib, ← Finset.sum_smul, hw,
        one_smul]
      simp only [← mulVec_smul, ← mulVec_sum, hxi, mulVec_zero, add_zero]
    have hD := second_coord sg hw T c T c (sgpPrediction B sg state dt f).2.1 (sgpPrediction B sg state dt f).2.2 f.1
      (sgpPrediction B sg state dt f).1.1 (Or.inl hmean) (Or.inl rfl)
    have hD' : (sg.expectation (fun i => vecMulVec (T *ᵥ (sgpPrediction B sg state dt f).2.1 i + c) (T *ᵥ (sgpPrediction B sg state dt f).2.2 i + c))
        - vecMulVec (inCoord T c f).1 (inCoord T c (sgpPrediction B sg state dt f).1).1 : Matrix (Fin dx) (Fin dx) ℝ)ᵀ
        = T * (sg.expectation (fun i => vecMulVec ((sgpPrediction B sg state dt f).2.1 i) ((sgpPrediction B sg state dt f).2.2 i))
          - vecMulVec f.1 (sgpPrediction B sg state dt f).1.1)ᵀ * Tᵀ := by
      refine (congrArg transpose hD).trans ?_
      simp only [transpose_mul, transpose_transpose, Matrix.mul_assoc]
    rw [hD']
    exact smootherShared_coord B hB hT c _ _ _ _ (hp f hf)
  · refine rk4Backward_coord T c f (fun m v => ?_) s (-dt)
    have hTT : IsUnit Tᵀ.det := by rwa [det_transpose]
    have hp' : (T * f.2 * Tᵀ).PosDef := by
      have := (hp f hf).conjTranspose_mul_mul_same (B := Tᵀ) (by
        rw [Matrix.mulVec_injective_iff_isUnit, Matrix.isUnit_iff_isUnit_det]; exact hTT)
      simpa [conjTranspose_eq_transpose_of_trivial] using this
    have hT1 : T⁻¹ * T = 1 := nonsing_inv_mul T hT
    have hT2 : Tᵀ * T⁻¹ᵀ = 1 := by rw [← transpose_mul, hT1, transpose_one]
    set g := disp * dispᵀ with hg
    have hg' : T * disp * (T * disp)ᵀ = T * g * Tᵀ := by rw [hg]; simp only [transpose_mul, Matrix.mul_assoc]
    have hG : (T * f.2 * Tᵀ)⁻¹ * (T * g * Tᵀ) = T⁻¹ᵀ * (f.2⁻¹ * g) * Tᵀ := by
      rw [Matrix.mul_inv_rev, Matrix.mul_inv_rev, transpose_nonsing_inv]
      simp only [Matrix.mul_assoc]
      rw [← Matrix.mul_assoc T⁻¹ T, hT1, Matrix.one_mul]
    simp only [cdSgpOdes, hg', ← hg, choSolve_eq (hB.chol _ (hp f hf)), choSolve_eq (hB.chol _ hp'), hG,
      cdSgpShared_coord B hBT c sg drift drift' hd disp m v]
    generalize f.2⁻¹ * g = G
    have hG1 : (T⁻¹ᵀ * G * Tᵀ)ᵀ * T = T * Gᵀ := by
      simp only [transpose_mul, transpose_transpose, Matrix.mul_assoc]
      rw [hT1, Matrix.mul_one]
    have hG2 : Tᵀ * (T⁻¹ᵀ * G * Tᵀ) = G * Tᵀ := by
      simp only [← Matrix.mul_assoc]
      rw [hT2, Matrix.one_mul]
    refine Prod.ext ?_ ?_
    · have h1 : T *ᵥ m + c - (T *ᵥ f.1 + c) = T *ᵥ (m - f.1) := by rw [mulVec_sub]; abel
      simp only [h1, mulVec_mulVec, hG1, mulVec_add]
    · simp only
      rw [show (T⁻¹ᵀ * G * Tᵀ)ᵀ * (T * v * Tᵀ) = T * (Gᵀ * v) * Tᵀ by simp only [← Matrix.mul_assoc, hG1],
        Matrix.mul_assoc (T * v), hG2]
      simp only [Matrix.mul_add, Matrix.add_mul, Matrix.mul_sub, Matrix.sub_mul, Matrix.mul_smul, Matrix.smul_mul, Matrix.mul_assoc]

/-! ### the hypotheses are met -/

open _root_.Classical in
/-- a valid backend whose Cholesky routine commutes with all lower triangular changes of coordinates. -/
theorem exists_cholCoord : ∃ B : Backend, B.Valid ∧
    ∀ (n : ℕ) (T : Matrix (Fin n) (Fin n) ℝ), IsLower T → (∀ i, 0 < T i i) → CholCoord B T := by
  have hv : (⟨fun G => if G.PosDef then theBackend.chol G else 0, theBackend.eigh⟩ : Backend).Valid := by
    refine ⟨fun G hG => ?_, theBackend_valid.eigh, theBackend_valid.sorted⟩
    simp only [if_pos hG]
    exact theBackend_valid.chol G hG
  refine ⟨_, hv, fun n T hl hd P => ?_⟩
  by_cases hP : P.PosDef
  · exact chol_coord_of_posDef _ hv hl hd P hP
  · have hT : IsUnit T.det := by
      have hbt : T.BlockTriangular OrderDual.toDual := fun i j hij => hl i j hij
      rw [Matrix.det_of_isLowerTriangular T hbt]
      exact (Finset.prod_pos fun i _ => hd i).ne'.isUnit
    have hP' : ¬ (T * P * Tᵀ).PosDef := by
      intro h
      apply hP
      have := h.conjTranspose_mul_mul_same (B := T⁻¹ᵀ) (by
        rw [Matrix.mulVec_injective_iff_isUnit, Matrix.isUnit_iff_isUnit_det, det_transpose]
        exact Matrix.isUnit_nonsing_inv_det T hT)
      simp only [conjTranspose_eq_transpose_of_trivial, transpose_transpose] at this
      rwa [show T⁻¹ * (T * P * Tᵀ) * T⁻¹ᵀ = (T⁻¹ * T) * P * (T⁻¹ * T)ᵀ by simp only [transpose_mul, Matrix.mul_assoc],
        nonsing_inv_mul T hT, transpose_one, Matrix.one_mul, Matrix.mul_one] at this
    simp only [if_neg hP, if_neg hP', Matrix.mul_zero]

/-- every model can be written in other coordinates. -/
theorem exists_model_coord {T : Matrix (Fin dx) (Fin dx) ℝ} (hT : IsUnit T.det) (c : Fin dx → ℝ) {α : Type} (g : (Fin dx → ℝ) → α) :
    ∃ g' : (Fin dx → ℝ) → α, ∀ x, g' (T *ᵥ x + c) = g x :=
  ⟨fun z => g (T⁻¹ *ᵥ (z - c)), fun x => by
    simp only [add_sub_cancel_right, mulVec_mulVec, nonsing_inv_mul T hT, one_mulVec]⟩

/-- a non-linear model with two states: `ekf` and the cubature filter, in the coordinates `z = (2 x₀ + 1, x₀ + x₁ - 1)`. -/
example : ∃ (B : Backend) (T : Matrix (Fin 2) (Fin 2) ℝ) (c : Fin 2 → ℝ) (state state' : (Fin 2 → ℝ) → ℝ → Belief 2)
    (meas meas' : (Fin 2 → ℝ) → (Fin 1 → ℝ) × Matrix (Fin 1) (Fin 1) ℝ), B.Valid ∧ T 1 0 = 1 ∧ c 0 = 1 ∧
    (∀ x dt, state x dt = (![x 0 + dt * Real.sin (x 1), x 1], (dt * (1 + x 0 ^ 2)) • 1)) ∧ (∀ x, meas x = (![x 0 * x 1], 1)) ∧
    ∀ (m0 : Fin 2 → ℝ) (v0 : Matrix (Fin 2) (Fin 2) ℝ) (dt : ℝ) (ys : List (Fin 1 → ℝ)),
      ekf B state' meas' (T *ᵥ m0 + c) (T * v0 * Tᵀ) dt ys = (ekf B state meas m0 v0 dt ys).map (List.map (inCoordOut T c)) ∧
      sgpFilter B state' meas' (SigmaPoints.cubature 2) (T *ᵥ m0 + c) (T * v0 * Tᵀ) dt ys
        = (sgpFilter B state meas (SigmaPoints.cubature 2) m0 v0 dt ys).map (inCoordOut T c) := by
  obtain ⟨B, hB, hBT⟩ := exists_cholCoord
  set T : Matrix (Fin 2) (Fin 2) ℝ := !![2, 0; 1, 1] with hTd
  have hT : IsUnit T.det := by simp [hTd, det_fin_two]
  have hCT : CholCoord B T := hBT 2 T (fun i j hij => by
    fin_cases i <;> fin_cases j <;> simp_all) (fun i => by fin_cases i <;> simp [hTd])
  set state : (Fin 2 → ℝ) → ℝ → Belief 2 := fun x dt => (![x 0 + dt * Real.sin (x 1), x 1], (dt * (1 + x 0 ^ 2)) • 1)
  set meas : (Fin 2 → ℝ) → (Fin 1 → ℝ) × Matrix (Fin 1) (Fin 1) ℝ := fun x => (![x 0 * x 1], 1)
  obtain ⟨state', hs⟩ := exists_model_coord hT ![1, -1] fun x dt => inCoord T ![1, -1] (state x dt)
  obtain ⟨meas', hm⟩ := exists_model_coord hT ![1, -1] meas
  refine ⟨B, T, ![1, -1], state, state', meas, meas', hB, by simp [hTd], rfl, fun _ _ => rfl, fun _ => rfl, fun m0 v0 dt ys => ?_⟩
  have hs' : ∀ x, state' (T *ᵥ x + ![1, -1]) dt = inCoord T ![1, -1] (state x dt) := fun x => congrFun (hs x) dt
  have hd : ∀ x : Fin 2 → ℝ, (fun _ => 0 : (Fin 2 → ℝ) → Fin 2 → ℝ) (T *ᵥ x + ![1, -1]) = T *ᵥ (fun _ => 0 : (Fin 2 → ℝ) → Fin 2 → ℝ) x := by
    intro x; exact (mulVec_zero T).symm
  refine ⟨(C144_ekf (dw := 1) B hT _ state state' dt hs' (fun _ => 0) (fun _ => 0) hd (fun _ => 0) (fun _ => 0) (fun _ => (Matrix.mul_zero T).symm) meas meas' hm
    m0 v0 ys).1, (C144_sgp (dw := 1) B hCT _ _ ?_ state state' dt hs' (fun _ => 0) (fun _ => 0) hd 0 meas meas' hm m0 v0 ys false).1⟩
  exact (C72_cubature 2 (by norm_num)).1.total

end Mfs.Props

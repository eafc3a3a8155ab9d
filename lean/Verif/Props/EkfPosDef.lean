import Verif.Props.SgpPosDef
import Verif.Props.Kalman

/-!
# C214: smoothing after nonlinear Gaussian filtering never increases a covariance
-/

namespace Mfs.Props

open Mfs.Spec Mfs.Classical Matrix

variable {dx dy : ℕ}

theorem scan_filter_chain {Y : Type} (predict : Belief dx → Belief dx) (update : Belief dx → Y → Belief dx × ℝ) (I : Belief dx → Prop)
    (hI : ∀ c y, I c → I (update (predict c) y).1) (hle : ∀ c y, I c → ((predict c).2 - (update (predict c) y).1.2).PosSemidef) (c : Belief dx × ℝ) (hc : I c.1) (ys : List Y) :
    List.IsChain (fun f g : Belief dx => ((predict f).2 - g.2).PosSemidef) (c.1 :: (scan (filterBody predict update) c ys).2.map (·.1)) := by
  induction ys generalizing c with
  | nil => rw [scan_filterBody_nil]; exact List.isChain_singleton _
  | cons y ys ih =>
    rw [scan_filterBody_cons, List.map_cons, List.isChain_cons_cons]
    exact ⟨hle c.1 y hc, ih _ (hI c.1 y hc)⟩

theorem smooth_shrinks (step : Belief dx → Belief dx → Belief dx) (pred : Belief dx → Matrix (Fin dx) (Fin dx) ℝ) (hpos : ∀ f s : Belief dx, f.2.PosDef → s.2.PosDef → (step f s).2.PosDef)
    (hle : ∀ f s : Belief dx, (pred f - s.2).PosSemidef → (f.2 - (step f s).2).PosSemidef) (fs : List (Belief dx)) (hfs : ∀ f ∈ fs, f.2.PosDef)
    (hch : List.IsChain (fun f g : Belief dx => (pred f - g.2).PosSemidef) fs) :
    List.Forall₂ (fun s f : Belief dx => s.2.PosDef ∧ (f.2 - s.2).PosSemidef) (smoothRec step fs) fs := by
  induction fs with
  | nil => exact List.Forall₂.nil
  | cons f fs ih =>
    have hf := hfs f List.mem_cons_self
    cases fs with
    | nil =>
      have : (f.2 - f.2).PosSemidef := by rw [sub_self]; exact PosSemidef.zero
      exact List.Forall₂.cons ⟨hf, this⟩ List.Forall₂.nil
    | cons g gs =>
      rw [List.isChain_cons_cons] at hch
      have ih := ih (fun h hh => hfs h (List.mem_cons_of_mem _ hh)) hch.2
      rw [smoothRec]
      cases e : smoothRec step (g :: gs) with
      | nil => rw [e] at ih; cases ih
      | cons s ss =>
        rw [e] at ih
        have hs := (List.forall₂_cons.1 ih).1
        refine List.Forall₂.cons ⟨hpos f s hf hs.1, hle f s ?_⟩ ih
        have := hch.1.add hs.2
        rwa [sub_add_sub_cancel] at this

theorem smootherShared_le (B : Backend) (DT : Matrix (Fin dx) (Fin dx) ℝ) (f p s : Belief dx) (h : (p.2 - s.2).PosSemidef) : (f.2 - (gaussianSmootherShared B DT f p s).2).PosSemidef := by
  simp only [gaussianSmootherShared]
  have e : ∀ G : Matrix (Fin dx) (Fin dx) ℝ, f.2 - (f.2 + G * (s.2 - p.2) * Gᵀ) = G * (p.2 - s.2) * Gᵀ := fun G => by
    rw [← neg_sub p.2 s.2, Matrix.mul_neg, Matrix.neg_mul]; abel
  rw [e]
  exact psd_conj h _

theorem eks_step_posDef (B : Backend) (hB : B.Valid) (J Sigma : Matrix (Fin dx) (Fin dx) ℝ) (f p s : Belief dx) (hp : p.2 = J * f.2 * Jᵀ + Sigma) (hSig : Sigma.PosDef) (hf : f.2.PosDef)
    (hs : s.2.PosDef) : (gaussianSmootherShared B (J * f.2) f p s).2.PosDef := by
  have hpd : (J * f.2 * Jᵀ + Sigma).PosDef := innov_posDef J hf.posSemidef hSig
  have h := congrArg Prod.snd (rts_step B hB J Sigma f s hf.posSemidef hpd)
  have e : (gaussianSmootherShared B (J * f.2) f p s).2 = (gaussianSmootherShared B (J * f.2) f (linearPredict J Sigma f) s).2 := by
    simp only [gaussianSmootherShared, hp, linearPredict]
  rw [e, h]
  exact PosDef.add_posSemidef (kcov_posDef J hf hSig) (psd_conj hs.posSemidef _)

/-- **C214 (extended Kalman).** Scalar measurements, positive definite transition, measurement and initial covariances, any nonlinear model. Then `ekf` succeeds, and on nonempty data `eks` succeeds on its
results; every filtering and smoothing covariance is positive definite; no filtering covariance exceeds the predicted one; and no smoothing covariance exceeds the filtering covariance of its step. -/
theorem C214_ekf_eks (B : Backend) (hB : B.Valid) (state : (Fin dx → ℝ) → ℝ → Belief dx) (meas : (Fin dx → ℝ) → (Fin 1 → ℝ) × Matrix (Fin 1) (Fin 1) ℝ) (m0 : Fin dx → ℝ)
    (v0 : Matrix (Fin dx) (Fin dx) ℝ) (dt : ℝ) (hs : ∀ x, (state x dt).2.PosDef) (hm : ∀ x, (meas x).2.PosDef) (hv0 : v0.PosDef) (ys : List (Fin 1 → ℝ)) (hys : ys ≠ []) :
    ∃ out ss, ekf B state meas m0 v0 dt ys = some out ∧ eks B state (out.map (·.1)) dt = some ss ∧ out.length = ys.length ∧ (∀ o ∈ out, o.1.2.PosDef) ∧
      List.IsChain (fun f g : Belief dx => (jac (fun u => (state u dt).1) f.1 * f.2 * (jac (fun u => (state u dt).1) f.1)ᵀ + (state f.1 dt).2 - g.2).PosSemidef) ((m0, v0) :: out.map (·.1)) ∧
      List.Forall₂ (fun s f : Belief dx => s.2.PosDef ∧ (f.2 - s.2).PosSemidef) ss (out.map (·.1)) := by
  have ok : UpdateShapeOk dx 1 := Or.inl rfl
  have hpP : ∀ b : Belief dx, b.2.PosDef → (ekfPredict state dt b).2.PosDef := fun b hb => innov_posDef _ hb.posSemidef (hs _)
  have hup : ∀ b : Belief dx, b.2.PosDef → ∀ y, ekfUpdate B ok meas (ekfPredict state dt b) y = _ := fun b hb y =>
    linearUpdate_scalar B ok _ _ _ _ y (hpP b hb).posSemidef (hm _)
  have hI : ∀ (c : Belief dx) (y : Fin 1 → ℝ), c.2.PosDef → (ekfUpdate B ok meas (ekfPredict state dt c) y).1.2.PosDef := fun c y hc => by
    rw [hup c hc y]; exact kcov_posDef _ (hpP c hc) (hm _)
  have hle : ∀ (c : Belief dx) (y : Fin 1 → ℝ), c.2.PosDef → ((ekfPredict state dt c).2 - (ekfUpdate B ok meas (ekfPredict state dt c) y).1.2).PosSemidef := fun c y hc => by
    rw [hup c hc y]; exact kcov_le _ (hpP c hc).posSemidef (hm _)
  have hch := scan_filter_chain (ekfPredict state dt) (fun p y => ekfUpdate B ok meas p y) (fun b => b.2.PosDef) hI hle ((m0, v0), 0) hv0 ys
  have hinv := scan_filterBody_inv (ekfPredict state dt) (fun p y => ekfUpdate B ok meas p y) (fun b => b.2.PosDef) hI ((m0, v0), 0) hv0 ys
  have hlen := scan_filterBody_length (ekfPredict state dt) (fun p y => ekfUpdate B ok meas p y) ((m0, v0), 0) ys
  have hout : ekf B state meas m0 v0 dt ys = some (scan (filterBody (ekfPredict state dt) fun p y => ekfUpdate B ok meas p y) ((m0, v0), 0) ys).2 := by rw [ekf, dif_pos ok]
  generalize (scan (filterBody (ekfPredict state dt) fun p y => ekfUpdate B ok meas p y) ((m0, v0), 0) ys).2 = out at hch hinv hlen hout
  have hne : out.map (·.1) ≠ [] := fun h => by
    rw [List.map_eq_nil_iff] at h
    rw [h, List.length_nil] at hlen
    exact hys (List.length_eq_zero_iff.1 hlen.symm)
  refine ⟨out, _, hout, by rw [eks, smoothWith_eq, if_neg hne], hlen, fun o ho => hinv o (List.mem_cons_of_mem _ ho), hch, ?_⟩
  refine smooth_shrinks _ (fun f => (ekfPredict state dt f).2) (fun f s hf hs' => eks_step_posDef B hB _ _ f _ s rfl (hs _) hf hs')
    (fun f s h => smootherShared_le B _ f _ s h) _ (fun f hf => ?_) (List.IsChain.tail hch)
  obtain ⟨o, ho, rfl⟩ := List.mem_map.1 hf
  exact hinv o (List.mem_cons_of_mem _ ho)

/-- **C214 (sigma points).** The same for `sgp_filter` followed by `sgp_smoother`, for measurements of every dimension, with a rule that integrates quadratics exactly with nonnegative weights. -/
theorem C214_sgp (B : Backend) (hB : B.Valid) (sgps : SigmaPoints dx) (hr : SecondOrder sgps.w sgps.xi) (hw : ∀ i, 0 ≤ sgps.w i) (state : (Fin dx → ℝ) → ℝ → Belief dx)
    (meas : (Fin dx → ℝ) → (Fin dy → ℝ) × Matrix (Fin dy) (Fin dy) ℝ) (m0 : Fin dx → ℝ) (v0 : Matrix (Fin dx) (Fin dx) ℝ) (dt : ℝ) (hs : ∀ x, (state x dt).2.PosDef)
    (hm : ∀ x, (meas x).2.PosDef) (hv0 : v0.PosDef) (ys : List (Fin dy → ℝ)) (hys : ys ≠ []) (constCov : Bool) :
    ∃ ss, sgpSmoother B state sgps ((sgpFilter B state meas sgps m0 v0 dt ys constCov).map (·.1)) dt = some ss ∧
      List.Forall₂ (fun s f : Belief dx => s.2.PosDef ∧ (f.2 - s.2).PosSemidef) ss ((sgpFilter B state meas sgps m0 v0 dt ys constCov).map (·.1)) := by
  have hpP : ∀ b, (sgpPrediction B sgps state dt b).1.2.PosDef := sgpPrediction_posDef hr hw state dt hs
  have hI : ∀ (c : Belief dx) (y : Fin dy → ℝ), c.2.PosDef → (sgpUpdate B sgps meas (sgpPrediction B sgps state dt c).1 y constCov).1.2.PosDef := fun c y _ => by
    obtain ⟨-, h2, h3⟩ := sgpUpdate_eq hB hr hw meas hm _ (hpP c) constCov rfl rfl rfl
    rw [h3 y]; exact h2
  have hle : ∀ (c : Belief dx) (y : Fin dy → ℝ), c.2.PosDef →
      ((sgpPrediction B sgps state dt c).1.2 - (sgpUpdate B sgps meas (sgpPrediction B sgps state dt c).1 y constCov).1.2).PosSemidef := fun c y _ => by
    obtain ⟨h1, -, h3⟩ := sgpUpdate_eq hB hr hw meas hm _ (hpP c) constCov rfl rfl rfl
    rw [h3 y]
    simp only [sub_sub_cancel]
    exact psd_conj h1.posSemidef _
  have hch := scan_filter_chain (fun f => (sgpPrediction B sgps state dt f).1) (fun p y => sgpUpdate B sgps meas p y constCov) (fun b => b.2.PosDef) hI hle ((m0, v0), 0) hv0 ys
  have hinv := C212_filter B hB sgps hr hw state meas m0 v0 dt hs hm hv0 ys constCov
  have hlen := scan_filterBody_length (fun f => (sgpPrediction B sgps state dt f).1) (fun p y => sgpUpdate B sgps meas p y constCov) ((m0, v0), 0) ys
  rw [← sgpFilter] at hlen
  have hne : (sgpFilter B state meas sgps m0 v0 dt ys constCov).map (·.1) ≠ [] := fun h => by
    rw [List.map_eq_nil_iff] at h
    rw [h, List.length_nil] at hlen
    exact hys (List.length_eq_zero_iff.1 hlen.symm)
  have hfs : ∀ f ∈ (sgpFilter B state meas sgps m0 v0 dt ys constCov).map (·.1), f.2.PosDef := fun f hf => by
    obtain ⟨o, ho, rfl⟩ := List.mem_map.1 hf
    exact hinv o ho
  refine ⟨_, by rw [sgpSmoother, smoothWith_eq, if_neg hne], ?_⟩
  refine smooth_shrinks _ (fun f => (sgpPrediction B sgps state dt f).1.2) (fun f s hf hs' => ?_) (fun f s h => smootherShared_le B _ f _ s h) _ hfs (List.IsChain.tail hch)
  exact sgp_smooth_step_posDef B hB sgps hr hw state dt hs f s hf hs'

/-- non-vacuity: sine dynamics with state-dependent noise and a cubic measurement. -/
example : ∃ out ss, ekf theBackend (fun (x : Fin 1 → ℝ) _ => (fun i => Real.sin (x i), (1 + x 0 ^ 2) • (1 : Matrix (Fin 1) (Fin 1) ℝ))) (fun x => (fun i => x i ^ 3, 1)) 0 1 1
      [fun _ => 2, fun _ => -1] = some out ∧
    eks theBackend (fun (x : Fin 1 → ℝ) _ => (fun i => Real.sin (x i), (1 + x 0 ^ 2) • (1 : Matrix (Fin 1) (Fin 1) ℝ))) (out.map (·.1)) 1 = some ss ∧ out.length = 2 ∧
    List.Forall₂ (fun s f : Belief 1 => s.2.PosDef ∧ (f.2 - s.2).PosSemidef) ss (out.map (·.1)) := by
  obtain ⟨out, ss, h1, h2, h3, -, -, h4⟩ := C214_ekf_eks theBackend theBackend_valid (fun (x : Fin 1 → ℝ) _ => (fun i => Real.sin (x i), (1 + x 0 ^ 2) • (1 : Matrix (Fin 1) (Fin 1) ℝ)))
    (fun x => (fun i => x i ^ 3, 1)) 0 1 1 (fun x => PosDef.one.smul (by positivity)) (fun _ => PosDef.one) PosDef.one [fun _ => 2, fun _ => -1] (by simp)
  exact ⟨out, ss, h1, h2, h3, h4⟩

end Mfs.Props

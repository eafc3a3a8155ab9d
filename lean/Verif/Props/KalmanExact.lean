import Verif.Lemmas.KalmanExact
import Verif.Props.Kalman

/-!
# Properties C105, C106: the Kalman filter and the RTS smoother compute the exact posterior laws

The reference is the joint density `Spec.lgJoint` of all hidden states and measurements, integrated over all hidden paths.
-/

namespace Mfs.Props

open MeasureTheory Matrix Mfs.Spec Mfs.Classical Mfs.Lemmas

variable {dx : ℕ}

section bridge
variable {B : Backend} {F Sigma : Matrix (Fin dx) (Fin dx) ℝ} {H : Matrix (Fin 1) (Fin dx) ℝ} {Xi : Matrix (Fin 1) (Fin 1) ℝ}

theorem kf_step (ok : UpdateShapeOk dx 1) (hSig : Sigma.PosDef) (hXi : Xi.PosDef) (c : Belief dx × ℝ) (hc : c.1.2.PosDef) (y : Fin 1 → ℝ) :
    (stepOf (linearPredict F Sigma) (fun p y => linearUpdate B ok p H (H *ᵥ p.1) Xi y) c y).1 = kstep F Sigma H Xi c.1 y ∧
    Real.exp (-(stepOf (linearPredict F Sigma) (fun p y => linearUpdate B ok p H (H *ᵥ p.1) Xi y) c y).2)
      = Real.exp (-c.2) * kev F Sigma H Xi c.1 y := by
  have hp : (linearPredict F Sigma c.1).2.PosDef := innov_posDef F hc.posSemidef hSig
  rw [stepOf, linearUpdate_scalar B ok _ H _ Xi y hp.posSemidef hXi]
  refine ⟨rfl, ?_⟩
  dsimp only
  rw [neg_add, Real.exp_add, linearNell_scalar B _ y (innov_posDef H hp.posSemidef hXi)]
  rfl

theorem kf_beliefs (ok : UpdateShapeOk dx 1) (hSig : Sigma.PosDef) (hXi : Xi.PosDef) (ys : List (Fin 1 → ℝ)) (c : Belief dx × ℝ)
    (hc : c.1.2.PosDef) :
    (c :: (scan (filterBody (linearPredict F Sigma) fun p y => linearUpdate B ok p H (H *ᵥ p.1) Xi y) c ys).2).map (·.1)
      = beliefs F Sigma H Xi c.1 ys := by
  induction ys generalizing c with
  | nil => rfl
  | cons y ys ih =>
    have hs := kf_step (B := B) (F := F) (H := H) ok hSig hXi c hc y
    rw [scan_filterBody_cons, List.map_cons, ih _ (by rw [hs.1]; exact kstep_posDef hc hSig hXi y), hs.1, beliefs]

theorem kf_evid (ok : UpdateShapeOk dx 1) (hSig : Sigma.PosDef) (hXi : Xi.PosDef) (ys : List (Fin 1 → ℝ)) (c : Belief dx × ℝ)
    (hc : c.1.2.PosDef) (k : ℕ) (o : Belief dx × ℝ)
    (ho : (scan (filterBody (linearPredict F Sigma) fun p y => linearUpdate B ok p H (H *ᵥ p.1) Xi y) c ys).2[k]? = some o) :
    (beliefs F Sigma H Xi c.1 (ys.take (k + 1))).getLast? = some o.1 ∧
    Real.exp (-o.2) = Real.exp (-c.2) * evid F Sigma H Xi c.1 (ys.take (k + 1)) := by
  induction ys generalizing c k with
  | nil => simp [scan] at ho
  | cons y ys ih =>
    have hs := kf_step (B := B) (F := F) (H := H) ok hSig hXi c hc y
    have hc' : (stepOf (linearPredict F Sigma) (fun p y => linearUpdate B ok p H (H *ᵥ p.1) Xi y) c y).1.2.PosDef := by
      rw [hs.1]; exact kstep_posDef hc hSig hXi y
    rw [scan_filterBody_cons] at ho
    rw [List.take_succ_cons, beliefs, evid]
    cases k with
    | zero =>
      rw [List.getElem?_cons_zero, Option.some.injEq] at ho
      rw [← ho, hs.2, hs.1, List.take_zero, beliefs, evid, mul_one]
      exact ⟨rfl, rfl⟩
    | succ k =>
      rw [List.getElem?_cons_succ] at ho
      obtain ⟨h1, h2⟩ := ih _ hc' k ho
      rw [h2, hs.2, hs.1, mul_assoc]
      rw [hs.1] at h1
      refine ⟨?_, rfl⟩
      rw [List.getLast?_cons, h1]
      rfl

theorem beliefs_length (b : Belief dx) (ys : List (Fin 1 → ℝ)) : (beliefs F Sigma H Xi b ys).length = ys.length + 1 := by
  induction ys generalizing b with
  | nil => rfl
  | cons y ys ih => rw [beliefs, List.length_cons, ih, List.length_cons]

end bridge

/-! ## C105 -/

/-- **C105.** For scalar measurements, `exp(-nell)` returned by `kf` at step `k` is the density of the measurements up to `k` (the
joint density integrated over all hidden paths), and the returned mean and covariance are those of the exact conditional law
of the state given these measurements: for every measurable `f ≥ 0` the integral of `f(x_k)` against the joint density is
`exp(-nell)` times the integral of `f` against `N(mf_k, vf_k)`. -/
theorem C105_kf_exact (B : Backend) (F Sigma : Matrix (Fin dx) (Fin dx) ℝ) (H : Matrix (Fin 1) (Fin dx) ℝ)
    (Xi : Matrix (Fin 1) (Fin 1) ℝ) (m0 : Fin dx → ℝ) (v0 : Matrix (Fin dx) (Fin dx) ℝ) (ys : List (Fin 1 → ℝ))
    (hv0 : v0.PosDef) (hSig : Sigma.PosDef) (hXi : Xi.PosDef) :
    ∃ out, kf B F Sigma H Xi m0 v0 ys = some out ∧ out.length = ys.length ∧
      ∀ (k : ℕ) (o : Belief dx × ℝ), out[k]? = some o →
        o.1.2.PosDef ∧
        ∫⁻ xs, ENNReal.ofReal (lgJoint F Sigma H Xi m0 v0 (ys.take (k + 1)) xs) = ENNReal.ofReal (Real.exp (-o.2)) ∧
        ∀ f : (Fin dx → ℝ) → ENNReal, Measurable f →
          ∫⁻ xs, f (xs (Fin.last _)) * ENNReal.ofReal (lgJoint F Sigma H Xi m0 v0 (ys.take (k + 1)) xs)
            = ENNReal.ofReal (Real.exp (-o.2)) * ∫⁻ x, f x * ENNReal.ofReal (mvnPdf o.1.1 o.1.2 x) := by
  have ok : UpdateShapeOk dx 1 := Or.inl rfl
  refine ⟨_, by rw [kf, dif_pos ok], scan_filterBody_length _ _ _ _, ?_⟩
  intro k o ho
  obtain ⟨h1, h2⟩ := kf_evid ok hSig hXi ys ((m0, v0), 0) hv0 k o ho
  rw [neg_zero, Real.exp_zero, one_mul] at h2
  have hl : (smoothRec (sstep F Sigma) (beliefs F Sigma H Xi (m0, v0) (ys.take (k + 1))))[((Fin.last (ys.take (k + 1)).length : Fin _) : ℕ)]?
      = some o.1 := by
    rw [← h1, ← smoothRec_last (sstep F Sigma), List.getLast?_eq_getElem?, smoothRec_length, beliefs_length]
    rfl
  obtain ⟨hp, hlaw⟩ := path_law hSig hXi (ys.take (k + 1)) (m0, v0) hv0 (Fin.last _) o.1 hl
  rw [h2]
  refine ⟨hp, ?_, hlaw⟩
  have h3 := hlaw (fun _ => 1) measurable_const
  simp only [one_mul] at h3
  rw [h3, lintegral_mvnPdf _ hp, mul_one]

/-! ## C106 -/

/-- **C106.** `rts` applied to the output of `kf` (scalar measurements) returns the exact conditional law of every state given *all*
measurements: for every measurable `f ≥ 0` the integral of `f(x_{k+1})` against the joint density of all states and
measurements is the density of the measurements times the integral of `f` against `N(ms_k, vs_k)`. -/
theorem C106_rts_exact (B : Backend) (hB : B.Valid) (F Sigma : Matrix (Fin dx) (Fin dx) ℝ) (H : Matrix (Fin 1) (Fin dx) ℝ)
    (Xi : Matrix (Fin 1) (Fin 1) ℝ) (m0 : Fin dx → ℝ) (v0 : Matrix (Fin dx) (Fin dx) ℝ) (ys : List (Fin 1 → ℝ)) (hys : ys ≠ [])
    (hv0 : v0.PosDef) (hSig : Sigma.PosDef) (hXi : Xi.PosDef) :
    ∃ out ss last, kf B F Sigma H Xi m0 v0 ys = some out ∧ out.getLast? = some last ∧ rts B F Sigma (out.map (·.1)) = some ss ∧
      ss.length = ys.length ∧
      ∀ (k : ℕ) (s : Belief dx) (hk : k < ys.length), ss[k]? = some s →
        s.2.PosDef ∧
        ∀ f : (Fin dx → ℝ) → ENNReal, Measurable f →
          ∫⁻ xs : Fin (ys.length + 1) → Fin dx → ℝ, f (xs ⟨k + 1, by omega⟩) * ENNReal.ofReal (lgJoint F Sigma H Xi m0 v0 ys xs)
            = ENNReal.ofReal (Real.exp (-last.2)) * ∫⁻ x, f x * ENNReal.ofReal (mvnPdf s.1 s.2 x) := by
  have ok : UpdateShapeOk dx 1 := Or.inl rfl
  set out := (scan (filterBody (linearPredict F Sigma) fun p y => linearUpdate B ok p H (H *ᵥ p.1) Xi y) ((m0, v0), 0) ys).2 with hout
  have hlen : out.length = ys.length := scan_filterBody_length _ _ _ _
  have hpos : 0 < ys.length := List.length_pos_iff.2 hys
  have hbel := kf_beliefs (B := B) (F := F) (H := H) ok hSig hXi ys ((m0, v0), 0) hv0
  rw [← hout, List.map_cons] at hbel
  have hne : out.map (·.1) ≠ [] := by
    intro h
    have := congrArg List.length h
    rw [List.length_map, hlen] at this
    simp at this
    exact hys this
  have hpd : ∀ f ∈ out.map (·.1), f.2.PosDef := by
    intro f hf
    obtain ⟨o, ho, rfl⟩ := List.mem_map.1 hf
    exact scan_filterBody_inv (linearPredict F Sigma) (fun p y => linearUpdate B ok p H (H *ᵥ p.1) Xi y) (fun b => b.2.PosDef)
      (fun c y hc => by
        have := (kf_step (B := B) (F := F) (H := H) ok hSig hXi (c, 0) hc y).1
        rw [stepOf] at this
        dsimp only at this
        rw [this]
        exact kstep_posDef hc hSig hXi y) ((m0, v0), 0) hv0 ys o (List.mem_cons_of_mem _ ho)
  obtain ⟨last, hlast⟩ : ∃ last, out[ys.length - 1]? = some last := ⟨_, List.getElem?_eq_getElem (by omega)⟩
  have hrts : rts B F Sigma (out.map (·.1)) = some (smoothRec (sstep F Sigma) (out.map (·.1))) := by
    rw [rts, smoothWith_eq, if_neg hne]
    congr 1
    refine smoothRec_congr _ _ _ fun f hf s => ?_
    rw [rts_step B hB F Sigma f s (hpd f hf).posSemidef (innov_posDef F (hpd f hf).posSemidef hSig)]
    rfl
  refine ⟨out, _, last, by rw [kf, dif_pos ok], ?_, hrts, ?_, ?_⟩
  · rw [List.getLast?_eq_getElem?, hlen, hlast]
  · rw [smoothRec_length, List.length_map, hlen]
  · intro k s hk hs
    have hev := (kf_evid ok hSig hXi ys ((m0, v0), 0) hv0 (ys.length - 1) _ hlast).2
    rw [neg_zero, Real.exp_zero, one_mul, Nat.sub_add_cancel hpos, List.take_length] at hev
    rw [hev]
    refine path_law hSig hXi ys (m0, v0) hv0 ⟨k + 1, by omega⟩ s ?_
    rw [← hbel, smoothRec]
    cases h : smoothRec (sstep F Sigma) (out.map (·.1)) with
    | nil => rw [h] at hs; simp at hs
    | cons t ts =>
      rw [h] at hs
      simpa using hs

/-- non-vacuity: a correlated two-dimensional model with two measurements. -/
example : ∃ (F Sigma : Matrix (Fin 2) (Fin 2) ℝ) (Xi : Matrix (Fin 1) (Fin 1) ℝ) (v0 : Matrix (Fin 2) (Fin 2) ℝ) (ys : List (Fin 1 → ℝ)),
    F ≠ 0 ∧ v0.PosDef ∧ Sigma.PosDef ∧ Xi.PosDef ∧ ys.length = 2 :=
  ⟨!![1, 1; 0, 1], 1, 1, 1, [0, 1], fun h => by simpa using congrFun (congrFun h 0) 0, PosDef.one, PosDef.one, PosDef.one, rfl⟩

end Mfs.Props

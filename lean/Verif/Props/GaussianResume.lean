import Verif.Lemmas.Gaussian

/-!
# C216: the Gaussian filters and smoothers are resumable
-/

namespace Mfs.Props

open Mfs.Spec Mfs.Classical Matrix

variable {dx dy dw : ℕ}

/-- a filter, as a function of initial mean, initial covariance and measurements, can be stopped and restarted from its last belief: the records are the same, with the negative log-likelihoods continuing from
the last one. In particular the records of the first measurements do not depend on later ones. -/
def ResumableFilter {Y : Type} (run : (Fin dx → ℝ) → Matrix (Fin dx) (Fin dx) ℝ → List Y → Option (List (Belief dx × ℝ))) : Prop :=
  ∀ (m0 : Fin dx → ℝ) (v0 : Matrix (Fin dx) (Fin dx) ℝ) (ys zs : List Y) (out : List (Belief dx × ℝ)) (m : Fin dx → ℝ) (v : Matrix (Fin dx) (Fin dx) ℝ) (n : ℝ),
    run m0 v0 ys = some out → out.getLast? = some ((m, v), n) →
    ∃ out', run m v zs = some out' ∧ run m0 v0 (ys ++ zs) = some (out ++ out'.map fun r => (r.1, n + r.2))

/-- a smoother, as a function of the filtering beliefs, can be run on the last part first: its results for the last part do not depend on the first part, and those for the first part depend on the last part only
through the first smoothing belief of the last part, which may be put in place of a filtering belief. -/
def ResumableSmoother (run : List (Belief dx) → Option (List (Belief dx))) : Prop :=
  ∀ (fs gs post : List (Belief dx)) (s : Belief dx), run gs = some post → post.head? = some s →
    ∃ pre, pre.length = fs.length ∧ run (fs ++ gs) = some (pre ++ post) ∧ run (fs ++ [s]) = some (pre ++ [s])

section generic

variable {Y : Type} (predict : Belief dx → Belief dx) (update : Belief dx → Y → Belief dx × ℝ)

theorem scan_filterBody_shift (b : Belief dx) (n k : ℝ) (ys : List Y) :
    (scan (filterBody predict update) (b, n + k) ys).2 = (scan (filterBody predict update) (b, k) ys).2.map fun r => (r.1, n + r.2) := by
  induction ys generalizing b k with
  | nil => rfl
  | cons y ys ih =>
    rw [scan_filterBody_cons, scan_filterBody_cons, List.map_cons]
    have e : stepOf predict update (b, n + k) y = ((stepOf predict update (b, k) y).1, n + (stepOf predict update (b, k) y).2) := by
      simp only [stepOf, add_assoc]
    rw [e, ih]

theorem scan_filterBody_last (c : Belief dx × ℝ) (ys : List Y) : (c :: (scan (filterBody predict update) c ys).2).getLast? = some (scan (filterBody predict update) c ys).1 := by
  induction ys generalizing c with
  | nil => rfl
  | cons y ys ih =>
    rw [scan_filterBody_cons, List.getLast?_cons_cons, ih]
    rfl

theorem resumable_scan (m0 : Fin dx → ℝ) (v0 : Matrix (Fin dx) (Fin dx) ℝ) (ys zs : List Y) (m : Fin dx → ℝ) (v : Matrix (Fin dx) (Fin dx) ℝ) (n : ℝ)
    (h : (scan (filterBody predict update) ((m0, v0), 0) ys).2.getLast? = some ((m, v), n)) :
    (scan (filterBody predict update) ((m0, v0), 0) (ys ++ zs)).2
      = (scan (filterBody predict update) ((m0, v0), 0) ys).2 ++ (scan (filterBody predict update) ((m, v), 0) zs).2.map fun r => (r.1, n + r.2) := by
  have hl := scan_filterBody_last predict update ((m0, v0), 0) ys
  rw [List.getLast?_cons, h, Option.getD_some, Option.some.injEq] at hl
  rw [scan_append_snd, ← hl]
  congr 1
  have := scan_filterBody_shift predict update (m, v) n 0 zs
  rwa [add_zero] at this

theorem smoothRec_append (step : Belief dx → Belief dx → Belief dx) (fs gs : List (Belief dx)) (s : Belief dx) (h : (smoothRec step gs).head? = some s) :
    ∃ pre, pre.length = fs.length ∧ smoothRec step (fs ++ gs) = pre ++ smoothRec step gs ∧ smoothRec step (fs ++ [s]) = pre ++ [s] := by
  induction fs with
  | nil => exact ⟨[], rfl, rfl, rfl⟩
  | cons f fs ih =>
    obtain ⟨pre, h1, h2, h3⟩ := ih
    cases pre with
    | nil =>
      obtain ⟨t, ts, e⟩ : ∃ t ts, smoothRec step gs = t :: ts := by
        cases e : smoothRec step gs with
        | nil => rw [e] at h; simp at h
        | cons t ts => exact ⟨t, ts, rfl⟩
      rw [e, List.head?_cons, Option.some.injEq] at h
      subst h
      refine ⟨[step f t], by rw [List.length_singleton, List.length_cons, ← h1, List.length_nil], ?_, ?_⟩
      · rw [List.cons_append, smoothRec, h2, List.nil_append, e]; rfl
      · rw [List.cons_append, smoothRec, h3]; rfl
    | cons q qs =>
      refine ⟨step f q :: q :: qs, by rw [List.length_cons, h1, List.length_cons], ?_, ?_⟩
      · rw [List.cons_append, smoothRec, h2]; rfl
      · rw [List.cons_append, smoothRec, h3]; rfl

theorem resumable_smoothWith (step : Belief dx → Belief dx → Belief dx) : ResumableSmoother (smoothWith step) := by
  intro fs gs post s h hs
  rw [smoothWith_eq] at h
  split_ifs at h with hg
  have h := Option.some.inj h
  subst h
  obtain ⟨pre, h1, h2, h3⟩ := smoothRec_append step fs gs s hs
  refine ⟨pre, h1, ?_, ?_⟩
  · rw [smoothWith_eq, if_neg (by simp [hg]), h2]
  · rw [smoothWith_eq, if_neg (by simp), h3]

end generic

/-- **C216 (filters).** All Gaussian filters can be stopped and restarted, for every model and every split of every measurement sequence, also with vector measurements. -/
theorem C216_filters (B : Backend) (F Sigma : Matrix (Fin dx) (Fin dx) ℝ) (H : Matrix (Fin dy) (Fin dx) ℝ) (Xi : Matrix (Fin dy) (Fin dy) ℝ) (state : (Fin dx → ℝ) → ℝ → Belief dx)
    (meas : (Fin dx → ℝ) → (Fin dy → ℝ) × Matrix (Fin dy) (Fin dy) ℝ) (drift : (Fin dx → ℝ) → Fin dx → ℝ) (dispersion : (Fin dx → ℝ) → Matrix (Fin dx) (Fin dw) ℝ)
    (disp : Matrix (Fin dx) (Fin dw) ℝ) (sgps : SigmaPoints dx) (dt : ℝ) (constCov : Bool) :
    ResumableFilter (kf B F Sigma H Xi) ∧ ResumableFilter (fun m0 v0 ys => ekf B state meas m0 v0 dt ys) ∧ ResumableFilter (fun m0 v0 ys => cdEkf B drift dispersion meas m0 v0 dt ys) ∧
    ResumableFilter (fun m0 v0 ys => some (sgpFilter B state meas sgps m0 v0 dt ys constCov)) ∧
    ResumableFilter (fun m0 v0 ys => some (cdSgpFilter B drift disp meas sgps m0 v0 dt ys constCov)) := by
  refine ⟨?_, ?_, ?_, ?_, ?_⟩ <;> intro m0 v0 ys zs out m v n h hl
  · simp only [kf] at h ⊢
    split_ifs at h ⊢ with ok
    have h := Option.some.inj h
    subst h
    exact ⟨_, rfl, by rw [resumable_scan _ _ m0 v0 ys zs m v n hl]⟩
  · simp only [ekf] at h ⊢
    split_ifs at h ⊢ with ok
    have h := Option.some.inj h
    subst h
    exact ⟨_, rfl, by rw [resumable_scan _ _ m0 v0 ys zs m v n hl]⟩
  · simp only [cdEkf] at h ⊢
    split_ifs at h ⊢ with ok
    have h := Option.some.inj h
    subst h
    exact ⟨_, rfl, by rw [resumable_scan _ _ m0 v0 ys zs m v n hl]⟩
  · simp only [sgpFilter] at h ⊢
    have h := Option.some.inj h
    subst h
    exact ⟨_, rfl, by rw [resumable_scan _ _ m0 v0 ys zs m v n hl]⟩
  · simp only [cdSgpFilter] at h ⊢
    have h := Option.some.inj h
    subst h
    exact ⟨_, rfl, by rw [resumable_scan _ _ m0 v0 ys zs m v n hl]⟩

/-- **C216 (smoothers).** All Gaussian smoothers can be run on the last part of the filtering results first, for every model and every split. -/
theorem C216_smoothers (B : Backend) (F Sigma : Matrix (Fin dx) (Fin dx) ℝ) (state : (Fin dx → ℝ) → ℝ → Belief dx) (drift : (Fin dx → ℝ) → Fin dx → ℝ)
    (dispersion : (Fin dx → ℝ) → Matrix (Fin dx) (Fin dw) ℝ) (disp : Matrix (Fin dx) (Fin dw) ℝ) (sgps : SigmaPoints dx) (dt : ℝ) :
    ResumableSmoother (rts B F Sigma) ∧ ResumableSmoother (fun fs => eks B state fs dt) ∧ ResumableSmoother (fun fs => cdEks B drift dispersion fs dt) ∧
    ResumableSmoother (fun fs => sgpSmoother B state sgps fs dt) ∧ ResumableSmoother (fun fs => cdSgpSmoother B drift disp sgps fs dt) :=
  ⟨resumable_smoothWith _, resumable_smoothWith _, resumable_smoothWith _, resumable_smoothWith _, resumable_smoothWith _⟩

/-- non-vacuity: the hypotheses of both definitions are met by a scalar model with one measurement and one filtering belief. -/
example (y : Fin 1 → ℝ) : ∃ out r, kf theBackend (1 : Matrix (Fin 1) (Fin 1) ℝ) 1 1 1 0 1 [y] = some out ∧ out.getLast? = some r := by
  refine ⟨_, _, by rw [kf, dif_pos (show UpdateShapeOk 1 1 from Or.inl rfl)], rfl⟩

example (f : Belief 1) : rts theBackend (1 : Matrix (Fin 1) (Fin 1) ℝ) 1 [f] = some [f] ∧ [f].head? = some f := ⟨rfl, rfl⟩

end Mfs.Props

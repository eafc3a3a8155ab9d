import Verif.Model.Filter1
import Verif.Props.Quad1

/-!
# Lemmas for the one-dimensional filters
-/

namespace Mfs

/-! ### Scans whose output is the new state and which accumulate a log-likelihood -/

section traj

variable {S Y : Type}

/-- the states visited after each input. -/
def traj (g : S → Y → S) : S → List Y → List S
  | _, [] => []
  | s, y :: ys => g s y :: traj g (g s y) ys

/-- the last state. -/
def lastState (g : S → Y → S) (s : S) (ys : List Y) : S := ys.foldl g s

/-- the likelihood terms. -/
def liks (g : S → Y → S) (lik : S → Y → ℝ) : S → List Y → List ℝ
  | _, [] => []
  | s, y :: ys => lik s y :: liks g lik (g s y) ys

variable {g : S → Y → S} {lik : S → Y → ℝ}

theorem scan_eq_traj {f : S × ℝ → Y → (S × ℝ) × S} {h : S → Y → ℝ} (hf : ∀ c y, f c y = ((g c.1 y, c.2 - h c.1 y), g c.1 y))
    (s : S) (a : ℝ) (ys : List Y) :
    scan f (s, a) ys = ((lastState g s ys, a - (liks g h s ys).sum), traj g s ys) := by
  induction ys generalizing s a with
  | nil => simp [scan, lastState, liks, traj]
  | cons y ys ih =>
    rw [scan]
    simp only [hf]
    rw [ih]
    simp only [lastState, List.foldl_cons, liks, traj, List.sum_cons, Prod.mk.injEq, and_true, true_and]
    ring

theorem length_traj (s : S) (ys : List Y) : (traj g s ys).length = ys.length := by
  induction ys generalizing s with
  | nil => rfl
  | cons y ys ih => simp [traj, ih]

theorem traj_append (s : S) (ys zs : List Y) : traj g s (ys ++ zs) = traj g s ys ++ traj g (lastState g s ys) zs := by
  induction ys generalizing s with
  | nil => rfl
  | cons y ys ih => simp [traj, ih, lastState]

theorem liks_append (s : S) (ys zs : List Y) :
    liks g lik s (ys ++ zs) = liks g lik s ys ++ liks g lik (lastState g s ys) zs := by
  induction ys generalizing s with
  | nil => rfl
  | cons y ys ih => simp [liks, ih, lastState]

theorem lastState_eq (s : S) (ys : List Y) : lastState g s ys = (traj g s ys).getLastD s := by
  induction ys generalizing s with
  | nil => rfl
  | cons y ys ih =>
    rw [lastState, List.foldl_cons, traj]
    change lastState g (g s y) ys = _
    rw [ih]
    cases traj g (g s y) ys with
    | nil => rfl
    | cons a l =>
      simp only [List.getLastD_eq_getLast?, List.getLast?_cons_cons]
      cases h : (a :: l).getLast? with
      | none => simp at h
      | some b => rfl

theorem traj_take (s : S) (ys : List Y) (k : ℕ) : (traj g s ys).take k = traj g s (ys.take k) := by
  induction ys generalizing s k with
  | nil => simp [traj]
  | cons y ys ih =>
    cases k with
    | zero => simp [traj]
    | succ k => simp [traj, ih]

theorem traj_getElem (s : S) (ys : List Y) (k : ℕ) (o : S) (y : Y) (ho : (traj g s ys)[k]? = some o)
    (hy : ys[k]? = some y) : ∃ p, (s :: traj g s ys)[k]? = some p ∧ o = g p y := by
  induction ys generalizing s k with
  | nil => simp at hy
  | cons y' ys ih =>
    cases k with
    | zero =>
      simp only [traj, List.getElem?_cons_zero, Option.some.injEq] at ho hy
      exact ⟨s, rfl, by rw [← ho, hy]⟩
    | succ k =>
      simp only [traj, List.getElem?_cons_succ] at ho hy ⊢
      exact ih _ _ ho hy

theorem liks_eq_zipWith (s : S) (ys : List Y) : liks g lik s ys = List.zipWith lik (s :: traj g s ys) ys := by
  induction ys generalizing s with
  | nil => rfl
  | cons y ys ih => rw [liks, traj, List.zipWith_cons_cons, ih]

theorem traj_congr {g' : S → Y → S} (h : ∀ s y, g s y = g' s y) (s : S) (ys : List Y) : traj g s ys = traj g' s ys := by
  induction ys generalizing s with
  | nil => rfl
  | cons y ys ih => rw [traj, traj, h, ih]

end traj

namespace Filter1

open Mfs.Quad1 Mfs.Props Polynomial Mfs.Spec

variable {Y : Type}

theorem wsum_eq_integ {n : ℕ} (r : (Fin n → ℝ) × (Fin n → ℝ)) (f : ℝ → ℝ) : wsum r f = integ r f := rfl

/-- predicted raw moments. -/
noncomputable def predRms (B : Backend) (stable : Bool) (P : ℝ → ℕ → ℝ) (n : ℕ) (s : List ℝ) : List ℝ :=
  (List.range n).map fun k => integ (momentQuadrature B s 0 1 false stable) fun x => P x k

/-- predictive likelihood, raw representation. -/
noncomputable def likRms (B : Backend) (stable : Bool) (P : ℝ → ℕ → ℝ) (pdf : Y → ℝ → ℝ) (n : ℕ) (s : List ℝ) (y : Y) : ℝ :=
  integ (momentQuadrature B (predRms B stable P n s) 0 1 false stable) (pdf y)

noncomputable def nextRms (B : Backend) (stable : Bool) (P : ℝ → ℕ → ℝ) (pdf : Y → ℝ → ℝ) (n : ℕ) (s : List ℝ) (y : Y) :
    List ℝ :=
  (List.range n).map fun k =>
    integ (momentQuadrature B (predRms B stable P n s) 0 1 false stable) (fun x => x ^ k * pdf y x)
      / likRms B stable P pdf n s y

theorem filterRms_eq (B : Backend) (stable : Bool) (P : ℝ → ℕ → ℝ) (pdf : Y → ℝ → ℝ) (rms0 : List ℝ) (ys : List Y) :
    filterRms B P pdf rms0 ys stable = (traj (nextRms B stable P pdf rms0.length) rms0 ys,
      - ((liks (nextRms B stable P pdf rms0.length) (likRms B stable P pdf rms0.length) rms0 ys).map Real.log).sum) := by
  have h := scan_eq_traj (f := rmsStep B stable P pdf rms0.length) (g := nextRms B stable P pdf rms0.length)
    (h := fun s y => Real.log (likRms B stable P pdf rms0.length s y)) (fun c y => rfl) rms0 0 ys
  rw [filterRms, h]
  simp only [zero_sub, Prod.mk.injEq, true_and, neg_inj]
  congr 1
  rw [liks_eq_zipWith, liks_eq_zipWith, List.map_zipWith]

/-- predicted mean and central moments. -/
noncomputable def predCms (B : Backend) (stable : Bool) (P : ℝ → ℕ → ℝ → ℝ) (cm : ℝ → ℝ) (n : ℕ) (s : List ℝ × ℝ) : List ℝ × ℝ :=
  let r := momentQuadrature B s.1 s.2 1 false stable
  ((List.range n).map fun k => integ r fun x => P x k (integ r cm), integ r cm)

noncomputable def likCms (B : Backend) (stable : Bool) (P : ℝ → ℕ → ℝ → ℝ) (cm : ℝ → ℝ) (pdf : Y → ℝ → ℝ) (n : ℕ)
    (s : List ℝ × ℝ) (y : Y) : ℝ :=
  let p := predCms B stable P cm n s
  integ (momentQuadrature B p.1 p.2 1 false stable) (pdf y)

noncomputable def nextCms (B : Backend) (stable : Bool) (P : ℝ → ℕ → ℝ → ℝ) (cm : ℝ → ℝ) (pdf : Y → ℝ → ℝ) (n : ℕ)
    (s : List ℝ × ℝ) (y : Y) : List ℝ × ℝ :=
  let p := predCms B stable P cm n s
  let r := momentQuadrature B p.1 p.2 1 false stable
  let Z := likCms B stable P cm pdf n s y
  let m := integ r (fun x => (x - 0) ^ 1 * pdf y x) / Z
  ((List.range n).map fun k => integ r (fun x => (x - m) ^ k * pdf y x) / Z, m)

theorem filterCms_eq (B : Backend) (stable : Bool) (P : ℝ → ℕ → ℝ → ℝ) (cm : ℝ → ℝ) (pdf : Y → ℝ → ℝ) (cms0 : List ℝ)
    (mean0 : ℝ) (ys : List Y) :
    filterCms B P cm pdf cms0 mean0 ys stable = (traj (nextCms B stable P cm pdf cms0.length) (cms0, mean0) ys,
      - ((liks (nextCms B stable P cm pdf cms0.length) (likCms B stable P cm pdf cms0.length) (cms0, mean0) ys).map
        Real.log).sum) := by
  have h := scan_eq_traj (f := cmsStep B stable P cm pdf cms0.length) (g := nextCms B stable P cm pdf cms0.length)
    (h := fun s y => Real.log (likCms B stable P cm pdf cms0.length s y)) (fun c y => rfl) (cms0, mean0) 0 ys
  rw [filterCms, h]
  simp only [zero_sub, Prod.mk.injEq, true_and, neg_inj]
  congr 1
  rw [liks_eq_zipWith, liks_eq_zipWith, List.map_zipWith]

/-- predicted scaled moments, mean and scale. -/
noncomputable def predScms (B : Backend) (stable : Bool) (P : ℝ → ℕ → ℝ → ℝ → ℝ) (cm cv : ℝ → ℝ) (n : ℕ)
    (s : List ℝ × ℝ × ℝ) : List ℝ × ℝ × ℝ :=
  let r := momentQuadrature B s.1 s.2.1 s.2.2 false stable
  ((List.range n).map fun k => integ r fun x => P x k (integ r cm) (Real.sqrt (integ r cv)), integ r cm,
    Real.sqrt (integ r cv))

noncomputable def likScms (B : Backend) (stable : Bool) (P : ℝ → ℕ → ℝ → ℝ → ℝ) (cm cv : ℝ → ℝ) (pdf : Y → ℝ → ℝ) (n : ℕ)
    (s : List ℝ × ℝ × ℝ) (y : Y) : ℝ :=
  let p := predScms B stable P cm cv n s
  integ (momentQuadrature B p.1 p.2.1 p.2.2 false stable) (pdf y)

noncomputable def nextScms (B : Backend) (stable : Bool) (P : ℝ → ℕ → ℝ → ℝ → ℝ) (cm cv : ℝ → ℝ) (pdf : Y → ℝ → ℝ) (n : ℕ)
    (s : List ℝ × ℝ × ℝ) (y : Y) : List ℝ × ℝ × ℝ :=
  let p := predScms B stable P cm cv n s
  let r := momentQuadrature B p.1 p.2.1 p.2.2 false stable
  let Z := likScms B stable P cm cv pdf n s y
  let m := integ r (fun x => ((x - 0) / 1) ^ 1 * pdf y x) / Z
  let sc := Real.sqrt (integ r (fun x => ((x - m) / 1) ^ 2 * pdf y x) / Z)
  ((List.range n).map fun k => integ r (fun x => ((x - m) / sc) ^ k * pdf y x) / Z, m, sc)

theorem filterScms_eq (B : Backend) (stable : Bool) (P : ℝ → ℕ → ℝ → ℝ → ℝ) (cm cv : ℝ → ℝ) (pdf : Y → ℝ → ℝ)
    (scms0 : List ℝ) (mean0 scale0 : ℝ) (ys : List Y) :
    filterScms B P cm cv pdf scms0 mean0 scale0 ys stable
      = (traj (nextScms B stable P cm cv pdf scms0.length) (scms0, mean0, scale0) ys,
      - ((liks (nextScms B stable P cm cv pdf scms0.length) (likScms B stable P cm cv pdf scms0.length)
          (scms0, mean0, scale0) ys).map Real.log).sum) := by
  have h := scan_eq_traj (f := scmsStep B stable P cm cv pdf scms0.length)
    (g := nextScms B stable P cm cv pdf scms0.length)
    (h := fun s y => Real.log (likScms B stable P cm cv pdf scms0.length s y)) (fun c y => rfl) (scms0, mean0, scale0) 0 ys
  rw [filterScms, h]
  simp only [zero_sub, Prod.mk.injEq, true_and, neg_inj]
  congr 1
  rw [liks_eq_zipWith, liks_eq_zipWith, List.map_zipWith]

end Filter1

end Mfs

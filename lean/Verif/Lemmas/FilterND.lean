import Verif.Model.FilterND
import Verif.Lemmas.Filter1
import Verif.Props.QuadND

/-!
# Lemmas for the multidimensional filters
-/

namespace Mfs.FilterND

open Mfs.QuadND Mfs.Spec

variable {Y : Type}

theorem wsum_eq (r : List (ℝ × List ℝ)) (f : List ℝ → ℝ) : wsum r f = integND r f := rfl

theorem prodPow_eq (x : List ℝ) (α : List ℕ) : prodPow x α = monomial x α := rfl

section

variable (B : Backend) (stable : Bool) (pdf : Y → List ℝ → ℝ) (d : ℕ) (mis : List (List ℕ)) (inds : List (List (List ℤ)))

noncomputable def predRms (P : CondMoments Unit) (s : List ℝ) : List ℝ :=
  wsumVec mis.length (momentQuadratureND B s inds none none false stable) (P.row mis ())

/-- the rule used in the update, and the predictive likelihood. -/
noncomputable def ruleRms (P : CondMoments Unit) (s : List ℝ) : List (ℝ × List ℝ) :=
  momentQuadratureND B (predRms B stable mis inds P s) inds none none false stable

noncomputable def likRms (P : CondMoments Unit) (s : List ℝ) (y : Y) : ℝ :=
  integND (ruleRms B stable mis inds P s) (pdf y)

noncomputable def nextRms (P : CondMoments Unit) (s : List ℝ) (y : Y) : List ℝ :=
  mis.map fun α => integND (ruleRms B stable mis inds P s) (fun x => monomial x α * pdf y x)
    / likRms B stable pdf mis inds P s y

noncomputable def predCms (P : CondMoments (List ℝ)) (cm : List ℝ → List ℝ) (s : List ℝ × List ℝ) : List ℝ × List ℝ :=
  let r := momentQuadratureND B s.1 inds (some s.2) none false stable
  let mean := wsumVec d r cm
  (wsumVec mis.length r (P.row mis mean), mean)

noncomputable def ruleCms (P : CondMoments (List ℝ)) (cm : List ℝ → List ℝ) (s : List ℝ × List ℝ) : List (ℝ × List ℝ) :=
  let p := predCms B stable d mis inds P cm s
  momentQuadratureND B p.1 inds (some p.2) none false stable

noncomputable def likCms (P : CondMoments (List ℝ)) (cm : List ℝ → List ℝ) (s : List ℝ × List ℝ) (y : Y) : ℝ :=
  integND (ruleCms B stable d mis inds P cm s) (pdf y)

noncomputable def nextCms (P : CondMoments (List ℝ)) (cm : List ℝ → List ℝ) (s : List ℝ × List ℝ) (y : Y) :
    List ℝ × List ℝ :=
  let r := ruleCms B stable d mis inds P cm s
  let Z := likCms B stable pdf d mis inds P cm s y
  let mean := (eyeRows d).map fun α => integND r (fun x => monomial (x.map (· - 0)) α * pdf y x) / Z
  (mis.map fun α => integND r (fun x => monomial (List.zipWith (· - ·) x mean) α * pdf y x) / Z, mean)

noncomputable def predScms (P : CondMoments (List ℝ × List ℝ)) (cmv : List ℝ → List ℝ × List ℝ)
    (s : List ℝ × List ℝ × List ℝ) : List ℝ × List ℝ × List ℝ :=
  let r := momentQuadratureND B s.1 inds (some s.2.1) (some s.2.2) false stable
  let mean := wsumVec d r fun x => (cmv x).1
  let scale := (wsumVec d r fun x => (cmv x).2).map Real.sqrt
  (wsumVec mis.length r (P.row mis (mean, scale)), mean, scale)

noncomputable def ruleScms (P : CondMoments (List ℝ × List ℝ)) (cmv : List ℝ → List ℝ × List ℝ)
    (s : List ℝ × List ℝ × List ℝ) : List (ℝ × List ℝ) :=
  let p := predScms B stable d mis inds P cmv s
  momentQuadratureND B p.1 inds (some p.2.1) (some p.2.2) false stable

noncomputable def likScms (P : CondMoments (List ℝ × List ℝ)) (cmv : List ℝ → List ℝ × List ℝ)
    (s : List ℝ × List ℝ × List ℝ) (y : Y) : ℝ :=
  integND (ruleScms B stable d mis inds P cmv s) (pdf y)

noncomputable def nextScms (P : CondMoments (List ℝ × List ℝ)) (cmv : List ℝ → List ℝ × List ℝ)
    (s : List ℝ × List ℝ × List ℝ) (y : Y) : List ℝ × List ℝ × List ℝ :=
  let r := ruleScms B stable d mis inds P cmv s
  let Z := likScms B stable pdf d mis inds P cmv s y
  let mean := (eyeRows d).map fun α => integND r (fun x => monomial (x.map fun t => (t - 0) / 1) α * pdf y x) / Z
  let scale := (eyeRows d).map fun α => Real.sqrt
    (integND r (fun x => monomial (List.zipWith (fun t m => (t - m) / 1) x mean) (α.map (· * 2)) * pdf y x) / Z)
  (mis.map fun α =>
    integND r (fun x => monomial (List.zipWith (· / ·) (List.zipWith (· - ·) x mean) scale) α * pdf y x) / Z, mean, scale)

end

theorem scan_log {S : Type} {f : S × ℝ → Y → (S × ℝ) × S} {g : S → Y → S} {lik : S → Y → ℝ}
    (hf : ∀ c y, f c y = ((g c.1 y, c.2 - Real.log (lik c.1 y)), g c.1 y)) (s : S) (ys : List Y) :
    ((scan f (s, 0) ys).2, (scan f (s, 0) ys).1.2) = (traj g s ys, - ((liks g lik s ys).map Real.log).sum) := by
  rw [scan_eq_traj (g := g) (h := fun s y => Real.log (lik s y)) hf s 0 ys]
  simp only [zero_sub, Prod.mk.injEq, true_and, neg_inj]
  congr 1
  rw [liks_eq_zipWith, liks_eq_zipWith, List.map_zipWith]

theorem filterRms_eq (B : Backend) (stable : Bool) (P : CondMoments Unit) (pdf : Y → List ℝ → ℝ) (ys : List Y)
    (order : List (List ℕ) × List (List (List ℤ))) (rms0 : List ℝ) :
    filterRms B P pdf ys order rms0 stable = if order.1.length ≠ rms0.length then .error "ValueError" else
      .ok (traj (nextRms B stable pdf order.1 order.2 P) rms0 ys,
        - ((liks (nextRms B stable pdf order.1 order.2 P) (likRms B stable pdf order.1 order.2 P) rms0 ys).map
            Real.log).sum) := by
  rw [filterRms]
  have := scan_log (f := rmsStep B stable P pdf order.1 order.2) (g := nextRms B stable pdf order.1 order.2 P)
    (lik := likRms B stable pdf order.1 order.2 P) (fun c y => rfl) rms0 ys
  dsimp only
  rw [this]

theorem filterCms_eq (B : Backend) (stable : Bool) (P : CondMoments (List ℝ)) (cm : List ℝ → List ℝ) (pdf : Y → List ℝ → ℝ)
    (ys : List Y) (order : List (List ℕ) × List (List (List ℤ))) (cms0 mean0 : List ℝ) :
    filterCms B P cm pdf ys order cms0 mean0 stable = if order.1.length ≠ cms0.length then .error "ValueError" else
      .ok (traj (nextCms B stable pdf (order.1.headD []).length order.1 order.2 P cm) (cms0, mean0) ys,
        - ((liks (nextCms B stable pdf (order.1.headD []).length order.1 order.2 P cm)
            (likCms B stable pdf (order.1.headD []).length order.1 order.2 P cm) (cms0, mean0) ys).map Real.log).sum) := by
  rw [filterCms]
  have := scan_log (f := cmsStep B stable P cm pdf (order.1.headD []).length order.1 order.2)
    (g := nextCms B stable pdf (order.1.headD []).length order.1 order.2 P cm)
    (lik := likCms B stable pdf (order.1.headD []).length order.1 order.2 P cm) (fun c y => rfl) (cms0, mean0) ys
  dsimp only
  rw [this]

theorem filterScms_eq (B : Backend) (stable : Bool) (P : CondMoments (List ℝ × List ℝ)) (cmv : List ℝ → List ℝ × List ℝ)
    (pdf : Y → List ℝ → ℝ) (ys : List Y) (order : List (List ℕ) × List (List (List ℤ))) (scms0 mean0 scale0 : List ℝ) :
    filterScms B P cmv pdf ys order scms0 mean0 scale0 stable = if order.1.length ≠ scms0.length then .error "ValueError" else
      .ok (traj (nextScms B stable pdf (order.1.headD []).length order.1 order.2 P cmv) (scms0, mean0, scale0) ys,
        - ((liks (nextScms B stable pdf (order.1.headD []).length order.1 order.2 P cmv)
            (likScms B stable pdf (order.1.headD []).length order.1 order.2 P cmv) (scms0, mean0, scale0) ys).map
              Real.log).sum) := by
  rw [filterScms]
  have := scan_log (f := scmsStep B stable P cmv pdf (order.1.headD []).length order.1 order.2)
    (g := nextScms B stable pdf (order.1.headD []).length order.1 order.2 P cmv)
    (lik := likScms B stable pdf (order.1.headD []).length order.1 order.2 P cmv) (fun c y => rfl) (scms0, mean0, scale0) ys
  dsimp only
  rw [this]

end Mfs.FilterND

import Verif.Props.Units
import Verif.Props.FilterNDEquiv
import Verif.Props.MarginalsND

/-!
# C141: the multidimensional filters do not depend on the units and the origin of the state
-/

namespace Mfs.Props

open Matrix Mfs.Spec Mfs.QuadND Mfs.MultiIndex Mfs.FilterND

variable {Y : Type} {d : ℕ}

/-- the change of units `x ↦ a + b x`, coordinate by coordinate. -/
noncomputable def affList (a b x : List ℝ) : List ℝ := List.zipWith (· + ·) a (List.zipWith (· * ·) b x)

theorem getD_affList {a b x : List ℝ} (ha : a.length = d) (hb : b.length = d) (hx : x.length = d) {j : ℕ} (hj : j < d) :
    (affList a b x).getD j 0 = a.getD j 0 + b.getD j 0 * x.getD j 0 := by
  simp [affList, List.getD_eq_getElem?_getD, ha, hb, hx, hj]

theorem length_affList {a b x : List ℝ} (ha : a.length = d) (hb : b.length = d) (hx : x.length = d) :
    (affList a b x).length = d := by simp [affList, ha, hb, hx]

theorem integND_map_node (r : List (ℝ × List ℝ)) (φ : List ℝ → List ℝ) (F : List ℝ → ℝ) :
    integND (r.map fun p => (p.1, φ p.2)) F = integND r fun x => F (φ x) := by
  rw [integND, integND, List.map_map]
  rfl

theorem rule_affList (B : Backend) (ms : List ℝ) (inds : List (List (List ℤ))) (a b m s : List ℝ) (sort ldl : Bool) :
    momentQuadratureND B ms inds (some (affList a b m)) (some (List.zipWith (· * ·) b s)) sort ldl
      = (momentQuadratureND B ms inds (some m) (some s) sort ldl).map fun p => (p.1, affList a b p.2) := by
  rw [momentQuadratureND, momentQuadratureND, quadCore_affine, quadCore_affine B _ _ (some m), List.map_map]
  refine List.map_congr_left fun p _ => ?_
  simp only [Function.comp_apply, affineNode, Prod.mk.injEq, true_and]
  apply List.ext_getElem
  · simp only [affList, List.length_zipWith]
    omega
  · intro i h1 h2
    simp only [affList, List.getElem_zipWith]
    ring

theorem ext_getD {x y : List ℝ} (hx : x.length = d) (hy : y.length = d) (h : ∀ j < d, x.getD j 0 = y.getD j 0) : x = y := by
  apply List.ext_getElem (hx.trans hy.symm)
  intro i h1 h2
  have := h i (by omega)
  simpa [List.getD_eq_getElem?_getD, h1, h2] using this

theorem integND_const_add (r : List (ℝ × List ℝ)) (a b : ℝ) (f g : List ℝ → ℝ) :
    integND r (fun x => (a + b * f x) * g x) = a * integND r g + b * integND r (fun x => f x * g x) := by
  induction r with
  | nil => simp [integND]
  | cons p r ih =>
    simp only [integND, List.map_cons, List.sum_cons] at ih ⊢
    rw [ih]
    ring

/-- **C141.** Measure every coordinate of the state in other units, `x'ⱼ = aⱼ + bⱼ xⱼ` with `bⱼ > 0`: the multidimensional filter of scaled
central moments returns the same scaled moments, the transformed means and scales, and the same negative log-likelihood, as long as
the predictive likelihoods are not zero. No validity of the moments is needed. -/
theorem C141_nd_scaled_units (B : Backend) (hB : B.Valid) (stable : Bool) (a b : List ℝ) (ha : a.length = d) (hb : b.length = d)
    (hbpos : ∀ j < d, 0 < b.getD j 0) (mis : List (List ℕ)) (inds : List (List (List ℤ))) (hmis : (mis.headD []).length = d)
    (hd : inds.length = d + 1) (hd1 : 1 ≤ d) (hz : 0 < (inds.getD 0 []).length)
    (P P' : CondMoments (List ℝ × List ℝ)) (cmv cmv' : List ℝ → List ℝ × List ℝ) (pdf pdf' : Y → List ℝ → ℝ)
    (hlen : ∀ x, x.length = d → (cmv x).1.length = d ∧ (cmv x).2.length = d)
    (hcm : ∀ x, x.length = d → (cmv' (affList a b x)).1 = affList a b (cmv x).1)
    (hcv : ∀ x, x.length = d → (cmv' (affList a b x)).2 = List.zipWith (fun t v => t ^ 2 * v) b (cmv x).2)
    (hP : ∀ x m s, x.length = d → m.length = d → s.length = d →
      P'.row mis (affList a b m, List.zipWith (· * ·) b s) (affList a b x) = P.row mis (m, s) x)
    (hpdf : ∀ y x, x.length = d → pdf' y (affList a b x) = pdf y x)
    (scms0 m0 s0 : List ℝ) (hm0 : m0.length = d) (hs0 : s0.length = d) (hl : mis.length = scms0.length) (ys : List Y)
    (hlik : ∀ l ∈ liks (FilterND.nextScms B stable pdf d mis inds P cmv) (FilterND.likScms B stable pdf d mis inds P cmv)
      (scms0, m0, s0) ys, l ≠ 0) :
    ∃ recs nell, FilterND.filterScms B P cmv pdf ys (mis, inds) scms0 m0 s0 stable = .ok (recs, nell) ∧
      FilterND.filterScms B P' cmv' pdf' ys (mis, inds) scms0 (affList a b m0) (List.zipWith (· * ·) b s0) stable
        = .ok (recs.map fun o => (o.1, affList a b o.2.1, List.zipWith (· * ·) b o.2.2), nell) := by
  rw [FilterND.filterScms_eq, FilterND.filterScms_eq]
  simp only [hl, ne_eq, not_true_eq_false, if_false, hmis]
  refine ⟨_, _, rfl, ?_⟩
  set Φ : List ℝ × List ℝ × List ℝ → List ℝ × List ℝ × List ℝ :=
    fun o => (o.1, affList a b o.2.1, List.zipWith (· * ·) b o.2.2) with hΦ
  have hmulD : ∀ (s : List ℝ) (j : ℕ), s.length = d → j < d → (List.zipWith (· * ·) b s).getD j 0 = b.getD j 0 * s.getD j 0 := by
    intro s j hs hj
    simp [List.getD_eq_getElem?_getD, hs, hb, hj]
  have hmulL : ∀ (s : List ℝ), s.length = d → (List.zipWith (· * ·) b s).length = d := by
    intro s hs
    simp [hs, hb]
  have hsum : ∀ (ms : List ℝ) m s, ((momentQuadratureND B ms inds m s false stable).map (·.1)).sum = 1 := fun ms m s =>
    C22_nd_weights_sum_one B hB ms inds (by omega) hz m s false stable
  have hone : ∀ (ms : List ℝ) m s, integND (momentQuadratureND B ms inds m s false stable) (fun _ => 1) = 1 := fun ms m s => by
    have := hsum ms m s
    simpa [integND] using this
  have hrule : ∀ (ms m s : List ℝ) (F : List ℝ → ℝ),
      integND (momentQuadratureND B ms inds (some (affList a b m)) (some (List.zipWith (· * ·) b s)) false stable) F
        = integND (momentQuadratureND B ms inds (some m) (some s) false stable) fun x => F (affList a b x) := by
    intro ms m s F
    rw [rule_affList, integND_map_node]
  have hnode : ∀ (ms m s : List ℝ), m.length = d → s.length = d →
      ∀ p ∈ momentQuadratureND B ms inds (some m) (some s) false stable, p.2.length = d := by
    intro ms m s hm hs
    refine momentQuadratureND_node_length B ms inds d hd _ _ ?_ ?_ _ _
    · rintro _ ⟨⟩; exact hm
    · rintro _ ⟨⟩; exact hs
  have hwl : ∀ (r : List (ℝ × List ℝ)) (f : List ℝ → List ℝ), (wsumVec d r f).length = d := fun r f => by simp [wsumVec]
  have hwg : ∀ (r : List (ℝ × List ℝ)) (f : List ℝ → List ℝ) (j : ℕ), j < d → (wsumVec d r f).getD j 0
      = integND r fun x => (f x).getD j 0 := fun r f j hj => by rw [wsumVec, getD_map_range' _ hj, FilterND.wsum_eq]
  -- prediction
  have hpred : ∀ s : List ℝ × List ℝ × List ℝ, s.2.1.length = d → s.2.2.length = d →
      FilterND.predScms B stable d mis inds P' cmv' (Φ s) = Φ (FilterND.predScms B stable d mis inds P cmv s) := by
    rintro ⟨l, m, s⟩ hm hs
    simp only at hm hs
    have hn := hnode l m s hm hs
    have hmean : wsumVec d (momentQuadratureND B l inds (some (affList a b m)) (some (List.zipWith (· * ·) b s)) false stable)
        (fun x => (cmv' x).1) = affList a b (wsumVec d (momentQuadratureND B l inds (some m) (some s) false stable) fun x => (cmv x).1) := by
      refine ext_getD (hwl _ _) (length_affList ha hb (hwl _ _)) fun j hj => ?_
      rw [hwg _ _ j hj, getD_affList ha hb (hwl _ _) hj, hwg _ _ j hj, hrule]
      have h1 := integND_const_add (momentQuadratureND B l inds (some m) (some s) false stable) (a.getD j 0) (b.getD j 0)
        (fun x => (cmv x).1.getD j 0) (fun _ => 1)
      simp only [mul_one] at h1
      rw [hone, mul_one] at h1
      rw [← h1]
      refine integND_congr fun p hp => ?_
      rw [hcm _ (hn p hp), getD_affList ha hb (hlen _ (hn p hp)).1 hj]
    have hscale : (wsumVec d (momentQuadratureND B l inds (some (affList a b m)) (some (List.zipWith (· * ·) b s)) false stable)
        (fun x => (cmv' x).2)).map Real.sqrt = List.zipWith (· * ·) b
          ((wsumVec d (momentQuadratureND B l inds (some m) (some s) false stable) fun x => (cmv x).2).map Real.sqrt) := by
      have hg : ∀ (l : List ℝ) j, l.length = d → j < d → (l.map Real.sqrt).getD j 0 = Real.sqrt (l.getD j 0) := by
        intro l j hl hj
        simp [List.getD_eq_getElem?_getD, hl, hj]
      refine ext_getD (by simp [hwl]) (hmulL _ (by simp [hwl])) fun j hj => ?_
      rw [hg _ j (hwl _ _) hj, hmulD _ j (by simp [hwl]) hj, hg _ j (hwl _ _) hj, hwg _ _ j hj, hwg _ _ j hj, hrule]
      have h1 : integND (momentQuadratureND B l inds (some m) (some s) false stable) (fun x => (cmv' (affList a b x)).2.getD j 0)
          = b.getD j 0 ^ 2 * integND (momentQuadratureND B l inds (some m) (some s) false stable) (fun x => (cmv x).2.getD j 0) := by
        rw [← integND_mul_left]
        refine integND_congr fun p hp => ?_
        rw [hcv _ (hn p hp)]
        have := (hlen _ (hn p hp)).2
        simp [List.getD_eq_getElem?_getD, this, hb, hj]
      rw [h1, Real.sqrt_mul (sq_nonneg _), Real.sqrt_sq (hbpos j hj).le]
    simp only [FilterND.predScms, hΦ, hmean, hscale]
    congr 1
    simp only [wsumVec, FilterND.wsum_eq, hrule]
    refine List.map_congr_left fun k _ => integND_congr fun p hp => ?_
    rw [hP _ _ _ (hn p hp) (by simp) (by simp)]
  have hplen : ∀ s, (FilterND.predScms B stable d mis inds P cmv s).2.1.length = d ∧
      (FilterND.predScms B stable d mis inds P cmv s).2.2.length = d := fun s => by simp [FilterND.predScms, wsumVec]
  have hrule' : ∀ s : List ℝ × List ℝ × List ℝ, s.2.1.length = d → s.2.2.length = d → ∀ F,
      integND (FilterND.ruleScms B stable d mis inds P' cmv' (Φ s)) F
        = integND (FilterND.ruleScms B stable d mis inds P cmv s) fun x => F (affList a b x) := by
    intro s hm hs F
    rw [FilterND.ruleScms, FilterND.ruleScms, hpred s hm hs]
    exact hrule _ _ _ F
  have hnode' : ∀ s : List ℝ × List ℝ × List ℝ, ∀ p ∈ FilterND.ruleScms B stable d mis inds P cmv s, p.2.length = d := fun s =>
    hnode _ _ _ (hplen s).1 (hplen s).2
  have hl' : ∀ (s : List ℝ × List ℝ × List ℝ) y, s.2.1.length = d → s.2.2.length = d →
      FilterND.likScms B stable pdf' d mis inds P' cmv' (Φ s) y = FilterND.likScms B stable pdf d mis inds P cmv s y := by
    intro s y hm hs
    rw [FilterND.likScms, FilterND.likScms, hrule' s hm hs]
    exact integND_congr fun p hp => hpdf y _ (hnode' s p hp)
  have hnlen : ∀ s y, (FilterND.nextScms B stable pdf d mis inds P cmv s y).2.1.length = d ∧
      (FilterND.nextScms B stable pdf d mis inds P cmv s y).2.2.length = d := fun s y => by
    simp [FilterND.nextScms, eyeRows]
  have hnext : ∀ (s : List ℝ × List ℝ × List ℝ) y, s.2.1.length = d → s.2.2.length = d →
      FilterND.likScms B stable pdf d mis inds P cmv s y ≠ 0 →
      FilterND.nextScms B stable pdf' d mis inds P' cmv' (Φ s) y = Φ (FilterND.nextScms B stable pdf d mis inds P cmv s y) := by
    intro s y hm hs hZ
    have hr := hrule' s hm hs
    have hn := hnode' s
    simp only [FilterND.nextScms, hr, hl' s y hm hs]
    simp only [hΦ]
    have hZd : FilterND.likScms B stable pdf d mis inds P cmv s y = integND (FilterND.ruleScms B stable d mis inds P cmv s) (pdf y) := rfl
    generalize FilterND.ruleScms B stable d mis inds P cmv s = r at *
    generalize FilterND.likScms B stable pdf d mis inds P cmv s y = Z at *
    have hgetE : ∀ (f : List ℕ → ℝ) j, j < d → ((eyeRows d).map f).getD j 0 = f (axisIndex d j 1) := by
      intro f j hj
      rw [eyeRows_eq, List.map_map]
      exact getD_map_range' _ hj
    have hmean : ((eyeRows d).map fun α => integND r (fun x => monomial ((affList a b x).map fun t => (t - 0) / 1) α
          * pdf' y (affList a b x)) / Z)
        = affList a b ((eyeRows d).map fun α => integND r (fun x => monomial (x.map fun t => (t - 0) / 1) α * pdf y x) / Z) := by
      refine ext_getD (by simp [eyeRows]) (length_affList ha hb (by simp [eyeRows])) fun j hj => ?_
      rw [hgetE _ j hj, getD_affList ha hb (by simp [eyeRows]) hj, hgetE _ j hj]
      have h1 : integND r (fun x => monomial ((affList a b x).map fun t => (t - 0) / 1) (axisIndex d j 1) * pdf' y (affList a b x))
          = integND r (fun x => (a.getD j 0 + b.getD j 0 * x.getD j 0) * pdf y x) := by
        refine integND_congr fun p hp => ?_
        rw [monomial_axis _ (by simp [length_affList ha hb (hn p hp)]) j 1 hj, pow_one, hpdf y _ (hn p hp)]
        congr 1
        rw [← getD_affList ha hb (hn p hp) hj]
        simp
      have h2 : integND r (fun x => monomial (x.map fun t => (t - 0) / 1) (axisIndex d j 1) * pdf y x)
          = integND r (fun x => x.getD j 0 * pdf y x) := by
        refine integND_congr fun p hp => ?_
        rw [monomial_axis _ (by simp [hn p hp]) j 1 hj, pow_one]
        simp
      rw [h1, h2, integND_const_add, ← hZd]
      field_simp
    have hml : ((eyeRows d).map fun α => integND r (fun x => monomial (x.map fun t => (t - 0) / 1) α * pdf y x) / Z).length = d := by
      simp [eyeRows]
    rw [hmean]
    generalize ((eyeRows d).map fun α => integND r (fun x => monomial (x.map fun t => (t - 0) / 1) α * pdf y x) / Z) = m at hml ⊢
    have hscale : ((eyeRows d).map fun α => Real.sqrt (integND r (fun x =>
          monomial (List.zipWith (fun t m => (t - m) / 1) (affList a b x) (affList a b m)) (α.map (· * 2)) * pdf' y (affList a b x)) / Z))
        = List.zipWith (· * ·) b ((eyeRows d).map fun α => Real.sqrt (integND r (fun x =>
          monomial (List.zipWith (fun t m => (t - m) / 1) x m) (α.map (· * 2)) * pdf y x) / Z)) := by
      refine ext_getD (by simp [eyeRows]) (hmulL _ (by simp [eyeRows])) fun j hj => ?_
      rw [hgetE _ j hj, hmulD _ j (by simp [eyeRows]) hj, hgetE _ j hj]
      have h1 : integND r (fun x => monomial (List.zipWith (fun t m => (t - m) / 1) (affList a b x) (affList a b m))
            ((axisIndex d j 1).map (· * 2)) * pdf' y (affList a b x))
          = b.getD j 0 ^ 2 * integND r (fun x => monomial (List.zipWith (fun t m => (t - m) / 1) x m) ((axisIndex d j 1).map (· * 2)) * pdf y x) := by
        rw [← integND_mul_left]
        refine integND_congr fun p hp => ?_
        have hx := hn p hp
        rw [hpdf y _ hx, axisIndex_double, one_mul,
          monomial_axis _ (by simp [length_affList ha hb hx, length_affList ha hb hml]) j 2 hj,
          monomial_axis _ (by simp [hx, hml]) j 2 hj]
        have e1 : (List.zipWith (fun t m => (t - m) / 1) (affList a b p.2) (affList a b m)).getD j 0
            = (affList a b p.2).getD j 0 - (affList a b m).getD j 0 := by
          simp [List.getD_eq_getElem?_getD, length_affList ha hb hx, length_affList ha hb hml, hj]
        have e2 : (List.zipWith (fun t m => (t - m) / 1) p.2 m).getD j 0 = p.2.getD j 0 - m.getD j 0 := by
          simp [List.getD_eq_getElem?_getD, hx, hml, hj]
        rw [e1, e2, getD_affList ha hb hx hj, getD_affList ha hb hml hj]
        ring
      rw [h1, mul_div_assoc, Real.sqrt_mul (sq_nonneg _), Real.sqrt_sq (hbpos j hj).le]
    have hsl : ((eyeRows d).map fun α => Real.sqrt (integND r (fun x =>
          monomial (List.zipWith (fun t m => (t - m) / 1) x m) (α.map (· * 2)) * pdf y x) / Z)).length = d := by simp [eyeRows]
    rw [hscale]
    generalize ((eyeRows d).map fun α => Real.sqrt (integND r (fun x =>
          monomial (List.zipWith (fun t m => (t - m) / 1) x m) (α.map (· * 2)) * pdf y x) / Z)) = sc at hsl ⊢
    congr 1
    refine List.map_congr_left fun α _ => ?_
    congr 1
    refine integND_congr fun p hp => ?_
    have hx := hn p hp
    rw [hpdf y _ hx]
    congr 2
    refine ext_getD (d := d) (by simp [length_affList ha hb hx, length_affList ha hb hml, hb, hsl]) (by simp [hx, hml, hsl]) fun j hj => ?_
    have e1 : ∀ (x m s : List ℝ), x.length = d → m.length = d → s.length = d →
        (List.zipWith (· / ·) (List.zipWith (· - ·) x m) s).getD j 0 = (x.getD j 0 - m.getD j 0) / s.getD j 0 := by
      intro x m s h1 h2 h3
      simp [List.getD_eq_getElem?_getD, h1, h2, h3, hj]
    rw [e1 _ _ _ (length_affList ha hb hx) (length_affList ha hb hml) (hmulL _ hsl), e1 _ _ _ hx hml hsl, getD_affList ha hb hx hj,
      getD_affList ha hb hml hj, hmulD _ j hsl hj]
    have := (hbpos j hj).ne'
    rw [show a.getD j 0 + b.getD j 0 * p.2.getD j 0 - (a.getD j 0 + b.getD j 0 * m.getD j 0)
      = b.getD j 0 * (p.2.getD j 0 - m.getD j 0) by ring, mul_div_mul_left _ _ this]
  have key := traj_liks_map (g := FilterND.nextScms B stable pdf d mis inds P cmv) (g' := FilterND.nextScms B stable pdf' d mis inds P' cmv')
    (lik := FilterND.likScms B stable pdf d mis inds P cmv) (lik' := FilterND.likScms B stable pdf' d mis inds P' cmv') Φ
    (fun s ys => s.2.1.length = d ∧ s.2.2.length = d ∧ ∀ l ∈ liks (FilterND.nextScms B stable pdf d mis inds P cmv)
      (FilterND.likScms B stable pdf d mis inds P cmv) s ys, l ≠ 0)
    (fun s y ys h => ⟨(hnlen s y).1, (hnlen s y).2, fun l hl => h.2.2 l (by rw [liks]; exact List.mem_cons_of_mem _ hl)⟩)
    (fun s y ys h => hnext s y h.1 h.2.1 (h.2.2 _ (by rw [liks]; exact List.mem_cons_self)))
    (fun s y ys h => hl' s y h.1 h.2.1) (scms0, m0, s0) ys ⟨hm0, hs0, hlik⟩
  have e : (scms0, affList a b m0, List.zipWith (· * ·) b s0) = Φ (scms0, m0, s0) := rfl
  rw [e, key.1, key.2]

/-- degrees Celsius to Fahrenheit in the first coordinate and kilometres to metres in the second, which is measured in noise: all
hypotheses hold, in every order. -/
example (B : Backend) (hB : B.Valid) (N : ℕ) (basis full : List (List ℕ)) (mats : List (List (List ℤ))) (T : Tables N 2 basis full mats)
    (scms0 : List ℝ) (hl : full.length = scms0.length) (ys : List ℝ) :
    let a : List ℝ := [32, 0]
    let b : List ℝ := [9 / 5, 1000]
    let f : List ℝ → List ℕ → List ℝ × List ℝ → ℝ := fun x α p =>
      monomial (List.zipWith (· / ·) (List.zipWith (· - ·) x p.1) p.2) α
    ∃ recs nell, FilterND.filterScms B (.multiIndex f) (fun x => (x, [1, 1])) (fun y x => Real.exp (-(y - x.getD 1 0) ^ 2)) ys
        (full, mats) scms0 [0, 0] [1, 2] true = .ok (recs, nell) ∧
      FilterND.filterScms B (.multiIndex f) (fun x => (x, [81 / 25, 1000000])) (fun y x => Real.exp (-(y - x.getD 1 0 / 1000) ^ 2)) ys
        (full, mats) scms0 [32, 0] [9 / 5, 2000] true
        = .ok (recs.map fun o => (o.1, affList a b o.2.1, List.zipWith (· * ·) b o.2.2), nell) := by
  have hm : affList [32, 0] [9 / 5, 1000] [0, 0] = [32, 0] := by norm_num [affList]
  have hs : List.zipWith (· * ·) [9 / 5, 1000] [1, 2] = ([9 / 5, 2000] : List ℝ) := by norm_num
  intro a b f
  rw [← hm, ← hs]
  have hx2 : ∀ x : List ℝ, x.length = 2 → ∃ u v, x = [u, v] := fun x hx => List.length_eq_two.1 hx
  refine C141_nd_scaled_units (d := 2) B hB true a b rfl rfl ?_ full mats T.head_len T.mats_len T.hd
    (C22_applies N 2 (by have := T.hN; omega) T.hd mats T.mats_eq).2 _ _ _ _ _ _ ?_ ?_ ?_ ?_ ?_ scms0 [0, 0] [1, 2] rfl rfl hl ys ?_
  · intro j hj
    interval_cases j <;> norm_num [b]
  · intro x hx
    exact ⟨hx, rfl⟩
  · intro x hx
    rfl
  · intro x hx
    norm_num [b]
  · intro x m s h1 h2 h3
    obtain ⟨x0, x1, rfl⟩ := hx2 x h1
    obtain ⟨m0, m1, rfl⟩ := hx2 m h2
    obtain ⟨s0, s1, rfl⟩ := hx2 s h3
    have h : ∀ c t u v w : ℝ, c ≠ 0 → (t + c * u - (t + c * v)) / (c * w) = (u - v) / w := fun c t u v w hc => by
      rw [show t + c * u - (t + c * v) = c * (u - v) by ring, mul_div_mul_left _ _ hc]
    simp only [CondMoments.row, f, affList, a, b, List.zipWith_cons_cons, List.zipWith_nil_right]
    rw [h _ _ _ _ _ (by norm_num), h _ _ _ _ _ (by norm_num)]
  · intro y x hx
    obtain ⟨x0, x1, rfl⟩ := hx2 x hx
    norm_num [affList, a, b]
  · intro l hl'
    have := (C139_nd_likelihood_pos (d := 2) B hB true (fun (y : ℝ) x => Real.exp (-(y - x.getD 1 0) ^ 2)) 1
      (fun y t => Real.exp (-(y - t) ^ 2)) (fun _ _ => Real.exp_pos _) (fun _ _ => rfl) full mats T.head_len T.mats_len
      (C22_applies N 2 (by have := T.hN; omega) T.hd mats T.mats_eq).2 (by norm_num) scms0 [0, 0] [1, 2] (.multiIndex fun _ _ _ => 0)
      (.multiIndex fun _ _ _ => 0) (.multiIndex f) id (fun x => (x, [1, 1])) ys).2.2 l
    rw [T.head_len] at this
    exact (this hl').ne'

/-! ### central moments and the origin -/

theorem rule_shiftList (B : Backend) (ms : List ℝ) (inds : List (List (List ℤ))) (a m : List ℝ) (sort ldl : Bool) :
    momentQuadratureND B ms inds (some (List.zipWith (· + ·) a m)) none sort ldl
      = (momentQuadratureND B ms inds (some m) none sort ldl).map fun p => (p.1, List.zipWith (· + ·) a p.2) := by
  rw [momentQuadratureND, momentQuadratureND, quadCore_affine, quadCore_affine B _ _ (some m), List.map_map]
  refine List.map_congr_left fun p _ => ?_
  simp only [Function.comp_apply, affineNode, Prod.mk.injEq, true_and]
  apply List.ext_getElem
  · simp only [List.length_zipWith]
    omega
  · intro i h1 h2
    simp only [List.getElem_zipWith]
    ring

/-- **C141, central moments.** Move the origin of the state, `x' = a + x`: the multidimensional filter of central moments returns the
same central moments, the moved means, and the same negative log-likelihood. -/
theorem C141_nd_central_origin (B : Backend) (hB : B.Valid) (stable : Bool) (a : List ℝ) (ha : a.length = d)
    (mis : List (List ℕ)) (inds : List (List (List ℤ))) (hmis : (mis.headD []).length = d)
    (hd : inds.length = d + 1) (hd1 : 1 ≤ d) (hz : 0 < (inds.getD 0 []).length)
    (P P' : CondMoments (List ℝ)) (cm cm' : List ℝ → List ℝ) (pdf pdf' : Y → List ℝ → ℝ)
    (hlen : ∀ x, x.length = d → (cm x).length = d)
    (hcm : ∀ x, x.length = d → cm' (List.zipWith (· + ·) a x) = List.zipWith (· + ·) a (cm x))
    (hP : ∀ x m, x.length = d → m.length = d →
      P'.row mis (List.zipWith (· + ·) a m) (List.zipWith (· + ·) a x) = P.row mis m x)
    (hpdf : ∀ y x, x.length = d → pdf' y (List.zipWith (· + ·) a x) = pdf y x)
    (cms0 m0 : List ℝ) (hm0 : m0.length = d) (hl : mis.length = cms0.length) (ys : List Y)
    (hlik : ∀ l ∈ liks (FilterND.nextCms B stable pdf d mis inds P cm) (FilterND.likCms B stable pdf d mis inds P cm)
      (cms0, m0) ys, l ≠ 0) :
    ∃ recs nell, FilterND.filterCms B P cm pdf ys (mis, inds) cms0 m0 stable = .ok (recs, nell) ∧
      FilterND.filterCms B P' cm' pdf' ys (mis, inds) cms0 (List.zipWith (· + ·) a m0) stable
        = .ok (recs.map fun o => (o.1, List.zipWith (· + ·) a o.2), nell) := by
  rw [FilterND.filterCms_eq, FilterND.filterCms_eq]
  simp only [hl, ne_eq, not_true_eq_false, if_false, hmis]
  refine ⟨_, _, rfl, ?_⟩
  set Φ : List ℝ × List ℝ → List ℝ × List ℝ := fun o => (o.1, List.zipWith (· + ·) a o.2) with hΦ
  have haddD : ∀ (s : List ℝ) (j : ℕ), s.length = d → j < d → (List.zipWith (· + ·) a s).getD j 0 = a.getD j 0 + s.getD j 0 := by
    intro s j hs hj
    simp [List.getD_eq_getElem?_getD, hs, ha, hj]
  have haddL : ∀ (s : List ℝ), s.length = d → (List.zipWith (· + ·) a s).length = d := by
    intro s hs
    simp [hs, ha]
  have hone : ∀ (ms : List ℝ) m s, integND (momentQuadratureND B ms inds m s false stable) (fun _ => 1) = 1 := fun ms m s => by
    have := C22_nd_weights_sum_one B hB ms inds (by omega) hz m s false stable
    simpa [integND] using this
  have hrule : ∀ (ms m : List ℝ) (F : List ℝ → ℝ),
      integND (momentQuadratureND B ms inds (some (List.zipWith (· + ·) a m)) none false stable) F
        = integND (momentQuadratureND B ms inds (some m) none false stable) fun x => F (List.zipWith (· + ·) a x) := by
    intro ms m F
    rw [rule_shiftList, integND_map_node]
  have hnode : ∀ (ms m : List ℝ), m.length = d →
      ∀ p ∈ momentQuadratureND B ms inds (some m) none false stable, p.2.length = d := by
    intro ms m hm
    refine momentQuadratureND_node_length B ms inds d hd _ _ ?_ ?_ _ _
    · rintro _ ⟨⟩; exact hm
    · rintro _ ⟨⟩
  have hwl : ∀ (r : List (ℝ × List ℝ)) (f : List ℝ → List ℝ), (wsumVec d r f).length = d := fun r f => by simp [wsumVec]
  have hwg : ∀ (r : List (ℝ × List ℝ)) (f : List ℝ → List ℝ) (j : ℕ), j < d → (wsumVec d r f).getD j 0
      = integND r fun x => (f x).getD j 0 := fun r f j hj => by rw [wsumVec, getD_map_range' _ hj, FilterND.wsum_eq]
  have hpred : ∀ s : List ℝ × List ℝ, s.2.length = d →
      FilterND.predCms B stable d mis inds P' cm' (Φ s) = Φ (FilterND.predCms B stable d mis inds P cm s) := by
    rintro ⟨l, m⟩ hm
    simp only at hm
    have hn := hnode l m hm
    have hmean : wsumVec d (momentQuadratureND B l inds (some (List.zipWith (· + ·) a m)) none false stable) cm'
        = List.zipWith (· + ·) a (wsumVec d (momentQuadratureND B l inds (some m) none false stable) cm) := by
      refine ext_getD (d := d) (hwl _ _) (haddL _ (hwl _ _)) fun j hj => ?_
      rw [hwg _ _ j hj, haddD _ j (hwl _ _) hj, hwg _ _ j hj, hrule]
      have h1 := integND_const_add (momentQuadratureND B l inds (some m) none false stable) (a.getD j 0) 1
        (fun x => (cm x).getD j 0) (fun _ => 1)
      simp only [mul_one, one_mul] at h1
      rw [hone, mul_one] at h1
      rw [← h1]
      refine integND_congr fun p hp => ?_
      rw [hcm _ (hn p hp), haddD _ j (hlen _ (hn p hp)) hj]
    simp only [FilterND.predCms, hΦ, hmean]
    congr 1
    simp only [wsumVec, FilterND.wsum_eq, hrule]
    refine List.map_congr_left fun k _ => integND_congr fun p hp => ?_
    rw [hP _ _ (hn p hp) (by simp)]
  have hplen : ∀ s, (FilterND.predCms B stable d mis inds P cm s).2.length = d := fun s => by simp [FilterND.predCms, wsumVec]
  have hrule' : ∀ s : List ℝ × List ℝ, s.2.length = d → ∀ F,
      integND (FilterND.ruleCms B stable d mis inds P' cm' (Φ s)) F
        = integND (FilterND.ruleCms B stable d mis inds P cm s) fun x => F (List.zipWith (· + ·) a x) := by
    intro s hm F
    rw [FilterND.ruleCms, FilterND.ruleCms, hpred s hm]
    exact hrule _ _ F
  have hnode' : ∀ s : List ℝ × List ℝ, ∀ p ∈ FilterND.ruleCms B stable d mis inds P cm s, p.2.length = d := fun s =>
    hnode _ _ (hplen s)
  have hl' : ∀ (s : List ℝ × List ℝ) y, s.2.length = d →
      FilterND.likCms B stable pdf' d mis inds P' cm' (Φ s) y = FilterND.likCms B stable pdf d mis inds P cm s y := by
    intro s y hm
    rw [FilterND.likCms, FilterND.likCms, hrule' s hm]
    exact integND_congr fun p hp => hpdf y _ (hnode' s p hp)
  have hnlen : ∀ s y, (FilterND.nextCms B stable pdf d mis inds P cm s y).2.length = d := fun s y => by
    simp [FilterND.nextCms, eyeRows]
  have hnext : ∀ (s : List ℝ × List ℝ) y, s.2.length = d → FilterND.likCms B stable pdf d mis inds P cm s y ≠ 0 →
      FilterND.nextCms B stable pdf' d mis inds P' cm' (Φ s) y = Φ (FilterND.nextCms B stable pdf d mis inds P cm s y) := by
    intro s y hm hZ
    have hr := hrule' s hm
    have hn := hnode' s
    simp only [FilterND.nextCms, hr, hl' s y hm]
    simp only [hΦ]
    have hZd : FilterND.likCms B stable pdf d mis inds P cm s y = integND (FilterND.ruleCms B stable d mis inds P cm s) (pdf y) := rfl
    generalize FilterND.ruleCms B stable d mis inds P cm s = r at *
    generalize FilterND.likCms B stable pdf d mis inds P cm s y = Z at *
    have hgetE : ∀ (f : List ℕ → ℝ) j, j < d → ((eyeRows d).map f).getD j 0 = f (axisIndex d j 1) := by
      intro f j hj
      rw [eyeRows_eq, List.map_map]
      exact getD_map_range' _ hj
    have hmean : ((eyeRows d).map fun α => integND r (fun x => monomial ((List.zipWith (· + ·) a x).map (· - 0)) α
          * pdf' y (List.zipWith (· + ·) a x)) / Z)
        = List.zipWith (· + ·) a ((eyeRows d).map fun α => integND r (fun x => monomial (x.map (· - 0)) α * pdf y x) / Z) := by
      refine ext_getD (d := d) (by simp [eyeRows]) (haddL _ (by simp [eyeRows])) fun j hj => ?_
      rw [hgetE _ j hj, haddD _ j (by simp [eyeRows]) hj, hgetE _ j hj]
      have h1 : integND r (fun x => monomial ((List.zipWith (· + ·) a x).map (· - 0)) (axisIndex d j 1) * pdf' y (List.zipWith (· + ·) a x))
          = integND r (fun x => (a.getD j 0 + 1 * x.getD j 0) * pdf y x) := by
        refine integND_congr fun p hp => ?_
        rw [monomial_axis _ (by simp [ha, hn p hp]) j 1 hj, pow_one, hpdf y _ (hn p hp), one_mul]
        congr 1
        rw [← haddD _ j (hn p hp) hj]
        simp
      have h2 : integND r (fun x => monomial (x.map (· - 0)) (axisIndex d j 1) * pdf y x)
          = integND r (fun x => x.getD j 0 * pdf y x) := by
        refine integND_congr fun p hp => ?_
        rw [monomial_axis _ (by simp [hn p hp]) j 1 hj, pow_one]
        simp
      rw [h1, h2, integND_const_add, ← hZd]
      field_simp
    have hml : ((eyeRows d).map fun α => integND r (fun x => monomial (x.map (· - 0)) α * pdf y x) / Z).length = d := by
      simp [eyeRows]
    rw [hmean]
    generalize ((eyeRows d).map fun α => integND r (fun x => monomial (x.map (· - 0)) α * pdf y x) / Z) = m at hml ⊢
    congr 1
    refine List.map_congr_left fun α _ => ?_
    congr 1
    refine integND_congr fun p hp => ?_
    have hx := hn p hp
    rw [hpdf y _ hx]
    congr 2
    apply List.ext_getElem
    · simp [ha, hx, hml]
    · intro i h1 h2
      simp
  have key := traj_liks_map (g := FilterND.nextCms B stable pdf d mis inds P cm) (g' := FilterND.nextCms B stable pdf' d mis inds P' cm')
    (lik := FilterND.likCms B stable pdf d mis inds P cm) (lik' := FilterND.likCms B stable pdf' d mis inds P' cm') Φ
    (fun s ys => s.2.length = d ∧ ∀ l ∈ liks (FilterND.nextCms B stable pdf d mis inds P cm)
      (FilterND.likCms B stable pdf d mis inds P cm) s ys, l ≠ 0)
    (fun s y ys h => ⟨hnlen s y, fun l hl => h.2 l (by rw [liks]; exact List.mem_cons_of_mem _ hl)⟩)
    (fun s y ys h => hnext s y h.1 (h.2 _ (by rw [liks]; exact List.mem_cons_self)))
    (fun s y ys h => hl' s y h.1) (cms0, m0) ys ⟨hm0, hlik⟩
  have e : (cms0, List.zipWith (· + ·) a m0) = Φ (cms0, m0) := rfl
  rw [e, key.1, key.2]

/-- a random walk on the plane, seen from another origin: all hypotheses hold, in every order. -/
example (B : Backend) (hB : B.Valid) (N : ℕ) (basis full : List (List ℕ)) (mats : List (List (List ℤ))) (T : Tables N 2 basis full mats)
    (cms0 : List ℝ) (hl : full.length = cms0.length) (ys : List ℝ) :
    let a : List ℝ := [5, -7]
    let f : List ℝ → List ℕ → List ℝ → ℝ := fun x α m =>
      (monomial (List.zipWith (· - ·) (x.map (· + 1)) m) α + monomial (List.zipWith (· - ·) (x.map (· - 1)) m) α) / 2
    ∃ recs nell, FilterND.filterCms B (.multiIndex f) id (fun y x => Real.exp (-(y - x.getD 1 0) ^ 2)) ys
        (full, mats) cms0 [0, 0] true = .ok (recs, nell) ∧
      FilterND.filterCms B (.multiIndex f) id (fun y x => Real.exp (-(y - (x.getD 1 0 + 7)) ^ 2)) ys
        (full, mats) cms0 [5, -7] true = .ok (recs.map fun o => (o.1, List.zipWith (· + ·) a o.2), nell) := by
  have hm : List.zipWith (· + ·) [5, -7] [0, 0] = ([5, -7] : List ℝ) := by norm_num
  intro a f
  rw [← hm]
  have hx2 : ∀ x : List ℝ, x.length = 2 → ∃ u v, x = [u, v] := fun x hx => List.length_eq_two.1 hx
  refine C141_nd_central_origin (d := 2) B hB true a rfl full mats T.head_len T.mats_len T.hd
    (C22_applies N 2 (by have := T.hN; omega) T.hd mats T.mats_eq).2 _ _ _ _ _ _ (fun x hx => hx) (fun x hx => rfl) ?_ ?_
    cms0 [0, 0] rfl hl ys ?_
  · intro x m h1 h2
    obtain ⟨x0, x1, rfl⟩ := hx2 x h1
    obtain ⟨m0, m1, rfl⟩ := hx2 m h2
    have h3 : ∀ t u v w : ℝ, t + u + w - (t + v) = u + w - v := fun t u v w => by ring
    have h4 : ∀ t u v w : ℝ, t + u - w - (t + v) = u - w - v := fun t u v w => by ring
    simp only [CondMoments.row, f, a, List.zipWith_cons_cons, List.zipWith_nil_right, List.map_cons, List.map_nil, h3, h4]
  · intro y x hx
    obtain ⟨x0, x1, rfl⟩ := hx2 x hx
    norm_num [a]
  · intro l hl'
    have := (C139_nd_likelihood_pos (d := 2) B hB true (fun (y : ℝ) x => Real.exp (-(y - x.getD 1 0) ^ 2)) 1
      (fun y t => Real.exp (-(y - t) ^ 2)) (fun _ _ => Real.exp_pos _) (fun _ _ => rfl) full mats T.head_len T.mats_len
      (C22_applies N 2 (by have := T.hN; omega) T.hd mats T.mats_eq).2 (by norm_num) cms0 [0, 0] [] (.multiIndex fun _ _ _ => 0)
      (.multiIndex f) (.multiIndex fun _ _ _ => 0) id (fun x => (x, x)) ys).2.1 l
    rw [T.head_len] at this
    exact (this hl').ne'

end Mfs.Props

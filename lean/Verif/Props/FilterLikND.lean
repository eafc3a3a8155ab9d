import Verif.Props.FilterLik
import Verif.Props.FilterNDEquiv

/-!
# Property C138: the multidimensional filters as predictive distributions over measurements
-/

namespace Mfs.Props

open Matrix Mfs.Spec Mfs.QuadND Mfs.MultiIndex Mfs.FilterND MvPolynomial

variable {Y : Type} {d N : ℕ} {basis full : List (List ℕ)} {mats : List (List (List ℤ))}

theorem hasSum_integND {r : List (ℝ × List ℝ)} (hr : (r.map (·.1)).sum = 1) (pdf : Y → List ℝ → ℝ)
    (hsum : ∀ x, HasSum (fun y => pdf y x) 1) : HasSum (fun y => integND r (pdf y)) 1 := by
  rw [← hr]
  clear hr
  induction r with
  | nil => simp [integND]
  | cons p r ih =>
    simp only [integND, List.map_cons, List.sum_cons] at ih ⊢
    have := ((hsum p.2).mul_left p.1).add ih
    rwa [mul_one] at this

/-- sequences with positive predictive probabilities at every step: then the probabilities of all sequences of a given length
sum to one. -/
theorem hasSum_liks_of_pos {S : Type} {next : S → Y → S} {lik : S → Y → ℝ} (s : S)
    (hpos : ∀ ys, ∀ l ∈ liks next lik s ys, 0 < l) (hsum : ∀ s, HasSum (lik s) 1) (T : ℕ) :
    HasSum (fun ys : Fin T → Y => Real.exp (((liks next lik s (List.ofFn ys)).map Real.log).sum)) 1 := by
  refine hasSum_liks (fun s => ∀ ys, ∀ l ∈ liks next lik s ys, 0 < l) ?_ ?_ (fun s _ => hsum s) T s hpos
  · intro s y h ys l hl
    exact h (y :: ys) l (by rw [liks]; exact List.mem_cons_of_mem _ hl)
  · intro s y h
    exact h [y] _ (by simp [liks])

/-- **C138 (likelihoods).** For discrete measurements whose probabilities sum to one at every state, as long as every predictive
probability `Σᵢ wᵢ p(y | xᵢ)` that can occur is positive (weights may be negative, so this is not automatic: C113), the numbers
`exp(-nell)` that a multidimensional filter assigns to all sequences of length `T` sum to one. No validity of the moments is needed. -/
theorem C138_nd_likelihood_normalised (B : Backend) (hB : B.Valid) (stable : Bool) (pdf : Y → List ℝ → ℝ)
    (hsum : ∀ x, HasSum (fun y => pdf y x) 1) (T : ℕ) (mis : List (List ℕ)) (inds : List (List (List ℤ)))
    (hd : 2 ≤ inds.length) (hz : 0 < (inds.getD 0 []).length) (ms0 m0 s0 : List ℝ) (hl : mis.length = ms0.length)
    (Pr : CondMoments Unit) (Pc : CondMoments (List ℝ)) (Ps : CondMoments (List ℝ × List ℝ)) (cm : List ℝ → List ℝ)
    (cmv : List ℝ → List ℝ × List ℝ) :
    let dim := (mis.headD []).length
    ((∀ ys, ∀ l ∈ liks (FilterND.nextRms B stable pdf mis inds Pr) (FilterND.likRms B stable pdf mis inds Pr) ms0 ys, 0 < l) →
      ∃ nell : (Fin T → Y) → ℝ, (∀ ys, ∃ recs, FilterND.filterRms B Pr pdf (List.ofFn ys) (mis, inds) ms0 stable = .ok (recs, nell ys)) ∧
        HasSum (fun ys => Real.exp (-nell ys)) 1) ∧
    ((∀ ys, ∀ l ∈ liks (FilterND.nextCms B stable pdf dim mis inds Pc cm) (FilterND.likCms B stable pdf dim mis inds Pc cm) (ms0, m0) ys, 0 < l) →
      ∃ nell : (Fin T → Y) → ℝ, (∀ ys, ∃ recs, FilterND.filterCms B Pc cm pdf (List.ofFn ys) (mis, inds) ms0 m0 stable = .ok (recs, nell ys)) ∧
        HasSum (fun ys => Real.exp (-nell ys)) 1) ∧
    ((∀ ys, ∀ l ∈ liks (FilterND.nextScms B stable pdf dim mis inds Ps cmv) (FilterND.likScms B stable pdf dim mis inds Ps cmv) (ms0, m0, s0) ys,
        0 < l) →
      ∃ nell : (Fin T → Y) → ℝ, (∀ ys, ∃ recs, FilterND.filterScms B Ps cmv pdf (List.ofFn ys) (mis, inds) ms0 m0 s0 stable = .ok (recs, nell ys)) ∧
        HasSum (fun ys => Real.exp (-nell ys)) 1) := by
  intro dim
  simp only [FilterND.filterRms_eq, FilterND.filterCms_eq, FilterND.filterScms_eq, hl, ne_eq, not_true_eq_false, if_false]
  refine ⟨fun hpos => ⟨_, fun ys => ⟨_, rfl⟩, ?_⟩, fun hpos => ⟨_, fun ys => ⟨_, rfl⟩, ?_⟩, fun hpos => ⟨_, fun ys => ⟨_, rfl⟩, ?_⟩⟩
  all_goals
    simp only [neg_neg]
    refine hasSum_liks_of_pos _ hpos (fun s => ?_) T
    exact hasSum_integND (C22_nd_weights_sum_one B hB _ inds hd hz _ _ _ _) pdf hsum

open MeasureTheory in
/-- **C138 (total expectation).** For a measurement density with respect to any measure `ν` which integrates to one at every state:
averaging the posterior moments returned for one measurement over the predictive distribution `exp(-nell)` gives back the
predicted moments, as long as all predictive densities are positive and the predicted moments are valid and normalised. -/
theorem C138_nd_total_expectation (B : Backend) (hB : B.Valid) (stable : Bool) [MeasurableSpace Y] (ν : Measure Y)
    (pdf : Y → List ℝ → ℝ) (hint : ∀ x, Integrable (fun y => pdf y x) ν) (hone : ∀ x, ∫ y, pdf y x ∂ν = 1)
    (T : Tables N d basis full mats) (P : CondMoments Unit) (rms0 : List ℝ) (hl : full.length = rms0.length)
    (pred : List ℕ → ℝ) (hpred : FilterND.predRms B stable full mats P rms0 = full.map pred) (hp0 : pred (List.replicate d 0) = 1)
    (hpd : (gramOn basis pred).PosDef) (hpos : ∀ y, 0 < FilterND.likRms B stable pdf full mats P rms0 y) :
    ∃ (nell : Y → ℝ) (post : Y → List ℝ),
      (∀ y, FilterND.filterRms B P pdf [y] (full, mats) rms0 stable = .ok ([post y], nell y)) ∧
      ∫ y, Real.exp (-nell y) ∂ν = 1 ∧
      ∀ α ∈ full, ∫ y, Real.exp (-nell y) * (post y).getD (full.idxOf α) 0 ∂ν = pred α := by
  simp only [FilterND.filterRms_eq, hl, ne_eq, not_true_eq_false, if_false, traj, liks, List.map_cons, List.map_nil,
    List.sum_cons, List.sum_nil, add_zero]
  refine ⟨_, _, fun y => rfl, ?_⟩
  simp only [neg_neg]
  set r := FilterND.ruleRms B stable full mats P rms0 with hr
  have hZ : ∀ y, FilterND.likRms B stable pdf full mats P rms0 y = integND r (pdf y) := fun _ => rfl
  have he : ∀ y, Real.exp (Real.log (FilterND.likRms B stable pdf full mats P rms0 y)) = integND r (pdf y) := fun y => by
    rw [Real.exp_log (hpos y), hZ]
  have havg : ∀ f : List ℝ → ℝ, Integrable (fun y => integND r (fun x => f x * pdf y x)) ν ∧
      ∫ y, integND r (fun x => f x * pdf y x) ∂ν = integND r f := by
    intro f
    generalize r = r
    induction r with
    | nil => simp [integND]
    | cons p r ih =>
      simp only [integND, List.map_cons, List.sum_cons] at ih ⊢
      have hi : Integrable (fun y => p.1 * (f p.2 * pdf y p.2)) ν := ((hint p.2).const_mul _).const_mul _
      refine ⟨hi.add ih.1, ?_⟩
      rw [integral_add hi ih.1, ih.2, integral_const_mul, integral_const_mul, hone, mul_one]
  have hsum : (r.map (·.1)).sum = 1 := C22_nd_weights_sum_one B hB _ mats (by rw [T.mats_len]; have := T.hd; omega)
    (C22_applies N d (by have := T.hN; omega) T.hd mats T.mats_eq).2 none none false stable
  constructor
  · simp only [he]
    have := (havg fun _ => 1).2
    simp only [one_mul] at this
    rw [this, integND]
    simpa using hsum
  · intro α hα
    have hmom : ∀ y, Real.exp (Real.log (FilterND.likRms B stable pdf full mats P rms0 y))
        * (FilterND.nextRms B stable pdf full mats P rms0 y).getD (full.idxOf α) 0 = integND r (fun x => Spec.monomial x α * pdf y x) := by
      intro y
      have : (FilterND.nextRms B stable pdf full mats P rms0 y).getD (full.idxOf α) 0
          = integND r (fun x => Spec.monomial x α * pdf y x) / FilterND.likRms B stable pdf full mats P rms0 y :=
        momentAt_map full _ α hα
      rw [this, Real.exp_log (hpos y), mul_div_cancel₀ _ (hpos y).ne']
    simp only [hmom]
    rw [(havg _).2, hr, FilterND.ruleRms, hpred]
    rw [(C21_nd_reproduces B hB N d (by have := T.hN; omega) T.hd pred basis full mats T.basis_eq T.full_eq T.mats_eq hpd false
      stable).1 α (T.mem_full.1 hα), hp0, div_one]

end Mfs.Props

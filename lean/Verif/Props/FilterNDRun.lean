import Verif.Props.FilterND

/-!
# Properties C86, C87: causality, resumption and likelihood scaling of the multidimensional filters
-/

namespace Mfs.Props

open Mfs.Spec Mfs.QuadND Mfs.FilterND

variable {Y : Type}

theorem lastState_inv {S : Type} (g : S → Y → S) (p : S → Prop) (hg : ∀ s y, p (g s y)) (s : S) (hs : p s) (ys : List Y) :
    p (lastState g s ys) := by
  rcases List.eq_nil_or_concat ys with h | ⟨l, y, rfl⟩
  · subst h; exact hs
  · rw [lastState, List.concat_eq_append, List.foldl_append]; exact hg _ _

/-! ## C86 -/

/-- **C86.** Each of the three multidimensional filters: the first `k` outputs on `ys` are the outputs on the first `k`
measurements, and filtering `ys₁ ++ ys₂` is filtering `ys₁` and then `ys₂` from the last output (which is accepted by the
size check), the negative log-likelihoods adding up. -/
theorem C86_nd_causal_resumable (B : Backend) (stable : Bool) (pdf : Y → List ℝ → ℝ)
    (order : List (List ℕ) × List (List (List ℤ))) :
    (∀ (P : CondMoments Unit) (rms0 : List ℝ) (ys : List Y) (k : ℕ) a, FilterND.filterRms B P pdf ys order rms0 stable = .ok a →
      ∃ b, FilterND.filterRms B P pdf (ys.take k) order rms0 stable = .ok b ∧ a.1.take k = b.1) ∧
    (∀ (P : CondMoments Unit) (rms0 : List ℝ) (ys₁ ys₂ : List Y) a, FilterND.filterRms B P pdf ys₁ order rms0 stable = .ok a →
      ∃ b, FilterND.filterRms B P pdf ys₂ order (a.1.getLastD rms0) stable = .ok b ∧
        FilterND.filterRms B P pdf (ys₁ ++ ys₂) order rms0 stable = .ok (a.1 ++ b.1, a.2 + b.2)) ∧
    (∀ (P : CondMoments (List ℝ)) (cm : List ℝ → List ℝ) (cms0 m0 : List ℝ) (ys : List Y) (k : ℕ) a,
      FilterND.filterCms B P cm pdf ys order cms0 m0 stable = .ok a →
      ∃ b, FilterND.filterCms B P cm pdf (ys.take k) order cms0 m0 stable = .ok b ∧ a.1.take k = b.1) ∧
    (∀ (P : CondMoments (List ℝ)) (cm : List ℝ → List ℝ) (cms0 m0 : List ℝ) (ys₁ ys₂ : List Y) a,
      FilterND.filterCms B P cm pdf ys₁ order cms0 m0 stable = .ok a →
      ∃ b, FilterND.filterCms B P cm pdf ys₂ order (a.1.getLastD (cms0, m0)).1 (a.1.getLastD (cms0, m0)).2 stable = .ok b ∧
        FilterND.filterCms B P cm pdf (ys₁ ++ ys₂) order cms0 m0 stable = .ok (a.1 ++ b.1, a.2 + b.2)) ∧
    (∀ (P : CondMoments (List ℝ × List ℝ)) (cmv : List ℝ → List ℝ × List ℝ) (scms0 m0 s0 : List ℝ) (ys : List Y) (k : ℕ) a,
      FilterND.filterScms B P cmv pdf ys order scms0 m0 s0 stable = .ok a →
      ∃ b, FilterND.filterScms B P cmv pdf (ys.take k) order scms0 m0 s0 stable = .ok b ∧ a.1.take k = b.1) ∧
    (∀ (P : CondMoments (List ℝ × List ℝ)) (cmv : List ℝ → List ℝ × List ℝ) (scms0 m0 s0 : List ℝ) (ys₁ ys₂ : List Y) a,
      FilterND.filterScms B P cmv pdf ys₁ order scms0 m0 s0 stable = .ok a →
      ∃ b, FilterND.filterScms B P cmv pdf ys₂ order (a.1.getLastD (scms0, m0, s0)).1 (a.1.getLastD (scms0, m0, s0)).2.1
          (a.1.getLastD (scms0, m0, s0)).2.2 stable = .ok b ∧
        FilterND.filterScms B P cmv pdf (ys₁ ++ ys₂) order scms0 m0 s0 stable = .ok (a.1 ++ b.1, a.2 + b.2)) := by
  refine ⟨?_, ?_, ?_, ?_, ?_, ?_⟩
  · intro P rms0 ys k a h
    rw [FilterND.filterRms_eq] at h ⊢
    split_ifs at h ⊢
    cases h
    exact ⟨_, rfl, traj_take _ _ _⟩
  · intro P rms0 ys₁ ys₂ a h
    rw [FilterND.filterRms_eq] at h
    split_ifs at h with h0
    cases h
    have hl := lastState_inv (FilterND.nextRms B stable pdf order.1 order.2 P) (fun s => order.1.length = s.length)
      (fun s y => by simp [FilterND.nextRms]) rms0 (not_not.1 h0) ys₁
    simp only [FilterND.filterRms_eq, ← lastState_eq, if_neg h0, if_neg (not_not.2 hl)]
    exact ⟨_, rfl, by rw [traj_append, liks_append, List.map_append, List.sum_append, neg_add]⟩
  · intro P cm cms0 m0 ys k a h
    rw [FilterND.filterCms_eq] at h ⊢
    split_ifs at h ⊢
    cases h
    exact ⟨_, rfl, traj_take _ _ _⟩
  · intro P cm cms0 m0 ys₁ ys₂ a h
    rw [FilterND.filterCms_eq] at h
    split_ifs at h with h0
    cases h
    have hl := lastState_inv (FilterND.nextCms B stable pdf (order.1.headD []).length order.1 order.2 P cm)
      (fun s => order.1.length = s.1.length) (fun s y => by simp [FilterND.nextCms]) (cms0, m0) (not_not.1 h0) ys₁
    simp only [FilterND.filterCms_eq, ← lastState_eq, if_neg h0, if_neg (not_not.2 hl)]
    exact ⟨_, rfl, by rw [traj_append, liks_append, List.map_append, List.sum_append, neg_add]⟩
  · intro P cmv scms0 m0 s0 ys k a h
    rw [FilterND.filterScms_eq] at h ⊢
    split_ifs at h ⊢
    cases h
    exact ⟨_, rfl, traj_take _ _ _⟩
  · intro P cmv scms0 m0 s0 ys₁ ys₂ a h
    rw [FilterND.filterScms_eq] at h
    split_ifs at h with h0
    cases h
    have hl := lastState_inv (FilterND.nextScms B stable pdf (order.1.headD []).length order.1 order.2 P cmv)
      (fun s => order.1.length = s.1.length) (fun s y => by simp [FilterND.nextScms]) (scms0, m0, s0) (not_not.1 h0) ys₁
    simp only [FilterND.filterScms_eq, ← lastState_eq, if_neg h0, if_neg (not_not.2 hl)]
    exact ⟨_, rfl, by rw [traj_append, liks_append, List.map_append, List.sum_append, neg_add]⟩

/-- an accepted run on two measurements. -/
example : ∃ a, FilterND.filterRms theBackend (.multiIndex fun x α _ => monomial x α) (fun (y : ℝ) _ => y) [1, 2]
    ([[0, 0], [0, 1]], []) [1, 0] = .ok a ∧ a.1.length = 2 := by
  rw [FilterND.filterRms_eq]
  exact ⟨_, if_neg (by simp), by simp [length_traj]⟩

/-! ## C87 -/

/-- **C87.** Multiplying the measurement density by `c > 0` leaves every output of the three multidimensional filters
unchanged and subtracts `T log c` from the negative log-likelihood, provided no predictive likelihood vanishes. -/
theorem C87_nd_likelihood_scaling (B : Backend) (stable : Bool) (pdf : Y → List ℝ → ℝ) (c : ℝ) (hc : 0 < c) (ys : List Y)
    (mis : List (List ℕ)) (inds : List (List (List ℤ))) :
    (∀ (P : CondMoments Unit) (rms0 : List ℝ) a, FilterND.filterRms B P pdf ys (mis, inds) rms0 stable = .ok a →
      ∃ b, FilterND.filterRms B P (fun y x => c * pdf y x) ys (mis, inds) rms0 stable = .ok b ∧ b.1 = a.1 ∧
        ((∀ l ∈ List.zipWith (fun s y => FilterND.likRms B stable pdf mis inds P s y) (rms0 :: a.1) ys, l ≠ 0) →
          b.2 = a.2 - ys.length * Real.log c)) ∧
    (∀ (P : CondMoments (List ℝ)) (cm : List ℝ → List ℝ) (cms0 m0 : List ℝ) a,
      FilterND.filterCms B P cm pdf ys (mis, inds) cms0 m0 stable = .ok a →
      ∃ b, FilterND.filterCms B P cm (fun y x => c * pdf y x) ys (mis, inds) cms0 m0 stable = .ok b ∧ b.1 = a.1 ∧
        ((∀ l ∈ List.zipWith (fun s y => FilterND.likCms B stable pdf (mis.headD []).length mis inds P cm s y)
          ((cms0, m0) :: a.1) ys, l ≠ 0) → b.2 = a.2 - ys.length * Real.log c)) ∧
    (∀ (P : CondMoments (List ℝ × List ℝ)) (cmv : List ℝ → List ℝ × List ℝ) (scms0 m0 s0 : List ℝ) a,
      FilterND.filterScms B P cmv pdf ys (mis, inds) scms0 m0 s0 stable = .ok a →
      ∃ b, FilterND.filterScms B P cmv (fun y x => c * pdf y x) ys (mis, inds) scms0 m0 s0 stable = .ok b ∧ b.1 = a.1 ∧
        ((∀ l ∈ List.zipWith (fun s y => FilterND.likScms B stable pdf (mis.headD []).length mis inds P cmv s y)
          ((scms0, m0, s0) :: a.1) ys, l ≠ 0) → b.2 = a.2 - ys.length * Real.log c)) := by
  have hc0 := hc.ne'
  have gen : ∀ {S : Type} (g g' : S → Y → S) (lik lik' : S → Y → ℝ) (s : S), (∀ s y, g' s y = g s y) →
      (∀ s y, lik' s y = c * lik s y) →
      traj g' s ys = traj g s ys ∧ ((∀ l ∈ List.zipWith lik (s :: traj g s ys) ys, l ≠ 0) →
        - ((liks g' lik' s ys).map Real.log).sum = - ((liks g lik s ys).map Real.log).sum - ys.length * Real.log c) := by
    intro S g g' lik lik' s hg hl
    have ht := traj_congr hg s ys
    refine ⟨ht, ?_⟩
    intro h0
    rw [liks_eq_zipWith, liks_eq_zipWith, ht, sum_log_scale c hc _ _ _ h0]
    · rw [List.length_zipWith, List.length_cons, length_traj]
      simp; ring
    · rw [List.map_zipWith]
      congr 1
      funext s y
      exact hl s y
  have hl1 : ∀ (r : List (ℝ × List ℝ)) (f : List ℝ → ℝ), integND r (fun x => c * f x) = c * integND r f :=
    fun r f => integND_mul_left r c f
  have hl2 : ∀ (r : List (ℝ × List ℝ)) (f g : List ℝ → ℝ), integND r (fun x => f x * (c * g x)) = c * integND r (fun x => f x * g x) := by
    intro r f g
    rw [← hl1]
    congr 1
    funext x
    ring
  refine ⟨?_, ?_, ?_⟩
  · intro P rms0 a h
    rw [FilterND.filterRms_eq] at h ⊢
    split_ifs at h ⊢
    cases h
    refine ⟨_, rfl, gen _ _ _ _ _ ?_ ?_⟩
    · intro s y
      simp only [FilterND.nextRms, FilterND.likRms, hl1, hl2, mul_div_mul_left _ _ hc0]
    · intro s y
      simp only [FilterND.likRms, hl1]
  · intro P cm cms0 m0 a h
    rw [FilterND.filterCms_eq] at h ⊢
    split_ifs at h ⊢
    cases h
    refine ⟨_, rfl, gen _ _ _ _ _ ?_ ?_⟩
    · intro s y
      simp only [FilterND.nextCms, FilterND.likCms, hl1, hl2, mul_div_mul_left _ _ hc0]
    · intro s y
      simp only [FilterND.likCms, hl1]
  · intro P cmv scms0 m0 s0 a h
    rw [FilterND.filterScms_eq] at h ⊢
    split_ifs at h ⊢
    cases h
    refine ⟨_, rfl, gen _ _ _ _ _ ?_ ?_⟩
    · intro s y
      simp only [FilterND.nextScms, FilterND.likScms, hl1, hl2, mul_div_mul_left _ _ hc0]
    · intro s y
      simp only [FilterND.likScms, hl1]

/-- a predictive likelihood which does not vanish: constant density, tables of the library for `N = 2`, `d = 2`. -/
example : ∃ mats, MultiIndex.gramAndHankelIndices 2 2 = .ok mats ∧
    FilterND.likRms theBackend false (fun (_ : Unit) _ => (2 : ℝ)) [[0, 0]] mats (.multiIndex fun x α _ => monomial x α) [1] () ≠ 0 := by
  obtain ⟨b, f, m, h1, h2, h3, _⟩ := C05_gram_hankel_indices 2 2 (by norm_num) (by norm_num)
  refine ⟨m, h3, ?_⟩
  obtain ⟨hl, hne⟩ := C22_applies 2 2 (by norm_num) (by norm_num) m h3
  rw [FilterND.likRms, FilterND.ruleRms, integND]
  have := C22_nd_weights_sum_one theBackend theBackend_valid
    (FilterND.predRms theBackend false [[0, 0]] m (.multiIndex fun x α _ => monomial x α) [1]) m (by omega) hne none none false false
  rw [List.sum_map_mul_right, this]
  norm_num

end Mfs.Props

import Verif.Lemmas.IdealGen
import Mathlib.Probability.ConditionalProbability

/-!
# Repeating independent draws until one is accepted
-/

namespace Mfs.Lemmas

open MeasureTheory ProbabilityTheory Measure

variable {D : Type}

open _root_.Classical in
/-- the first accepted draw; if there is none, zero. -/
noncomputable def first (g : Set D) (E : ℕ → D) : ℕ :=
  Nat.find (p := fun j => E j ∈ g ∨ ∀ i, E i ∉ g) (by
    by_cases h : ∃ j, E j ∈ g
    · exact ⟨h.choose, Or.inl h.choose_spec⟩
    · exact ⟨0, Or.inr fun i hi => h ⟨i, hi⟩⟩)

theorem first_mem {g : Set D} {E : ℕ → D} (h : ∃ j, E j ∈ g) : E (first g E) ∈ g := by
  classical
  have := Nat.find_spec (p := fun j => E j ∈ g ∨ ∀ i, E i ∉ g) ⟨h.choose, Or.inl h.choose_spec⟩
  rcases this with h1 | h1
  · unfold first
    convert h1
  · exact absurd h.choose_spec (h1 _)

theorem notMem_of_lt_first {g : Set D} {E : ℕ → D} {i : ℕ} (h : i < first g E) : E i ∉ g := by
  classical
  unfold first at h
  have := Nat.find_min _ h
  exact fun hi => this (Or.inl hi)

theorem first_eq {g : Set D} {E : ℕ → D} {j : ℕ} (h : E j ∈ g) (hl : ∀ i < j, E i ∉ g) : first g E = j := by
  have h1 := first_mem ⟨j, h⟩
  rcases lt_trichotomy (first g E) j with h2 | h2 | h2
  · exact absurd h1 (hl _ h2)
  · exact h2
  · exact absurd h (notMem_of_lt_first h2)

theorem first_zero {g : Set D} {E : ℕ → D} (h : E 0 ∈ g) : first g E = 0 := first_eq h fun _ hi => absurd hi (Nat.not_lt_zero _)

theorem first_succ {g : Set D} {E : ℕ → D} (h0 : E 0 ∉ g) (h : ∃ j, E (j + 1) ∈ g) : first g E = first g (fun j => E (j + 1)) + 1 := by
  refine first_eq (first_mem (E := fun j => E (j + 1)) h) fun i hi => ?_
  cases i with
  | zero => exact h0
  | succ i => exact notMem_of_lt_first (E := fun j => E (j + 1)) (Nat.succ_lt_succ_iff.1 hi)

/-- the accepted draw and the draws after it. -/
noncomputable def accept (g : Set D) (E : ℕ → D) : D × (ℕ → D) := (E (first g E), fun i => E (first g E + 1 + i))

variable [MeasurableSpace D]

theorem measurable_first {g : Set D} (hg : MeasurableSet g) : Measurable (first g) := by
  classical
  have h : ∀ j, MeasurableSet {E : ℕ → D | E j ∈ g} := fun j => measurable_pi_apply j hg
  have h2 : MeasurableSet {E : ℕ → D | ∀ i, E i ∉ g} := by
    have : {E : ℕ → D | ∀ i, E i ∉ g} = ⋂ i, {E : ℕ → D | E i ∈ g}ᶜ := by ext; simp
    rw [this]
    exact MeasurableSet.iInter fun i => (h i).compl
  have := measurable_find (p := fun (E : ℕ → D) j => E j ∈ g ∨ ∀ i, E i ∉ g) (fun E => by
    by_cases h : ∃ j, E j ∈ g
    · exact ⟨h.choose, Or.inl h.choose_spec⟩
    · exact ⟨0, Or.inr fun i hi => h ⟨i, hi⟩⟩) (fun j => (h j).union h2)
  exact this

theorem measurable_accept {g : Set D} (hg : MeasurableSet g) : Measurable (accept g) := by
  have h1 : Measurable fun p : ℕ × (ℕ → D) => (p.2 p.1, fun i => p.2 (p.1 + 1 + i)) :=
    measurable_from_prod_countable_right fun n =>
      (measurable_pi_apply n).prodMk (measurable_pi_lambda _ fun i => measurable_pi_apply (n + 1 + i))
  exact h1.comp ((measurable_first hg).prodMk measurable_id)

/-- the first of a sequence of independent draws and the others. -/
theorem infinitePi_cons (π : Measure D) [IsProbabilityMeasure π] :
    (infinitePi fun _ : ℕ => π).map (fun E => (E 0, fun j => E (j + 1))) = π.prod (infinitePi fun _ : ℕ => π) := by
  have hinj : Function.Injective fun o : Option ℕ => o.elim 0 (· + 1) := by
    intro a b hab
    cases a <;> cases b <;> simp_all
  have h1 : (infinitePi fun _ : ℕ => π).map (fun E (o : Option ℕ) => E (o.elim 0 (· + 1))) = infinitePi fun _ : Option ℕ => π :=
    map_infinitePi_infinitePi_of_inj hinj
  rw [← infinitePi_option, ← h1, Measure.map_map]
  · rfl
  · exact (measurable_pi_apply none).prodMk (measurable_pi_lambda _ fun a => measurable_pi_apply _)
  · exact measurable_pi_lambda _ fun o => measurable_pi_apply _

theorem measurableSet_exists {g : Set D} (hg : MeasurableSet g) : MeasurableSet {E : ℕ → D | ∃ j, E j ∈ g} := by
  have : {E : ℕ → D | ∃ j, E j ∈ g} = ⋃ j, {E : ℕ → D | E j ∈ g} := by ext; simp
  rw [this]
  exact MeasurableSet.iUnion fun j => measurable_pi_apply j hg

/-- the accepted draw has the conditional law and is independent of the draws after it, which are like the whole sequence. -/
theorem accept_apply (π : Measure D) [IsProbabilityMeasure π] {g : Set D} (hg : MeasurableSet g) (h0 : π g ≠ 0) {S : Set (D × (ℕ → D))} (hS : MeasurableSet S) :
    (infinitePi fun _ : ℕ => π) {E | (∃ j, E j ∈ g) ∧ accept g E ∈ S} = (π[|g]).prod (infinitePi fun _ : ℕ => π) S := by
  obtain ⟨Q, hQ⟩ : ∃ Q, Q = infinitePi fun _ : ℕ => π := ⟨_, rfl⟩
  have hQp : IsProbabilityMeasure Q := by rw [hQ]; infer_instance
  rw [← hQ]
  set A : Set (ℕ → D) := {E | (∃ j, E j ∈ g) ∧ accept g E ∈ S} with hA
  have hAm : MeasurableSet A := (measurableSet_exists hg).inter (measurable_accept hg hS)
  have hcm : Measurable fun E : ℕ → D => (E 0, fun j => E (j + 1)) :=
    (measurable_pi_apply 0).prodMk (measurable_pi_lambda _ fun a => measurable_pi_apply _)
  have hsplit : A = (fun E : ℕ → D => (E 0, fun j => E (j + 1))) ⁻¹' ((S ∩ g ×ˢ Set.univ) ∪ gᶜ ×ˢ A) := by
    ext E
    simp only [hA, Set.mem_preimage, Set.mem_union, Set.mem_inter_iff, Set.mem_prod, Set.mem_univ, and_true, Set.mem_compl_iff, Set.mem_ofPred_eq]
    by_cases h : E 0 ∈ g
    · have : accept g E = (E 0, fun j => E (j + 1)) := by simp [accept, first_zero h, add_comm]
      simp only [h, and_true, not_true, false_and, or_false, this]
      exact ⟨fun h => h.2, fun h' => ⟨⟨0, h⟩, h'⟩⟩
    · simp only [h, and_false, not_false_eq_true, true_and, false_or]
      have hex : (∃ j, E j ∈ g) ↔ ∃ j, E (j + 1) ∈ g := by
        constructor
        · rintro ⟨j, hj⟩
          cases j with
          | zero => exact absurd hj h
          | succ j => exact ⟨j, hj⟩
        · exact fun ⟨j, hj⟩ => ⟨j + 1, hj⟩
      rw [hex]
      refine and_congr_right fun hj => ?_
      have : accept g E = accept g fun j => E (j + 1) := by
        simp only [accept, first_succ h hj]
        congr 1
        funext i
        congr 1
        omega
      rw [this]
  have hrec : Q A = π.prod Q (S ∩ g ×ˢ Set.univ) + π gᶜ * Q A := by
    have hm : MeasurableSet ((S ∩ g ×ˢ Set.univ) ∪ gᶜ ×ˢ A) := (hS.inter (hg.prod .univ)).union (hg.compl.prod hAm)
    conv_lhs => rw [hsplit]
    rw [← Measure.map_apply hcm hm, hQ, infinitePi_cons, measure_union _ (hg.compl.prod hAm), prod_prod]
    rw [Set.disjoint_left]
    rintro p ⟨-, h1, -⟩ ⟨h2, -⟩
    exact h2 h1
  have hp : π gᶜ = 1 - π g := prob_compl_eq_one_sub hg
  have hfin : Q A ≠ ⊤ := measure_ne_top _ _
  have hg1 : π g ≤ 1 := prob_le_one
  have key : π g * Q A = π.prod Q (S ∩ g ×ˢ Set.univ) := by
    have h2 : (π g + π gᶜ) * Q A = π.prod Q (S ∩ g ×ˢ Set.univ) + π gᶜ * Q A := by
      rw [measure_add_measure_compl hg, measure_univ, one_mul]; exact hrec
    rw [add_mul] at h2
    exact (ENNReal.add_left_inj (ENNReal.mul_ne_top (measure_ne_top _ _) hfin)).1 h2
  have hcond : (π[|g]).prod Q = (π g)⁻¹ • (π.restrict g).prod Q := by
    rw [ProbabilityTheory.cond, Measure.prod_smul_left]
  have hres : (π.restrict g).prod Q = (π.prod Q).restrict (g ×ˢ Set.univ) := by
    rw [← Measure.prod_restrict, Measure.restrict_univ]
  rw [hcond, Measure.smul_apply, hres, Measure.restrict_apply hS, ← key, smul_eq_mul, ← mul_assoc,
    ENNReal.inv_mul_cancel h0 (measure_ne_top _ _), one_mul]

/-- almost surely some draw is accepted. -/
theorem ae_exists (π : Measure D) [IsProbabilityMeasure π] {g : Set D} (hg : MeasurableSet g) (h0 : π g ≠ 0) :
    ∀ᵐ E ∂(infinitePi fun _ : ℕ => π), ∃ j, E j ∈ g := by
  have := cond_isProbabilityMeasure h0
  have h := accept_apply π hg h0 MeasurableSet.univ
  rw [measure_univ] at h
  change {E : ℕ → D | ∃ j, E j ∈ g} ∈ ae _
  rw [mem_ae_iff_prob_eq_one (measurableSet_exists hg)]
  simpa using h

theorem accept_map (π : Measure D) [IsProbabilityMeasure π] {g : Set D} (hg : MeasurableSet g) (h0 : π g ≠ 0) :
    (infinitePi fun _ : ℕ => π).map (accept g) = (π[|g]).prod (infinitePi fun _ : ℕ => π) := by
  refine Measure.ext fun S hS => ?_
  rw [Measure.map_apply (measurable_accept hg) hS, ← accept_apply π hg h0 hS]
  refine measure_congr ?_
  filter_upwards [ae_exists π hg h0] with E hE
  exact propext ⟨fun h => ⟨hE, h⟩, fun h => h.2⟩

open _root_.Classical in
/-- one run: the draw of its own if accepted, else the first accepted draw of the reserve. -/
noncomputable def runStep (g : Set D) (s : (ℕ → D) × (ℕ → D)) : D × ((ℕ → D) × (ℕ → D)) :=
  if s.1 0 ∈ g then (s.1 0, (fun j => s.1 (j + 1), s.2)) else ((accept g s.2).1, (fun j => s.1 (j + 1), (accept g s.2).2))

theorem measurable_runStep {g : Set D} (hg : MeasurableSet g) : Measurable (runStep g) := by
  have h0 : Measurable fun s : (ℕ → D) × (ℕ → D) => s.1 0 := (measurable_pi_apply 0).comp measurable_fst
  have h1 : Measurable fun s : (ℕ → D) × (ℕ → D) => fun j => s.1 (j + 1) := measurable_pi_lambda _ fun j => (measurable_pi_apply _).comp measurable_fst
  have h2 : Measurable fun s : (ℕ → D) × (ℕ → D) => accept g s.2 := (measurable_accept hg).comp measurable_snd
  exact Measurable.ite (h0 hg) (h0.prodMk (h1.prodMk measurable_snd)) (h2.fst.prodMk (h1.prodMk h2.snd))

theorem rotate_prod {A B C : Type} [MeasurableSpace A] [MeasurableSpace B] [MeasurableSpace C] (α : Measure A) (β : Measure B) (γ : Measure C)
    [SFinite α] [SFinite β] [SFinite γ] : (α.prod (β.prod γ)).map (fun p => (p.2.1, (p.1, p.2.2))) = β.prod (α.prod γ) := by
  have h1 := Measure.prodAssoc_prod (μ := α) (ν := β) (τ := γ)
  have h2 := Measure.prodAssoc_prod (μ := β) (ν := α) (τ := γ)
  have h3 : ((α.prod β).prod γ).map (Prod.map Prod.swap id) = (β.prod α).prod γ := by
    rw [← Measure.map_prod_map _ _ measurable_swap measurable_id, Measure.prod_swap, Measure.map_id]
  rw [← h2, ← h3, ← h1, Measure.map_map (by fun_prop) (MeasurableEquiv.measurable _), Measure.map_map (MeasurableEquiv.measurable _) (by fun_prop)]
  rfl

theorem runStep_map (π : Measure D) [IsProbabilityMeasure π] {g : Set D} (hg : MeasurableSet g) (h0 : π g ≠ 0) :
    ((infinitePi fun _ : ℕ => π).prod (infinitePi fun _ : ℕ => π)).map (runStep g)
      = (π[|g]).prod ((infinitePi fun _ : ℕ => π).prod (infinitePi fun _ : ℕ => π)) := by
  obtain ⟨Q, hQ⟩ : ∃ Q, Q = infinitePi fun _ : ℕ => π := ⟨_, rfl⟩
  have hQp : IsProbabilityMeasure Q := by rw [hQ]; infer_instance
  have hc := cond_isProbabilityMeasure h0
  have hacc := accept_map π hg h0
  have hcons := infinitePi_cons π
  rw [← hQ] at hacc hcons ⊢
  have hcm : Measurable fun E : ℕ → D => (E 0, fun j => E (j + 1)) :=
    (measurable_pi_apply 0).prodMk (measurable_pi_lambda _ fun a => measurable_pi_apply _)
  refine Measure.ext fun S hS => ?_
  -- a run without its own draw
  obtain ⟨R, hR⟩ : ∃ R : Set ((ℕ → D) × (ℕ → D)), R = {s | ((accept g s.2).1, (s.1, (accept g s.2).2)) ∈ S} := ⟨_, rfl⟩
  have hmR : Measurable fun s : (ℕ → D) × (ℕ → D) => ((accept g s.2).1, (s.1, (accept g s.2).2)) := by
    have h2 : Measurable fun s : (ℕ → D) × (ℕ → D) => accept g s.2 := (measurable_accept hg).comp measurable_snd
    exact h2.fst.prodMk (measurable_fst.prodMk h2.snd)
  have hRm : MeasurableSet R := by rw [hR]; exact hmR hS
  have hRS : (Q.prod Q) R = (π[|g]).prod (Q.prod Q) S := by
    have h1 : (Q.prod Q).map (fun s => ((accept g s.2).1, (s.1, (accept g s.2).2))) = (π[|g]).prod (Q.prod Q) := by
      have e := Measure.map_prod_map Q Q measurable_id (measurable_accept hg)
      rw [Measure.map_id, hacc] at e
      rw [← rotate_prod Q (π[|g]) Q, e, Measure.map_map (by fun_prop) (measurable_id.prodMap (measurable_accept hg))]
      rfl
    rw [← h1, Measure.map_apply hmR hS, hR]
    rfl
  have hcmap : (Q.prod Q).map (fun s => (s.1 0, (fun j => s.1 (j + 1), s.2))) = π.prod (Q.prod Q) := by
    have e := Measure.map_prod_map Q Q hcm measurable_id
    rw [Measure.map_id, hcons] at e
    rw [← Measure.prodAssoc_prod, e, Measure.map_map (MeasurableEquiv.measurable _) (hcm.prodMap measurable_id)]
    rfl
  have hcm2 : Measurable fun s : (ℕ → D) × (ℕ → D) => (s.1 0, (fun j => s.1 (j + 1), s.2)) :=
    ((measurable_pi_apply 0).comp measurable_fst).prodMk ((measurable_pi_lambda _ fun j => (measurable_pi_apply _).comp measurable_fst).prodMk measurable_snd)
  have hpre : runStep g ⁻¹' S = (fun s : (ℕ → D) × (ℕ → D) => (s.1 0, (fun j => s.1 (j + 1), s.2))) ⁻¹' ((S ∩ g ×ˢ Set.univ) ∪ gᶜ ×ˢ R) := by
    ext s
    simp only [runStep, hR, Set.mem_preimage, Set.mem_union, Set.mem_inter_iff, Set.mem_prod, Set.mem_univ, and_true, Set.mem_compl_iff, Set.mem_ofPred_eq]
    by_cases h : s.1 0 ∈ g <;> simp [h]
  have hm : MeasurableSet ((S ∩ g ×ˢ Set.univ) ∪ gᶜ ×ˢ R) := (hS.inter (hg.prod .univ)).union (hg.compl.prod hRm)
  rw [Measure.map_apply (measurable_runStep hg) hS, hpre, ← Measure.map_apply hcm2 hm, hcmap, measure_union _ (hg.compl.prod hRm), prod_prod, hRS]
  · have hcond : (π[|g]).prod (Q.prod Q) S = (π g)⁻¹ * π.prod (Q.prod Q) (S ∩ g ×ˢ Set.univ) := by
      have hres : (π.restrict g).prod (Q.prod Q) = (π.prod (Q.prod Q)).restrict (g ×ˢ Set.univ) := by
        rw [← Measure.prod_restrict, Measure.restrict_univ]
      rw [ProbabilityTheory.cond, Measure.prod_smul_left, Measure.smul_apply, hres, Measure.restrict_apply hS, smul_eq_mul]
    have h2 : π.prod (Q.prod Q) (S ∩ g ×ˢ Set.univ) = π g * (π[|g]).prod (Q.prod Q) S := by
      rw [hcond, ← mul_assoc, ENNReal.mul_inv_cancel h0 (measure_ne_top _ _), one_mul]
    rw [h2, ← add_mul, measure_add_measure_compl hg, measure_univ, one_mul]
  · rw [Set.disjoint_left]
    rintro p ⟨-, h1, -⟩ ⟨h2, -⟩
    exact h2 h1

/-- a machine whose output is independent of its next state, which is again distributed like its state, puts out independent identically distributed values. -/
theorem iterate_law {Z A : Type} [MeasurableSpace Z] [MeasurableSpace A] (Θ : Measure Z) [IsProbabilityMeasure Θ] (κ : Measure A) [IsProbabilityMeasure κ]
    {f : Z → A × Z} (hf : Measurable f) (h : Θ.map f = κ.prod Θ) :
    Θ.map (fun s (k : ℕ) => (f ((fun z => (f z).2)^[k] s)).1) = infinitePi fun _ : ℕ => κ := by
  have hm : ∀ k, Measurable fun s => (f ((fun z => (f z).2)^[k] s)).1 := fun k => (hf.comp (hf.snd.iterate k)).fst
  have hbox : ∀ (m : ℕ) (t : ℕ → Set A), (∀ k, MeasurableSet (t k)) →
      Θ {s | ∀ k < m, (f ((fun z => (f z).2)^[k] s)).1 ∈ t k} = ∏ k ∈ Finset.range m, κ (t k) := by
    intro m
    induction m with
    | zero => intro t _; simp
    | succ m ih =>
      intro t ht
      have hb : MeasurableSet {s | ∀ k < m, (f ((fun z => (f z).2)^[k] s)).1 ∈ t (k + 1)} := by
        have : {s | ∀ k < m, (f ((fun z => (f z).2)^[k] s)).1 ∈ t (k + 1)} = ⋂ k, ⋂ (_ : k < m), {s | (f ((fun z => (f z).2)^[k] s)).1 ∈ t (k + 1)} := by
          ext; simp
        rw [this]
        exact MeasurableSet.iInter fun k => MeasurableSet.iInter fun _ => hm k (ht _)
      have e : {s | ∀ k < m + 1, (f ((fun z => (f z).2)^[k] s)).1 ∈ t k}
          = f ⁻¹' (t 0 ×ˢ {s | ∀ k < m, (f ((fun z => (f z).2)^[k] s)).1 ∈ t (k + 1)}) := by
        ext s
        simp only [Set.mem_ofPred_eq, Set.mem_preimage, Set.mem_prod]
        constructor
        · exact fun hs => ⟨hs 0 (Nat.succ_pos _), fun k hk => hs (k + 1) (Nat.succ_lt_succ hk)⟩
        · rintro ⟨h1, h2⟩ k hk
          cases k with
          | zero => exact h1
          | succ k => exact h2 k (Nat.succ_lt_succ_iff.1 hk)
      rw [e, ← Measure.map_apply hf ((ht 0).prod hb), h, prod_prod, ih _ fun k => ht _, Finset.prod_range_succ', mul_comm]
  refine eq_infinitePi _ fun s t ht => ?_
  rw [Measure.map_apply (measurable_pi_lambda _ hm) (.pi s.countable_toSet fun _ _ => ht _)]
  classical
  obtain ⟨m, hms⟩ : ∃ m, s ⊆ Finset.range m := s.exists_nat_subset_range
  have := hbox m (fun k => if k ∈ s then t k else Set.univ) (fun k => by split_ifs <;> simp [ht])
  have e : (fun s (k : ℕ) => (f ((fun z => (f z).2)^[k] s)).1) ⁻¹' Set.pi s t
      = {s' | ∀ k < m, (f ((fun z => (f z).2)^[k] s')).1 ∈ (if k ∈ s then t k else Set.univ)} := by
    ext s'
    simp only [Set.mem_preimage, Set.mem_pi, Finset.mem_coe, Set.mem_ofPred_eq]
    constructor
    · intro h k _
      split_ifs with hk
      · exact h k hk
      · trivial
    · intro h k hk
      have := h k (Finset.mem_range.1 (hms hk))
      rwa [if_pos hk] at this
  rw [e, this, ← Finset.prod_subset hms]
  · exact Finset.prod_congr rfl fun k hk => by rw [if_pos hk]
  · intro k _ hk
    rw [if_neg hk, measure_univ]

end Mfs.Lemmas

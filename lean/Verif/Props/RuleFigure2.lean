import Verif.Model.RuleFigure2
import Verif.Props.RuleFigure
import Verif.Props.DecoupledConverge
import Verif.Props.ConvergeNDGauss

/-!
# C199: the rules drawn by `plot_quadrature_rules_2d.py`
-/

namespace Mfs.Props

open Matrix Mfs.MultiIndex Mfs.QuadND Mfs.Spec Mfs.Quad1 Mfs.Plots Mfs.MomentsND Mfs.Converge MeasureTheory ProbabilityTheory Filter Topology

variable {d N : ℕ} {basis full : List (List ℕ)} {mats : List (List (List ℤ))}

/-! ## The marks -/

theorem le_maxAbsWeight (rule : List (ℝ × List ℝ)) : ∀ p ∈ rule, |p.1| ≤ maxAbsWeight rule := by
  induction rule with
  | nil => simp
  | cons q rule ih =>
    intro p hp
    rw [maxAbsWeight, List.map_cons, List.foldr_cons]
    rcases List.mem_cons.1 hp with rfl | hp
    · exact le_max_left _ _
    · exact (ih p hp).trans (le_max_right _ _)

theorem maxAbsWeight_mem (rule : List (ℝ × List ℝ)) (h : 0 < maxAbsWeight rule) : ∃ p ∈ rule, |p.1| = maxAbsWeight rule := by
  induction rule with
  | nil => simp [maxAbsWeight] at h
  | cons q rule ih =>
    have e : maxAbsWeight (q :: rule) = max |q.1| (maxAbsWeight rule) := rfl
    rw [e] at h ⊢
    rcases le_total |q.1| (maxAbsWeight rule) with hle | hle
    · rw [max_eq_right hle] at h ⊢
      obtain ⟨p, hp, he⟩ := ih h
      exact ⟨p, List.mem_cons_of_mem _ hp, he⟩
    · exact ⟨q, List.mem_cons_self, (max_eq_left hle).symm⟩

/-- **C199 (marks).** For every rule whose weights sum to one, the largest absolute weight is positive, so the division is defined; the weights drawn are the
weights of the rule divided by it, at the same nodes; they lie in `[-1, 1]` and one of them is `1` or `-1`. In the panels of the Gaussian sum
and of the polygon every node is drawn exactly once, at least one of them as a round mark of positive size, and all sizes lie between zero and `size`. -/
theorem C199_marks (rule : List (ℝ × List ℝ)) (hsum : (rule.map (·.1)).sum = 1) (size : ℝ) (hsize : 0 < size) :
    let c := maxAbsWeight rule
    let drawn := figNormalise rule
    (1 / rule.length : ℝ) ≤ c ∧ 0 < c ∧ drawn.map (·.2) = rule.map (·.2) ∧ (drawn.map fun p => p.1 * c) = rule.map (·.1) ∧
    (∀ p ∈ drawn, |p.1| ≤ 1) ∧ (∃ p ∈ drawn, |p.1| = 1) ∧
    (marksGe drawn ++ marksNeg drawn).Perm drawn ∧ (∃ s ∈ roundSizes size (marksGe drawn), 0 < s) ∧
    (∀ s ∈ roundSizes size (marksGe drawn), 0 ≤ s ∧ s ≤ size) ∧ ∀ s ∈ crossSizes size (marksNeg drawn), 0 < s ∧ s ≤ size := by
  intro c drawn
  have hle := le_maxAbsWeight rule
  have hex : ∃ p ∈ rule, 0 < p.1 := by
    by_contra h
    push Not at h
    have : (rule.map (·.1)).sum ≤ rule.length * 0 := by
      have := List.sum_le_card_nsmul (rule.map (·.1)) 0 fun x hx => by
        obtain ⟨p, hp, rfl⟩ := List.mem_map.1 hx
        exact h p hp
      simpa using this
    linarith
  obtain ⟨p0, hp0, hpos⟩ := hex
  have hc : 0 < c := hpos.trans_le ((le_abs_self _).trans (hle p0 hp0))
  have hb : ∀ p ∈ drawn, |p.1| ≤ 1 := by
    intro p hp
    obtain ⟨q, hq, rfl⟩ := List.mem_map.1 hp
    rw [abs_div, abs_of_pos hc]
    exact (div_le_one hc).2 (hle q hq)
  refine ⟨?_, hc, ?_, ?_, hb, ?_, ?_, ?_, ?_, ?_⟩
  · have h1 : (rule.map (·.1)).sum ≤ rule.length * c := by
      have := List.sum_le_card_nsmul (rule.map (·.1)) c fun x hx => by
        obtain ⟨p, hp, rfl⟩ := List.mem_map.1 hx
        exact (le_abs_self _).trans (hle p hp)
      simpa using this
    have h2 : (0 : ℝ) < rule.length := by exact_mod_cast List.length_pos_of_mem hp0
    rw [div_le_iff₀ h2]
    linarith
  · simp [drawn, figNormalise]
  · simp only [drawn, figNormalise, List.map_map]
    exact List.map_congr_left fun p _ => div_mul_cancel₀ _ hc.ne'
  · obtain ⟨p, hp, he⟩ := maxAbsWeight_mem rule hc
    refine ⟨_, List.mem_map_of_mem hp, ?_⟩
    change |p.1 / c| = 1
    rw [abs_div, he, abs_of_pos hc]
    exact div_self hc.ne'
  · have h := List.filter_append_perm (fun p : ℝ × List ℝ => decide (0 ≤ p.1)) drawn
    refine (List.Perm.of_eq ?_).trans h
    rw [marksGe, marksNeg]
    congr 1
    refine List.filter_congr fun p _ => ?_
    rw [← decide_not]
    simp only [not_le]
  · refine ⟨_, List.mem_map_of_mem (List.mem_filter.2 ⟨List.mem_map_of_mem hp0, ?_⟩), ?_⟩
    · simpa using (div_pos hpos hc).le
    · exact mul_pos (div_pos hpos hc) hsize
  · intro s hs
    obtain ⟨p, hp, rfl⟩ := List.mem_map.1 hs
    obtain ⟨h1, h2⟩ := List.mem_filter.1 hp
    have h2 : 0 ≤ p.1 := by simpa using h2
    exact ⟨mul_nonneg h2 hsize.le, mul_le_of_le_one_left hsize.le ((le_abs_self _).trans (hb p h1))⟩
  · intro s hs
    obtain ⟨p, hp, rfl⟩ := List.mem_map.1 hs
    obtain ⟨h1, h2⟩ := List.mem_filter.1 hp
    have h2 : p.1 < 0 := by simpa using h2
    exact ⟨mul_pos (by linarith) hsize, mul_le_of_le_one_left hsize.le ((neg_le_abs _).trans (hb p h1))⟩

/-- **C199 (marks of the uniform law).** In the panel of the uniform law every node is drawn, and it is drawn twice exactly if its normalised weight is not zero
and below the tolerance in absolute value. -/
theorem C199_box_marks (tol : ℝ) (htol : 0 < tol) (drawn : List (ℝ × List ℝ)) :
    (∀ p ∈ drawn, p ∈ marksGt drawn ∨ p ∈ marksNeg drawn ∨ p ∈ marksZero tol drawn) ∧
    ∀ p ∈ drawn, ((p ∈ marksGt drawn ∨ p ∈ marksNeg drawn) ∧ p ∈ marksZero tol drawn ↔ p.1 ≠ 0 ∧ |p.1| < tol) := by
  refine ⟨fun p hp => ?_, fun p hp => ?_⟩
  · rcases lt_trichotomy p.1 0 with h | h | h
    · exact Or.inr (Or.inl (List.mem_filter.2 ⟨hp, by simpa using h⟩))
    · exact Or.inr (Or.inr (List.mem_filter.2 ⟨hp, by simpa [h] using htol⟩))
    · exact Or.inl (List.mem_filter.2 ⟨hp, by simpa using h⟩)
  · simp only [marksGt, marksNeg, marksZero, List.mem_filter, hp, true_and, decide_eq_true_eq]
    rw [← or_comm, ← ne_iff_lt_or_gt]

/-- **C199, refutation.** The three kinds of marks of the uniform law do not exclude one another: with weights of sum one, a node can be drawn both as a round mark and
as a triangle. -/
theorem C199_box_marks_refuted : ∃ rule : List (ℝ × List ℝ), (rule.map (·.1)).sum = 1 ∧
    ∃ p ∈ figNormalise rule, p ∈ marksGt (figNormalise rule) ∧ p ∈ marksZero 1e-8 (figNormalise rule) := by
  refine ⟨[(1 - 1e-9, [0, 0]), (1e-9, [1, 1])], by norm_num, ?_⟩
  have hc : maxAbsWeight [((1 - 1e-9 : ℝ), [0, 0]), (1e-9, [1, 1])] = 1 - 1e-9 := by
    simp only [maxAbsWeight, List.map_cons, List.map_nil, List.foldr_cons, List.foldr_nil]
    norm_num
  have hm : ((1e-9 : ℝ) / (1 - 1e-9), ([1, 1] : List ℝ)) ∈ figNormalise [((1 - 1e-9 : ℝ), [0, 0]), (1e-9, [1, 1])] := by
    rw [figNormalise, hc]; simp
  refine ⟨_, hm, List.mem_filter.2 ⟨hm, ?_⟩, List.mem_filter.2 ⟨hm, ?_⟩⟩
  · simp only [decide_eq_true_eq]; norm_num
  · simp only [decide_eq_true_eq]; rw [abs_of_pos] <;> norm_num

/-! ## The uniform law on a box -/

/-- the total weight of a rule at a point. -/
noncomputable def massAt (rule : List (ℝ × List ℝ)) (x : List ℝ) : ℝ := integND rule fun z => if z = x then 1 else 0

/-- the weight of a one-dimensional rule at a point. -/
noncomputable def massAt1 {n : ℕ} (r : (Fin n → ℝ) × (Fin n → ℝ)) (x : ℝ) : ℝ := ∑ i, if r.2 i = x then r.1 i else 0

theorem massAt1_pos_iff {n : ℕ} (r : (Fin n → ℝ) × (Fin n → ℝ)) (hr : ∀ i, 0 < r.1 i) (x : ℝ) :
    0 ≤ massAt1 r x ∧ (0 < massAt1 r x ↔ ∃ i, r.2 i = x) := by
  have h0 : ∀ i ∈ Finset.univ, 0 ≤ if r.2 i = x then r.1 i else 0 := fun i _ => by
    split_ifs
    · exact (hr i).le
    · exact le_rfl
  refine ⟨Finset.sum_nonneg h0, fun h => ?_, fun ⟨i, hi⟩ => Finset.sum_pos' h0 ⟨i, Finset.mem_univ i, by rw [if_pos hi]; exact hr i⟩⟩
  by_contra hn
  push Not at hn
  rw [massAt1, Finset.sum_eq_zero fun i _ => if_neg (hn i)] at h
  exact lt_irrefl _ h

theorem Tables.shape (T : Tables N d basis full mats) : mats.length = d + 1 ∧ (mats.getD 0 []).length = basis.length ∧ 0 < basis.length := by
  have hN : 1 ≤ N := by have := T.hN; omega
  obtain ⟨b', f', m', h1, h2, h3, h4, h5, -⟩ := C05_gram_hankel_indices N d hN T.hd
  rw [T.basis_eq] at h1; cases h1
  rw [T.mats_eq] at h3; cases h3
  refine ⟨h4, ?_, List.length_pos_of_mem (T.mem_basis.2 (show IsMultiIndex d (N - 1) 0 (List.replicate d 0) from ⟨by simp, by simp, by simp⟩))⟩
  rw [List.getD_eq_getElem _ _ (by omega)]
  exact (h5 _ (List.getElem_mem _)).1

theorem Tables.rule_length (T : Tables N d basis full mats) (B : Backend) (ms : List ℝ) (mean scale : Option (List ℝ)) (sort ldl : Bool) :
    (momentQuadratureND B ms mats mean scale sort ldl).length = basis.length ^ d := by
  obtain ⟨h1, h2, h3⟩ := T.shape
  rw [momentQuadratureND, quadCore_affine, List.length_map, quadCore_length B (by rw [h2]; exact h3), h1, h2]
  simp

theorem Tables.weights_sum (T : Tables N d basis full mats) (B : Backend) (hB : B.Valid) (ms : List ℝ) (mean scale : Option (List ℝ)) (sort ldl : Bool) :
    ((momentQuadratureND B ms mats mean scale sort ldl).map (·.1)).sum = 1 := by
  obtain ⟨h1, h2, h3⟩ := T.shape
  exact C22_nd_weights_sum_one B hB ms mats (by have := T.hd; omega) (by rw [h2]; exact h3) mean scale sort ldl

/-- the condition of `C199_marks` holds for the rules of all three panels. -/
theorem C199_panels (B : Backend) (hB : B.Valid) (T : Tables N d basis full mats) (comps : List (Component d)) (bounds : List (ℝ × ℝ))
    (polytope : (Fin d → ℕ) → ℝ) : ((figGaussianSumRule B comps full mats).map (·.1)).sum = 1 ∧
      ((figBoxRule B bounds full mats).map (·.1)).sum = 1 ∧ ((figPolygonRule B polytope full mats).map (·.1)).sum = 1 :=
  ⟨T.weights_sum B hB _ _ _ _ _, T.weights_sum B hB _ _ _ _ _, T.weights_sum B hB _ _ _ _ _⟩

/-- **C199 (uniform law).** The rule drawn for the uniform law on a box has `z ^ d` nodes, `z` the number of multi-indices of order below `N`. Its total weight at a point is the product
of the weights of the Gauss–Legendre rules of order `N` of the sides, hence never negative, and positive exactly if every coordinate is a zero of the Legendre
polynomial carried to its side; all these points lie strictly inside the box. All other drawn nodes carry total weight zero. -/
theorem C199_box (B : Backend) (hB : B.Valid) (T : Tables N d basis full mats) (a b : Fin d → ℝ) (hab : ∀ j, a j < b j) :
    let rule := figBoxRule B (List.ofFn fun j => (a j, b j)) full mats
    rule.length = basis.length ^ d ∧ ∀ x : Fin d → ℝ,
      massAt rule (List.ofFn x) = ∏ j, massAt1 (figUniformRule B (a j) (b j) N) (x j) ∧ 0 ≤ massAt rule (List.ofFn x) ∧
      (0 < massAt rule (List.ofFn x) ↔ ∀ j, (legPoly N).eval ((2 * x j - a j - b j) / (b j - a j)) = 0) ∧
      (0 < massAt rule (List.ofFn x) → ∀ j, a j < x j ∧ x j < b j) := by
  intro rule
  have hN : 1 ≤ N := by have := T.hN; omega
  have hprob := fun j => uniform_prob (hab j)
  have hG := fun j => C191_uniform B hB (hab j) N hN
  have hok : ∀ j, CoordOk N (figUniformRms (a j) (b j) N) := by
    intro j
    have he : figUniformRms (a j) (b j) N = (List.range (2 * N)).map fun k => ∫ x, ((x - 0) / 1) ^ k ∂Converge.uniformLaw (a j) (b j) := by
      apply List.ext_getElem
      · simp [figUniformRms]
      · intro k h1 h2
        have := figUniform_moment (hab j) N k h1
        rw [List.getD_eq_getElem _ _ h1] at this
        simp [this]
    refine ⟨figUniform_length _ _ _, ?_, ?_⟩
    · rw [figUniform_moment (hab j) N 0 (by rw [figUniform_length]; omega)]
      simp
    · rw [he]
      exact gramOf_law_posDef (fun c => uniform_integrable _ _ (by fun_prop)) (ac_inf (uniform_ac _ _)) 0 1 one_ne_zero _
  have hmem := mem_full hN T.hd T.full_eq
  have hmap : (full.map fun α => momentsNdUniform (List.ofFn fun j => (a j, b j)) α)
      = full.map fun α => ∏ j : Fin d, (figUniformRms (a j) (b j) N).getD (α.getD j 0) 0 := by
    refine List.map_congr_left fun α hα => ?_
    obtain ⟨hl, hlt⟩ := hmem.1 α hα
    rw [momentsNdUniform, ← List.prod_ofFn]
    congr 1
    apply List.ext_getElem
    · simp [hl]
    · intro n h1 h2
      have hn : n < d := by simpa using h2
      have hm := figUniform_moment (hab ⟨n, hn⟩) N (α.getD n 0) (by rw [figUniform_length]; exact hlt ⟨n, hn⟩)
      rw [List.getElem_ofFn]
      simp only [hm, uniform_integral (hab _), integral_pow]
      simp only [Option.getD_none, List.getElem_map, List.getElem_zip, List.getElem_ofFn, List.getElem_replicate, sub_zero]
      rw [List.getD_eq_getElem _ _ (by rw [hl]; exact hn)]
      have : b ⟨n, hn⟩ - a ⟨n, hn⟩ ≠ 0 := (sub_pos.2 (hab _)).ne'
      field_simp
  have hmass : ∀ x : Fin d → ℝ, massAt rule (List.ofFn x) = ∏ j, massAt1 (figUniformRule B (a j) (b j) N) (x j) := by
    intro x
    have h := (rule_prod B hB N hN T.hd full mats T.full_eq T.mats_eq (fun j => figUniformRms (a j) (b j) N) hok false
      (fun z => if z = List.ofFn x then 1 else 0) (fun j t => if t = x j then 1 else 0) (fun z => by
        rw [Finset.prod_ite_zero]
        simp only [Finset.mem_univ, true_imp_iff, List.ofFn_inj, funext_iff, Finset.prod_const_one])).1
    rw [massAt]
    change integND (momentQuadratureND B (full.map fun α => momentsNdUniform (List.ofFn fun j => (a j, b j)) α) mats none none false false) _ = _
    rw [hmap, h]
    refine Finset.prod_congr rfl fun j _ => ?_
    rw [integ, massAt1]
    refine Finset.sum_congr rfl fun i _ => ?_
    rw [mul_ite, mul_one, mul_zero]
    rfl
  have hp1 := fun j x => massAt1_pos_iff (figUniformRule B (a j) (b j) N) (hG j).1.pos x
  have hiff : ∀ x : Fin d → ℝ, 0 < massAt rule (List.ofFn x) ↔ ∀ j, ∃ i, (figUniformRule B (a j) (b j) N).2 i = x j := by
    intro x
    rw [hmass]
    refine ⟨fun h j => (hp1 j (x j)).2.1 (lt_of_le_of_ne (hp1 j (x j)).1 fun h0 => ?_), fun h => Finset.prod_pos fun j _ => (hp1 j (x j)).2.2 (h j)⟩
    rw [Finset.prod_eq_zero (Finset.mem_univ j) h0.symm] at h
    exact lt_irrefl _ h
  refine ⟨?_, fun x => ⟨hmass x, ?_, ?_, ?_⟩⟩
  · exact T.rule_length B _ none none false false
  · rw [hmass]
    exact Finset.prod_nonneg fun j _ => (hp1 j (x j)).1
  · rw [hiff]
    exact forall_congr' fun j => ((hG j).2.2 (x j)).symm
  · rw [hiff]
    intro h j
    obtain ⟨i, hi⟩ := h j
    rw [← hi]
    exact (hG j).2.1 i

/-! ## The uniform law on a polygon -/

/-- no polynomial but zero vanishes almost everywhere on a set with interior points. -/
theorem poly_ne_of_interior (S : Set (Fin d → ℝ)) (hint : (interior S).Nonempty) (q : MvPolynomial (Fin d) ℝ)
    (hq : ∀ᵐ x ∂volume.restrict S, MvPolynomial.eval x q = 0) : q = 0 := by
  have hU : ∀ x ∈ interior S, MvPolynomial.eval x q = 0 := by
    have h1 : ∀ᵐ x ∂volume.restrict (interior S), MvPolynomial.eval x q = 0 :=
      ae_restrict_of_ae_restrict_of_subset interior_subset hq
    have h2 := (MvPolynomial.continuous_eval q).continuousOn (s := interior S)
    have h3 := Measure.eqOn_open_of_ae_eq (f := fun x => MvPolynomial.eval x q) (g := fun _ => 0) h1 isOpen_interior h2 continuousOn_const
    exact fun x hx => h3 hx
  obtain ⟨x0, hx0⟩ := hint
  obtain ⟨ε, hε, hb⟩ := Metric.isOpen_iff.1 isOpen_interior x0 hx0
  have := MvPolynomial.funext_set (p := q) (q := 0) (fun j => Metric.ball (x0 j) ε) (fun j => by
    rw [Real.ball_eq_Ioo]
    exact Set.Ioo_infinite (by linarith)) fun x hx => by
      rw [map_zero]
      refine hU x (hb ?_)
      rw [ball_pi x0 hε]
      exact hx
  exact this

/-- **C199 (polygon).** Let `S` be a bounded region with interior points and let the integration routine return the integrals of the monomials over `S` up to a common factor
which is not zero (the orientation of the vertices gives the sign). Then the rule drawn for the polygon reproduces all moments of order below `2 N` of the uniform law on `S`, and its nodes lie
in every box containing `S`. -/
theorem C199_polygon (B : Backend) (hB : B.Valid) (T : Tables N d basis full mats) (S : Set (Fin d → ℝ)) (hS : MeasurableSet S) (hne : (interior S).Nonempty)
    (lo hi : Fin d → ℝ) (hbox : S ⊆ Set.Icc lo hi) (ε : ℝ) (hε : ε ≠ 0) (polytope : (Fin d → ℕ) → ℝ)
    (hpoly : ∀ α, polytope α = ε * ∫ x in S, ∏ j, x j ^ α j) :
    let rule := figPolygonRule B polytope full mats
    (∀ α, IsMultiIndex d (2 * N - 1) 0 α →
      integND rule (fun x => monomial x α) = ∫ x, ∏ j, x j ^ α.getD j 0 ∂ProbabilityTheory.cond volume S) ∧
    ∀ p ∈ rule, p.2.length = d ∧ ∀ j : Fin d, p.2.getD j 0 ∈ Set.Icc (lo j) (hi j) := by
  intro rule
  have hfin : volume S ≠ ⊤ := (measure_mono hbox |>.trans_lt isCompact_Icc.measure_lt_top).ne
  have hpos : volume S ≠ 0 := fun h => (isOpen_interior.measure_pos volume hne).ne' (measure_mono_null interior_subset h)
  have hprob : IsProbabilityMeasure (ProbabilityTheory.cond volume S) := cond_isProbabilityMeasure_of_finite hpos hfin
  set μ := ProbabilityTheory.cond volume S with hμ
  have hI : ∀ f : (Fin d → ℝ) → ℝ, ∫ x, f x ∂μ = (∫ x in S, f x) / volume.real S := by
    intro f
    rw [hμ, ProbabilityTheory.cond, integral_smul_measure, ENNReal.toReal_inv, smul_eq_mul, div_eq_inv_mul]
    rfl
  have hr : volume.real S ≠ 0 := by
    rw [Measure.real, ENNReal.toReal_ne_zero]
    exact ⟨hpos, hfin⟩
  have hmom : (fun α : List ℕ => polytope (fun j => α.getD j 0) / polytope fun _ => 0) = fun α => ∫ x, ∏ j, x j ^ α.getD j 0 ∂μ := by
    funext α
    rw [hpoly, hpoly, hI, mul_div_mul_left _ _ hε]
    congr 1
    simp [Measure.real]
  have hsupp : μ (Set.Icc lo hi)ᶜ = 0 := by
    have h0 : μ Sᶜ = 0 := by rw [hμ, ProbabilityTheory.cond_apply hS]; simp
    exact measure_mono_null (Set.compl_subset_compl.2 hbox) h0
  have hz : ∀ q : MvPolynomial (Fin d) ℝ, (∀ᵐ x ∂μ, MvPolynomial.eval x q = 0) → q = 0 := by
    intro q hq
    refine poly_ne_of_interior S hne q ?_
    rw [hμ, ProbabilityTheory.cond, Measure.ae_ennreal_smul_measure_eq (ENNReal.inv_ne_zero.2 hfin)] at hq
    exact hq
  have hpd := C143_gram_posDef T μ lo hi hsupp hz
  have hrule : rule = momentQuadratureND B (full.map fun α => ∫ x, ∏ j, x j ^ α.getD j 0 ∂μ) mats none none false false := by
    change momentQuadratureND B (full.map fun α => polytope (fun j => α.getD j 0) / polytope fun _ => 0) mats none none false false = _
    rw [hmom]
  rw [hrule]
  refine ⟨fun α hα => ?_, C140_nd_nodes_in_box B hB T μ lo hi hsupp _ (fun _ _ => rfl) hpd false false⟩
  rw [(C21_nd_reproduces B hB N d (by have := T.hN; omega) T.hd _ basis full mats T.basis_eq T.full_eq T.mats_eq hpd false false).1 α hα]
  have h1 : ∫ x, ∏ j : Fin d, x j ^ (List.replicate d 0).getD j 0 ∂μ = 1 := by simp [List.getD_eq_getElem?_getD]
  rw [h1, div_one]

/-! ## The Gaussian sum -/

/-- **C199 (Gaussian sum).** The rule drawn for the Gaussian sum reproduces all moments of order below `2 N` of the mixture, if the covariances are positive definite. -/
theorem C199_gaussian_sum (B : Backend) (hB : B.Valid) (T : Tables N d basis full mats) (comps : List (Component d)) (hw : ∀ c ∈ comps, 0 ≤ c.weight)
    (h1 : (comps.map (·.weight)).sum = 1) (hcov : ∀ c ∈ comps, c.cov.PosDef) (α : List ℕ) (hα : IsMultiIndex d (2 * N - 1) 0 α) :
    integND (figGaussianSumRule B comps full mats) (fun x => monomial x α) = ∫ x, ∏ j, x j ^ α.getD j 0 ∂mixtureND comps := by
  have := gaussSumLaw_prob comps hw h1
  have hps : ∀ c ∈ comps, c.cov.PosSemidef := fun c h => (hcov c h).posSemidef
  have hint := StrongND.integrable_poly (μ := gaussSumLaw comps) ⟨1, one_pos, gaussSumLaw_exp comps hw hps⟩
  have hpd := gram_posDef_of_integrable T (gaussSumLaw comps) hint (gaussSumLaw_ne comps hw h1 hcov)
  have hm : ∀ φ : (Fin d → ℝ) → ℝ, Continuous φ → ∫ x, φ x ∂gaussSumLaw comps = ∫ x, φ (WithLp.ofLp x) ∂mixtureND comps := fun φ hφ =>
    integral_map measurable_ofLp.aemeasurable hφ.aestronglyMeasurable
  set m : Fin d → ℝ := fun j => ∫ x, x j ∂mixtureND comps with hmm
  have hraw : (fun α : List ℕ => ∫ x, ∏ j : Fin d, x j ^ α.getD j 0 ∂gaussSumLaw comps) = polyMoment (lawL (gaussSumLaw comps) hint) rawCoord := by
    funext α
    simp [polyMoment, lawL, rawCoord]
  have hcen : (fun α : List ℕ => ∫ x, ∏ j : Fin d, (x j - m j) ^ α.getD j 0 ∂gaussSumLaw comps)
      = polyMoment (lawL (gaussSumLaw comps) hint) (centralCoord (List.ofFn m)) := by
    funext α
    simp [polyMoment, lawL, centralCoord]
  rw [hraw] at hpd
  have hN : 1 ≤ N := by have := T.hN; omega
  have hrule : figGaussianSumRule B comps full mats
      = momentQuadratureND B (full.map (polyMoment (lawL (gaussSumLaw comps) hint) (centralCoord (List.ofFn m)))) mats (some (List.ofFn m)) none false false := by
    have hmean : (GaussianSumND.new comps (full.map fun α (j : Fin d) => α.getD j 0)).mean = m :=
      funext fun i => (C66_gaussian_sum comps hw h1 hps _).2.1 i
    rw [figGaussianSumRule]
    rw [show (GaussianSumND.new comps (full.map fun α (j : Fin d) => α.getD j 0)).cms = _ from (C66_gaussian_sum comps hw h1 hps _).2.2.2.2,
      List.map_map, hmean, ← hcen]
    congr 1
    refine List.map_congr_left fun α _ => ?_
    rw [hm _ (by fun_prop)]
    rfl
  rw [hrule, (C85_nd_raw_central_scaled B hB N hN T.hd (lawL (gaussSumLaw comps) hint) (List.ofFn m) (List.replicate d 1) (by simp) (by simp)
    (fun t ht => by rw [List.eq_of_mem_replicate ht]; exact one_pos) basis full mats T.basis_eq T.full_eq T.mats_eq hpd false false false false false false _).1,
    (C21_nd_reproduces B hB N d hN T.hd _ basis full mats T.basis_eq T.full_eq T.mats_eq hpd false false).1 α hα, ← hraw]
  have h1 : ∫ x, ∏ j : Fin d, x j ^ (List.replicate d 0).getD j 0 ∂gaussSumLaw comps = 1 := by simp [List.getD_eq_getElem?_getD]
  beta_reduce
  rw [h1, div_one, hm _ (by fun_prop)]

/-! ## Cases -/

/-- a rule with a negative weight, as they occur (C113). -/
example : (([(2, [0, 0]), (-1, [1, 1])] : List (ℝ × List ℝ)).map (·.1)).sum = 1 := by norm_num

/-- the parameters of the script: tables for `N = 2, 4, 6`, the bounds of the uniform law, the covariances of the Gaussian sum, and a region with interior points. -/
example : (∀ N : ℕ, 2 ≤ N → ∃ basis full mats, Tables N 2 basis full mats) ∧ (∀ j : Fin 2, ![(-4 : ℝ), -3] j < ![4, 4] j) ∧
    (!![(0.2 : ℝ), 0.1; 0.1, 1]).PosDef ∧ (!![(2 : ℝ), 0.2; 0.2, 0.3]).PosDef ∧ (!![(0.5 : ℝ), 0; 0, 1]).PosDef ∧ (0.4 + 0.4 + 0.2 : ℝ) = 1 ∧
    (interior (Set.Icc (![-1, -1] : Fin 2 → ℝ) ![1, 1])).Nonempty := by
  have hpd : ∀ a b c : ℝ, 0 < a → 0 < a * c - b * b → (!![a, b; b, c]).PosDef := by
    intro a b c ha hdet
    refine Matrix.PosDef.of_dotProduct_mulVec_pos ?_ fun x hx => ?_
    · ext i j
      fin_cases i <;> fin_cases j <;> simp
    · have hx' : x 0 ≠ 0 ∨ x 1 ≠ 0 := by
        by_contra h
        push Not at h
        apply hx
        ext i; fin_cases i
        · exact h.1
        · exact h.2
      simp [Matrix.mulVec, dotProduct, Fin.sum_univ_two]
      have h1 : a * (x 0 * (a * x 0 + b * x 1) + x 1 * (b * x 0 + c * x 1)) = (a * x 0 + b * x 1) ^ 2 + (a * c - b * b) * x 1 ^ 2 := by ring
      have h2 : 0 < (a * x 0 + b * x 1) ^ 2 + (a * c - b * b) * x 1 ^ 2 := by
        by_cases h : x 1 = 0
        · have h0 : x 0 ≠ 0 := hx'.resolve_right (not_not.2 h)
          rw [h]
          have : 0 < (a * x 0) ^ 2 := by positivity
          simpa using this
        · have := mul_pos hdet (by positivity : 0 < x 1 ^ 2)
          positivity
      rw [← h1] at h2
      exact pos_of_mul_pos_right h2 ha.le
  refine ⟨fun N hN => ?_, fun j => by fin_cases j <;> norm_num, hpd _ _ _ (by norm_num) (by norm_num), hpd _ _ _ (by norm_num) (by norm_num),
    hpd _ _ _ (by norm_num) (by norm_num), by norm_num, ⟨0, ?_⟩⟩
  · obtain ⟨b, f, m, h1, h2, h3, _⟩ := C05_gram_hankel_indices N 2 (by omega) (by norm_num)
    exact ⟨b, f, m, ⟨hN, by norm_num, h1, h2, h3⟩⟩
  · rw [← Set.pi_univ_Icc, interior_pi_set Set.finite_univ]
    intro j _
    beta_reduce
    rw [interior_Icc]
    fin_cases j <;> norm_num

end Mfs.Props

import Verif.Lemmas.StepPoly
import Verif.Props.RuleError

/-!
# C203: the weights of the rule bracket the distribution function of every law with the given moments

The inequalities of Chebyshev, Markov and Stieltjes for `moment_quadrature`: the sums of the weights to the left of a node, without and
with the node, are a lower and an upper bound of the probability of the half line for every law with these moments, so that the
cumulative weights differ from its distribution function nowhere by more than the largest weight.
-/

namespace Mfs.Props

open Mfs.Spec Mfs.Quad1 Mfs.Converge Mfs.Moments1 Mfs.StepPoly Polynomial MeasureTheory ProbabilityTheory

section

variable {n : ℕ} (μ : Measure ℝ) [IsProbabilityMeasure μ] (r : (Fin n → ℝ) × (Fin n → ℝ))

theorem nodes_split (k : Fin n) :
    (((Finset.univ.filter fun i => r.2 i < r.2 k).toList.map r.2).length +
      ((Finset.univ.filter fun i => r.2 k < r.2 i).toList.map r.2).length) + 1 ≤ n := by
  simp only [List.length_map, Finset.length_toList]
  have hd : Disjoint (Finset.univ.filter fun i => r.2 i < r.2 k) (Finset.univ.filter fun i => r.2 k < r.2 i) := by
    rw [Finset.disjoint_left]
    intro i h1 h2
    exact lt_asymm (Finset.mem_filter.1 h1).2 (Finset.mem_filter.1 h2).2
  rw [← Finset.card_union_of_disjoint hd]
  have hk : k ∉ (Finset.univ.filter fun i => r.2 i < r.2 k) ∪ (Finset.univ.filter fun i => r.2 k < r.2 i) := by simp
  have := Finset.card_le_univ (insert k ((Finset.univ.filter fun i => r.2 i < r.2 k) ∪ (Finset.univ.filter fun i => r.2 k < r.2 i)))
  rwa [Finset.card_insert_of_notMem hk, Fintype.card_fin] at this

variable {μ r}

theorem cms_upper (he : Exact μ r) (hμ : ∀ k ≤ 2 * n, Integrable (fun x : ℝ => x ^ k) μ) (k : Fin n) :
    μ.real (Set.Iic (r.2 k)) ≤ ∑ i with r.2 i ≤ r.2 k, r.1 i := by
  have hs := nodes_split r k
  obtain ⟨P, hd, hA, hc, hB, h1, h0⟩ := exists_majorant ((Finset.univ.filter fun i => r.2 i < r.2 k).toList.map r.2)
    ((Finset.univ.filter fun i => r.2 k < r.2 i).toList.map r.2) (r.2 k)
    (fun a ha => by obtain ⟨i, hi, rfl⟩ := List.mem_map.1 ha; simpa using hi)
    (fun a ha => by obtain ⟨i, hi, rfl⟩ := List.mem_map.1 ha; simpa using hi)
  have hex := he P (by omega)
  have hsum : integ r (fun x => P.eval x) = ∑ i with r.2 i ≤ r.2 k, r.1 i := by
    rw [integ, Finset.sum_filter]
    refine Finset.sum_congr rfl fun i _ => ?_
    rcases lt_trichotomy (r.2 i) (r.2 k) with h | h | h
    · rw [if_pos h.le, hA _ (List.mem_map.2 ⟨i, by simpa using h, rfl⟩), mul_one]
    · rw [if_pos h.le, h, hc, mul_one]
    · rw [if_neg (not_le.2 h), hB _ (List.mem_map.2 ⟨i, by simpa using h, rfl⟩), mul_zero]
  rw [← hsum, hex, ← integral_indicator_one measurableSet_Iic]
  refine integral_mono ((integrable_const (1 : ℝ)).indicator measurableSet_Iic) (integrable_poly_le hμ P (by omega)) fun x => ?_
  by_cases hx : x ≤ r.2 k
  · rw [Set.indicator_of_mem (show x ∈ Set.Iic (r.2 k) from hx)]
    exact h1 x hx
  · rw [Set.indicator_of_notMem (show x ∉ Set.Iic (r.2 k) from hx)]
    exact h0 x

theorem cms_lower (he : Exact μ r) (hμ : ∀ k ≤ 2 * n, Integrable (fun x : ℝ => x ^ k) μ) (k : Fin n) :
    ∑ i with r.2 i < r.2 k, r.1 i ≤ μ.real (Set.Iio (r.2 k)) := by
  have hs := nodes_split r k
  obtain ⟨P, hd, hA, hc, hB, h1, h0⟩ := exists_minorant ((Finset.univ.filter fun i => r.2 i < r.2 k).toList.map r.2)
    ((Finset.univ.filter fun i => r.2 k < r.2 i).toList.map r.2) (r.2 k)
    (fun a ha => by obtain ⟨i, hi, rfl⟩ := List.mem_map.1 ha; simpa using hi)
    (fun a ha => by obtain ⟨i, hi, rfl⟩ := List.mem_map.1 ha; simpa using hi)
  have hex := he P (by omega)
  have hsum : integ r (fun x => P.eval x) = ∑ i with r.2 i < r.2 k, r.1 i := by
    rw [integ, Finset.sum_filter]
    refine Finset.sum_congr rfl fun i _ => ?_
    rcases lt_trichotomy (r.2 i) (r.2 k) with h | h | h
    · rw [if_pos h, hA _ (List.mem_map.2 ⟨i, by simpa using h, rfl⟩), mul_one]
    · rw [if_neg h.not_lt, h, hc, mul_zero]
    · rw [if_neg h.not_gt, hB _ (List.mem_map.2 ⟨i, by simpa using h, rfl⟩), mul_zero]
  rw [← hsum, hex, ← integral_indicator_one measurableSet_Iio]
  refine integral_mono (integrable_poly_le hμ P (by omega)) ((integrable_const (1 : ℝ)).indicator measurableSet_Iio) fun x => ?_
  by_cases hx : x < r.2 k
  · rw [Set.indicator_of_mem (show x ∈ Set.Iio (r.2 k) from hx)]
    exact h0 x
  · rw [Set.indicator_of_notMem (show x ∉ Set.Iio (r.2 k) from hx)]
    exact h1 x (not_lt.1 hx)

/-- between the nodes. -/
theorem cdf_close (hr : PosRule r) (he : Exact μ r) (hμ : ∀ k ≤ 2 * n, Integrable (fun x : ℝ => x ^ k) μ) (W : ℝ) (hW : ∀ i, r.1 i ≤ W)
    (hn : 0 < n) (x : ℝ) : |μ.real (Set.Iic x) - ∑ i with r.2 i ≤ x, r.1 i| ≤ W := by
  classical
  have hW0 : 0 ≤ W := (hr.pos ⟨0, hn⟩).le.trans (hW _)
  have hsum1 : ∑ i with r.2 i ≤ x, r.1 i ≤ 1 := by
    rw [← hr.sum]
    exact Finset.sum_le_sum_of_subset_of_nonneg (Finset.filter_subset _ _) fun i _ _ => (hr.pos i).le
  rw [abs_le]
  constructor
  · -- lower bound by the last node to the left
    by_cases hL : (Finset.univ.filter fun i => r.2 i ≤ x).Nonempty
    · obtain ⟨k, hk, hmax⟩ := Finset.exists_max_image _ r.2 hL
      have hkx := (Finset.mem_filter.1 hk).2
      have h := cms_lower he hμ k
      have hsub : (Finset.univ.filter fun i => r.2 i ≤ x) = insert k (Finset.univ.filter fun i => r.2 i < r.2 k) := by
        ext i
        simp only [Finset.mem_filter, Finset.mem_univ, true_and, Finset.mem_insert]
        constructor
        · intro hi
          rcases (hmax i (by simpa using hi)).lt_or_eq with h | h
          · exact Or.inr h
          · exact Or.inl (hr.inj h)
        · rintro (rfl | h)
          · exact hkx
          · exact h.le.trans hkx
      rw [hsub, Finset.sum_insert (by simp)]
      have hm : μ.real (Set.Iio (r.2 k)) ≤ μ.real (Set.Iic x) := measureReal_mono fun y hy => (le_of_lt hy).trans hkx
      linarith [hW k]
    · rw [Finset.not_nonempty_iff_eq_empty.1 hL, Finset.sum_empty]
      linarith [measureReal_nonneg (μ := μ) (s := Set.Iic x)]
  · by_cases hR : (Finset.univ.filter fun i => x < r.2 i).Nonempty
    · obtain ⟨k, hk, hmin⟩ := Finset.exists_min_image _ r.2 hR
      have hkx := (Finset.mem_filter.1 hk).2
      have h := cms_upper he hμ k
      have hsub : (Finset.univ.filter fun i => r.2 i ≤ r.2 k) = insert k (Finset.univ.filter fun i => r.2 i ≤ x) := by
        ext i
        simp only [Finset.mem_filter, Finset.mem_univ, true_and, Finset.mem_insert]
        constructor
        · intro hi
          by_cases hix : r.2 i ≤ x
          · exact Or.inr hix
          · exact Or.inl (hr.inj (le_antisymm hi (hmin i (by simpa using hix))))
        · rintro (rfl | h)
          · exact le_rfl
          · exact h.trans hkx.le
      rw [hsub, Finset.sum_insert (by simpa using hkx)] at h
      have hm : μ.real (Set.Iic x) ≤ μ.real (Set.Iic (r.2 k)) := measureReal_mono (Set.Iic_subset_Iic.2 hkx.le)
      linarith [hW k]
    · have hall : (Finset.univ.filter fun i => r.2 i ≤ x) = Finset.univ := by
        ext i
        simp only [Finset.mem_filter, Finset.mem_univ, true_and, iff_true]
        by_contra hi
        exact hR ⟨i, by simpa using hi⟩
      rw [hall, hr.sum]
      linarith [measureReal_le_one (μ := μ) (s := Set.Iic x)]

end

theorem coin_posRule : PosRule (n := 2) (fun _ => 1 / 2, ![-1, 1]) where
  pos := fun _ => by norm_num
  sum := by norm_num
  inj := by
    intro i j h
    fin_cases i <;> fin_cases j <;> simp at h ⊢ <;> norm_num at h

theorem isProb_coin : IsProbabilityMeasure (ruleMeas (n := 2) (fun _ => 1 / 2, ![-1, 1])) := coin_posRule.isProb

variable (B : Backend) (hB : B.Valid) (μ : Measure ℝ) [IsProbabilityMeasure μ] (ms : List ℝ) (hl : 2 ≤ ms.length)
  (hμ : ∀ k ≤ 2 * (ms.length / 2), Integrable (fun x : ℝ => x ^ k) μ)
  (hcard : ∀ s : Finset ℝ, s.card < ms.length / 2 → μ (s : Set ℝ)ᶜ ≠ 0) (m s : ℝ) (hs : s ≠ 0)
  (hms : ∀ k < ms.length, ms.getD k 0 = ∫ x, ((x - m) / s) ^ k ∂μ) (sort ldl : Bool)

include hB hl hμ hcard hs hms

/-- C203. At every node, the weights before it and the weights up to it enclose the distribution function of the law from the left and from
the right. -/
theorem C203_brackets (k : Fin (ms.length / 2)) :
    let r := momentQuadrature B ms m s sort ldl
    ∑ i with r.2 i < r.2 k, r.1 i ≤ μ.real (Set.Iio (r.2 k)) ∧ μ.real (Set.Iic (r.2 k)) ≤ ∑ i with r.2 i ≤ r.2 k, r.1 i := by
  obtain ⟨hr, he⟩ := rule_of_card B hB μ ms hl hμ hcard m s hs hms sort ldl
  exact ⟨cms_lower he hμ k, cms_upper he hμ k⟩

/-- C203. The cumulative weights differ from the distribution function nowhere by more than the largest weight. -/
theorem C203_cdf (W : ℝ) (hW : ∀ i, (momentQuadrature B ms m s sort ldl).1 i ≤ W) (x : ℝ) :
    |μ.real (Set.Iic x) - ∑ i with (momentQuadrature B ms m s sort ldl).2 i ≤ x, (momentQuadrature B ms m s sort ldl).1 i| ≤ W := by
  obtain ⟨hr, he⟩ := rule_of_card B hB μ ms hl hμ hcard m s hs hms sort ldl
  exact cdf_close hr he hμ W hW (by omega) x

/-- C203. An open interval between two nodes has at least the probability of the weights inside, a closed one at most that of the weights
inside and at its ends. So the law has mass between any two nodes that are not neighbours. -/
theorem C203_intervals (k l : Fin (ms.length / 2)) (hkl : (momentQuadrature B ms m s sort ldl).2 k ≤ (momentQuadrature B ms m s sort ldl).2 l) :
    let r := momentQuadrature B ms m s sort ldl
    ∑ i with r.2 k < r.2 i ∧ r.2 i < r.2 l, r.1 i ≤ μ.real (Set.Ioo (r.2 k) (r.2 l)) ∧
    μ.real (Set.Icc (r.2 k) (r.2 l)) ≤ ∑ i with r.2 k ≤ r.2 i ∧ r.2 i ≤ r.2 l, r.1 i ∧
    ((∃ i, r.2 k < r.2 i ∧ r.2 i < r.2 l) → 0 < μ.real (Set.Ioo (r.2 k) (r.2 l))) := by
  intro r
  classical
  obtain ⟨hr, he⟩ := rule_of_card B hB μ ms hl hμ hcard m s hs hms sort ldl
  have hlk := cms_lower he hμ k
  have huk := cms_upper he hμ k
  have hll := cms_lower he hμ l
  have hul := cms_upper he hμ l
  change r.2 k ≤ r.2 l at hkl
  have h1 : ∑ i with r.2 k < r.2 i ∧ r.2 i < r.2 l, r.1 i ≤ μ.real (Set.Ioo (r.2 k) (r.2 l)) := by
    rcases hkl.lt_or_eq with hlt | heq
    · have e1 : ∑ i with r.2 i < r.2 l, r.1 i = ∑ i with r.2 i ≤ r.2 k, r.1 i + ∑ i with r.2 k < r.2 i ∧ r.2 i < r.2 l, r.1 i := by
        rw [← Finset.sum_union]
        · congr 1
          ext i
          simp only [Finset.mem_filter, Finset.mem_univ, true_and, Finset.mem_union]
          constructor
          · intro h
            rcases le_or_gt (r.2 i) (r.2 k) with h' | h'
            · exact Or.inl h'
            · exact Or.inr ⟨h', h⟩
          · rintro (h | h)
            · exact h.trans_lt hlt
            · exact h.2
        · rw [Finset.disjoint_left]
          intro i h2 h3
          exact absurd (Finset.mem_filter.1 h3).2.1 (not_lt.2 (Finset.mem_filter.1 h2).2)
      have e2 : μ.real (Set.Iio (r.2 l)) = μ.real (Set.Iic (r.2 k)) + μ.real (Set.Ioo (r.2 k) (r.2 l)) := by
        rw [← measureReal_union _ measurableSet_Ioo, Set.Iic_union_Ioo_eq_Iio hlt]
        rw [Set.disjoint_left]
        intro x h2 h3
        exact absurd h3.1 (not_lt.2 h2)
      rw [e1, e2] at hll
      linarith
    · have : (Finset.univ.filter fun i => r.2 k < r.2 i ∧ r.2 i < r.2 l) = ∅ := by
        rw [Finset.filter_eq_empty_iff]
        intro i _ h
        exact absurd (h.1.trans h.2) (by rw [heq]; exact lt_irrefl _)
      rw [this, Finset.sum_empty]
      exact measureReal_nonneg
  refine ⟨h1, ?_, fun ⟨i, hi⟩ => ?_⟩
  · have e1 : ∑ i with r.2 i ≤ r.2 l, r.1 i = ∑ i with r.2 i < r.2 k, r.1 i + ∑ i with r.2 k ≤ r.2 i ∧ r.2 i ≤ r.2 l, r.1 i := by
      rw [← Finset.sum_union]
      · congr 1
        ext i
        simp only [Finset.mem_filter, Finset.mem_univ, true_and, Finset.mem_union]
        constructor
        · intro h
          rcases lt_or_ge (r.2 i) (r.2 k) with h' | h'
          · exact Or.inl h'
          · exact Or.inr ⟨h', h⟩
        · rintro (h | h)
          · exact h.le.trans hkl
          · exact h.2
      · rw [Finset.disjoint_left]
        intro i h2 h3
        exact absurd (Finset.mem_filter.1 h3).2.1 (not_le.2 (Finset.mem_filter.1 h2).2)
    have e2 : μ.real (Set.Iic (r.2 l)) = μ.real (Set.Iio (r.2 k)) + μ.real (Set.Icc (r.2 k) (r.2 l)) := by
      rw [← measureReal_union _ measurableSet_Icc, Set.Iio_union_Icc_eq_Iic hkl]
      rw [Set.disjoint_left]
      intro x h2 h3
      exact absurd h3.1 (not_le.2 h2)
    rw [e1, e2] at hul
    linarith
  · refine lt_of_lt_of_le ?_ h1
    exact Finset.sum_pos (fun i _ => hr.pos i) ⟨i, by simpa using hi⟩

/-- C203. Two laws with the moments given differ in the probability of the half line up to a node by at most the weight of the node. -/
theorem C203_two_laws (ν : Measure ℝ) [IsProbabilityMeasure ν] (hν : ∀ k ≤ 2 * (ms.length / 2), Integrable (fun x : ℝ => x ^ k) ν)
    (hcard' : ∀ s : Finset ℝ, s.card < ms.length / 2 → ν (s : Set ℝ)ᶜ ≠ 0)
    (hms' : ∀ k < ms.length, ms.getD k 0 = ∫ x, ((x - m) / s) ^ k ∂ν) (k : Fin (ms.length / 2)) :
    |μ.real (Set.Iic ((momentQuadrature B ms m s sort ldl).2 k)) - ν.real (Set.Iic ((momentQuadrature B ms m s sort ldl).2 k))| ≤
      (momentQuadrature B ms m s sort ldl).1 k := by
  classical
  set r := momentQuadrature B ms m s sort ldl
  obtain ⟨hr, he⟩ := rule_of_card B hB μ ms hl hμ hcard m s hs hms sort ldl
  obtain ⟨hr', he'⟩ := rule_of_card B hB ν ms hl hν hcard' m s hs hms' sort ldl
  have h1 := cms_lower he hμ k
  have h2 := cms_upper he hμ k
  have h3 := cms_lower he' hν k
  have h4 := cms_upper he' hν k
  have hm : μ.real (Set.Iio (r.2 k)) ≤ μ.real (Set.Iic (r.2 k)) := measureReal_mono Set.Iio_subset_Iic_self
  have hn : ν.real (Set.Iio (r.2 k)) ≤ ν.real (Set.Iic (r.2 k)) := measureReal_mono Set.Iio_subset_Iic_self
  have e : ∑ i with r.2 i ≤ r.2 k, r.1 i = r.1 k + ∑ i with r.2 i < r.2 k, r.1 i := by
    have : (Finset.univ.filter fun i => r.2 i ≤ r.2 k) = insert k (Finset.univ.filter fun i => r.2 i < r.2 k) := by
      ext i
      simp only [Finset.mem_filter, Finset.mem_univ, true_and, Finset.mem_insert]
      rw [le_iff_lt_or_eq, or_comm]
      exact or_congr_left hr.inj.eq_iff
    rw [this, Finset.sum_insert (by simp)]
  rw [abs_le]
  constructor <;> linarith

/-- C203. The two bounds at a node cannot be improved: a law with the same moments attains both. -/
theorem C203_attained : ∃ ν : Measure ℝ, IsProbabilityMeasure ν ∧
    (∀ j < 2 * (ms.length / 2), Integrable (fun x => ((x - m) / s) ^ j) ν ∧ ∫ x, ((x - m) / s) ^ j ∂ν = ms.getD j 0) ∧
    ∀ k, ν.real (Set.Iio ((momentQuadrature B ms m s sort ldl).2 k)) =
        ∑ i with (momentQuadrature B ms m s sort ldl).2 i < (momentQuadrature B ms m s sort ldl).2 k, (momentQuadrature B ms m s sort ldl).1 i ∧
      ν.real (Set.Iic ((momentQuadrature B ms m s sort ldl).2 k)) =
        ∑ i with (momentQuadrature B ms m s sort ldl).2 i ≤ (momentQuadrature B ms m s sort ldl).2 k, (momentQuadrature B ms m s sort ldl).1 i := by
  classical
  obtain ⟨hr, he⟩ := rule_of_card B hB μ ms hl hμ hcard m s hs hms sort ldl
  set r := momentQuadrature B ms m s sort ldl
  have hp := hr.isProb
  refine ⟨ruleMeas r, hp, fun j hj => ⟨integrable_ruleMeas _ _, ?_⟩, fun k => ?_⟩
  · rw [hr.integral, hms j (by omega)]
    have h := he ((C (1 / s) * (X - C m)) ^ j) (lt_of_le_of_lt natDegree_pow_le (by
      have : (C (1 / s) * (X - C m) : ℝ[X]).natDegree ≤ 1 := (natDegree_C_mul_le _ _).trans (natDegree_X_sub_C_le _)
      nlinarith))
    have hev : ∀ x, ((C (1 / s) * (X - C m)) ^ j : ℝ[X]).eval x = ((x - m) / s) ^ j := fun x => by
      simp only [eval_pow, eval_mul, eval_C, eval_sub, eval_X]
      congr 1
      ring
    simpa only [hev] using h
  · have key : ∀ S : Set ℝ, MeasurableSet S → ∀ q : Fin (ms.length / 2) → Prop, [DecidablePred q] → (∀ i, r.2 i ∈ S ↔ q i) →
        (ruleMeas r).real S = ∑ i with q i, r.1 i := by
      intro S hS q _ hq
      rw [← integral_indicator_one hS, hr.integral, integ, Finset.sum_filter]
      refine Finset.sum_congr rfl fun i _ => ?_
      by_cases h : q i
      · rw [if_pos h, Set.indicator_of_mem ((hq i).2 h), Pi.one_apply, mul_one]
      · rw [if_neg h, Set.indicator_of_notMem fun h' => h ((hq i).1 h'), mul_zero]
    exact ⟨key _ measurableSet_Iio _ fun i => Iff.rfl, key _ measurableSet_Iic _ fun i => Iff.rfl⟩

omit hB hl hμ hcard hs hms

/-- C203, for a normal law: any number of its moments gives such a rule. -/
theorem C203_normal (B : Backend) (hB : B.Valid) (m₀ : ℝ) (v : NNReal) (hv : v ≠ 0) (n : ℕ) (hn : 0 < n) (m s : ℝ) (hs : s ≠ 0)
    (sort ldl : Bool) (W : ℝ)
    (hW : ∀ i, (momentQuadrature B ((List.range (2 * n)).map fun k => ∫ x, ((x - m) / s) ^ k ∂gaussianReal m₀ v) m s sort ldl).1 i ≤ W) (x : ℝ) :
    |(gaussianReal m₀ v).real (Set.Iic x) -
      ∑ i with (momentQuadrature B ((List.range (2 * n)).map fun k => ∫ x, ((x - m) / s) ^ k ∂gaussianReal m₀ v) m s sort ldl).2 i ≤ x,
        (momentQuadrature B ((List.range (2 * n)).map fun k => ∫ x, ((x - m) / s) ^ k ∂gaussianReal m₀ v) m s sort ldl).1 i| ≤ W :=
  C203_cdf B hB (gaussianReal m₀ v) _ (by simp; omega) (fun k _ => integrable_pow_gaussianReal _ _ _)
    (fun t _ => gaussianReal_inf m₀ hv t) m s hs (fun k hk => by
      simp only [List.length_map, List.length_range] at hk
      simp [List.getD_eq_getElem?_getD, hk]) sort ldl W hW x

/-- the hypotheses hold for the fair coin, two nodes, whose distribution function has a jump of the size of the weights. -/
example : ∃ μ : Measure ℝ, IsProbabilityMeasure μ ∧ (∀ k : ℕ, Integrable (fun x : ℝ => x ^ k) μ) ∧
    (∀ s : Finset ℝ, s.card < 2 → μ (s : Set ℝ)ᶜ ≠ 0) ∧
    ∀ k < [(1 : ℝ), 0, 1, 0].length, [(1 : ℝ), 0, 1, 0].getD k 0 = ∫ x, ((x - 0) / 1) ^ k ∂μ := by
  refine ⟨ruleMeas (n := 2) (fun _ => 1 / 2, ![-1, 1]), isProb_coin, fun k => integrable_ruleMeas _ _, fun t ht h => ?_, fun k hk => ?_⟩
  · have h0 : ∀ i : Fin 2, (![-1, 1] : Fin 2 → ℝ) i ∈ t := by
      intro i
      by_contra hi
      have : ENNReal.ofReal (1 / 2) ≤ ruleMeas (n := 2) (fun _ => 1 / 2, ![-1, 1]) (t : Set ℝ)ᶜ := by
        rw [ruleMeas, Measure.finsetSum_apply]
        refine le_trans (le_of_eq ?_) (Finset.single_le_sum (fun _ _ => zero_le) (Finset.mem_univ i))
        rw [Measure.smul_apply, Measure.dirac_apply' _ t.measurableSet.compl, Set.indicator_of_mem (by simpa using hi)]
        simp
      rw [h] at this
      simp at this
    have h2 : ({-1, 1} : Finset ℝ) ⊆ t := by
      intro x hx
      rcases Finset.mem_insert.1 hx with rfl | hx
      · simpa using h0 0
      · rw [Finset.mem_singleton.1 hx]
        simpa using h0 1
    have h3 := Finset.card_le_card h2
    rw [Finset.card_pair (by norm_num)] at h3
    omega
  · rw [coin_posRule.integral, integ]
    simp only [List.length_cons, List.length_nil] at hk
    interval_cases k <;> norm_num [Fin.sum_univ_two]

end Mfs.Props

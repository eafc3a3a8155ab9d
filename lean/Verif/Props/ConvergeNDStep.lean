import Verif.Props.ConvergeNDGauss

/-!
# C193: the update of the multidimensional filters converges
-/

namespace Mfs.Props

open Matrix Mfs.Spec Mfs.QuadND Mfs.MultiIndex Mfs.FilterND Mfs.StrongND Mfs.Converge Mfs.MomentsND
open MeasureTheory ProbabilityTheory Filter Topology

variable {d : ℕ} {Y : Type}

/-! ### moments times a likelihood -/

/-- a factor with at most two factors that are not polynomials, in adjacent coordinates. -/
def AdjacentPair (g : Fin d → ℝ → ℝ) : Prop :=
  ∃ a b : Fin d, a ≤ b ∧ (b : ℕ) ≤ a + 1 ∧ (∀ j, Continuous (g j)) ∧ PolyGrowth (g a) ∧ PolyGrowth (g b) ∧
    ∀ j, j ≠ a → j ≠ b → ∃ p : Polynomial ℝ, ∀ t, g j t = p.eval t

theorem AdjacentPair.mul_pow {g : Fin d → ℝ → ℝ} (h : AdjacentPair g) (β : Fin d → ℕ) : Admissible fun j t => t ^ β j * g j t := by
  obtain ⟨a, b, hab, hba, hc, hga, hgb, hp⟩ := h
  refine ⟨fun j => (continuous_pow _).mul (hc j), a, b, hab, fun j hj => ?_, fun j h1 h2 => ?_, (PolyGrowth.pow _).mul hga, (PolyGrowth.pow _).mul hgb⟩
  · obtain ⟨p, hpj⟩ := hp j (by rintro rfl; rcases hj with h | h; exacts [lt_irrefl _ h, absurd hab (not_le.2 h)])
      (by rintro rfl; rcases hj with h | h; exacts [absurd hab (not_le.2 h), lt_irrefl _ h])
    exact ⟨Polynomial.X ^ β j * p, fun t => by simp [hpj t]⟩
  · rw [Fin.lt_def] at h1 h2
    omega

theorem integND_finsetSum {κ : Type} (s : Finset κ) (r : List (ℝ × List ℝ)) (F : κ → List ℝ → ℝ) :
    integND r (fun x => ∑ k ∈ s, F k x) = ∑ k ∈ s, integND r (F k) := by
  induction r with
  | nil => simp [integND]
  | cons p r ih =>
    simp only [integND, List.map_cons, List.sum_cons] at ih ⊢
    rw [Finset.sum_add_distrib, ih, Finset.mul_sum]

/-- binomial expansion of a standardised monomial. -/
theorem monomial_expand (m s x : Fin d → ℝ) (α : Fin d → ℕ) :
    ∏ j, ((x j - m j) / s j) ^ α j = ∑ β ∈ Fintype.piFinset fun j => Finset.range (α j + 1),
      (∏ j, ((-m j) ^ (α j - β j) * (α j).choose (β j) / s j ^ α j)) * ∏ j, x j ^ β j := by
  have h : ∀ j, ((x j - m j) / s j) ^ α j = ∑ b ∈ Finset.range (α j + 1), ((-m j) ^ (α j - b) * (α j).choose b / s j ^ α j) * x j ^ b := fun j => by
    rw [div_pow, sub_eq_add_neg, add_pow, Finset.sum_div]
    exact Finset.sum_congr rfl fun b _ => by ring
  simp only [h]
  rw [Finset.prod_univ_sum]
  exact Finset.sum_congr rfl fun β _ => Finset.prod_mul_distrib

/-- if the moments times the likelihood converge, so do the ones standardised by convergent means and scales. -/
theorem standardised_tendsto (μ : Measure (Fin d → ℝ)) (r : ℕ → List (ℝ × List ℝ)) (l : (Fin d → ℝ) → ℝ)
    (hi : ∀ β : Fin d → ℕ, Integrable (fun x => (∏ j, x j ^ β j) * l x) μ)
    (hr : ∀ β : Fin d → ℕ, Tendsto (fun N => integND (r N) fun x => (∏ j : Fin d, x.getD j 0 ^ β j) * l fun j => x.getD j 0) atTop
      (𝓝 (∫ x, (∏ j, x j ^ β j) * l x ∂μ)))
    (m : ℕ → Fin d → ℝ) (m' : Fin d → ℝ) (hm : ∀ j, Tendsto (fun N => m N j) atTop (𝓝 (m' j)))
    (s : ℕ → Fin d → ℝ) (s' : Fin d → ℝ) (hs : ∀ j, Tendsto (fun N => s N j) atTop (𝓝 (s' j))) (hs0 : ∀ j, s' j ≠ 0) (α : Fin d → ℕ) :
    Tendsto (fun N => integND (r N) fun x => (∏ j : Fin d, ((x.getD j 0 - m N j) / s N j) ^ α j) * l fun j => x.getD j 0) atTop
      (𝓝 (∫ x, (∏ j, ((x j - m' j) / s' j) ^ α j) * l x ∂μ)) := by
  have h1 : ∀ N, (integND (r N) fun x => (∏ j : Fin d, ((x.getD j 0 - m N j) / s N j) ^ α j) * l fun j => x.getD j 0)
      = ∑ β ∈ Fintype.piFinset fun j => Finset.range (α j + 1), (∏ j, ((-m N j) ^ (α j - β j) * (α j).choose (β j) / s N j ^ α j))
        * integND (r N) fun x => (∏ j : Fin d, x.getD j 0 ^ β j) * l fun j => x.getD j 0 := fun N => by
    have e : (fun x : List ℝ => (∏ j : Fin d, ((x.getD j 0 - m N j) / s N j) ^ α j) * l fun j => x.getD j 0)
        = fun x : List ℝ => ∑ β ∈ Fintype.piFinset fun j => Finset.range (α j + 1), (∏ j, ((-m N j) ^ (α j - β j) * (α j).choose (β j) / s N j ^ α j))
          * ((∏ j : Fin d, x.getD j 0 ^ β j) * l fun j => x.getD j 0) := by
      funext x
      rw [monomial_expand (m N) (s N) (fun j => x.getD j 0) α, Finset.sum_mul]
      exact Finset.sum_congr rfl fun β _ => by ring
    rw [e, integND_finsetSum]
    exact Finset.sum_congr rfl fun β _ => by rw [integND_mul_left]
  have h2 : ∫ x, (∏ j, ((x j - m' j) / s' j) ^ α j) * l x ∂μ
      = ∑ β ∈ Fintype.piFinset fun j => Finset.range (α j + 1), (∏ j, ((-m' j) ^ (α j - β j) * (α j).choose (β j) / s' j ^ α j))
        * ∫ x, (∏ j, x j ^ β j) * l x ∂μ := by
    have e : (fun x : Fin d → ℝ => (∏ j, ((x j - m' j) / s' j) ^ α j) * l x)
        = fun x : Fin d → ℝ => ∑ β ∈ Fintype.piFinset fun j => Finset.range (α j + 1), (∏ j, ((-m' j) ^ (α j - β j) * (α j).choose (β j) / s' j ^ α j))
          * ((∏ j, x j ^ β j) * l x) := by
      funext x
      rw [monomial_expand m' s' x α, Finset.sum_mul]
      exact Finset.sum_congr rfl fun β _ => by ring
    rw [e, integral_finsetSum _ fun β _ => (hi β).const_mul _]
    exact Finset.sum_congr rfl fun β _ => integral_const_mul _ _
  rw [h2]
  simp only [h1]
  refine tendsto_finsetSum _ fun β _ => Tendsto.mul (tendsto_finsetProd _ fun j _ => ?_) (hr β)
  exact (((hm j).neg.pow _).mul_const _).div ((hs j).pow _) (pow_ne_zero _ (hs0 j))

/-- what the update theorems assume about the predicted law and the likelihood at the measurement. -/
structure UpdateData (d : ℕ) (μ : Measure (Fin d → ℝ)) (l : (Fin d → ℝ) → ℝ) : Prop where
  hd : 1 ≤ d
  exp_moment : ∃ c : ℝ, 0 < c ∧ Integrable (fun x => Real.exp (c * ∑ j, |x j|)) μ
  spread : ∀ q : MvPolynomial (Fin d) ℝ, (∀ᵐ x ∂μ, MvPolynomial.eval x q = 0) → q = 0
  pos : ∀ x, 0 < l x
  form : ∃ (n : ℕ) (g : Fin n → Fin d → ℝ → ℝ), (∀ k, AdjacentPair (g k)) ∧ ∀ x, l x = ∑ k, ∏ j, g k j (x j)

namespace UpdateData

variable {μ : Measure (Fin d → ℝ)} [IsProbabilityMeasure μ] {l : (Fin d → ℝ) → ℝ}

omit [IsProbabilityMeasure μ] in
theorem integrable (U : UpdateData d μ l) (β : Fin d → ℕ) : Integrable (fun x => (∏ j, x j ^ β j) * l x) μ := by
  obtain ⟨n, g, hg, hl⟩ := U.form
  have e : (fun x => (∏ j, x j ^ β j) * l x) = fun x : Fin d → ℝ => ∑ k, ∏ j, x j ^ β j * g k j (x j) := by
    funext x
    rw [hl, Finset.mul_sum]
    exact Finset.sum_congr rfl fun k _ => Finset.prod_mul_distrib.symm
  rw [e]
  refine integrable_finsetSum _ fun k _ => ?_
  have ha := (hg k).mul_pow β
  exact (subExp_prod ha.growth).integrable U.exp_moment ha.continuous

theorem evidence_pos (U : UpdateData d μ l) : 0 < ∫ x, l x ∂μ := by
  have hi : Integrable l μ := by simpa using U.integrable fun _ => 0
  rw [integral_pos_iff_support_of_nonneg (fun x => (U.pos x).le) hi]
  have : Function.support l = Set.univ := by
    ext x; simp [(U.pos x).ne']
  rw [this]; simp

omit [IsProbabilityMeasure μ] in
theorem variance_pos (U : UpdateData d μ l) (j : Fin d) (m : ℝ) : 0 < ∫ x, (x j - m) ^ 2 * l x ∂μ := by
  have hi : Integrable (fun x => (x j - m) ^ 2 * l x) μ := by
    have h2 : Integrable (fun x : Fin d → ℝ => x j ^ 2 * l x) μ := by
      simpa [Pi.single_apply, Finset.prod_ite_eq', pow_ite] using U.integrable (Pi.single j 2)
    have h1 : Integrable (fun x : Fin d → ℝ => x j * l x) μ := by
      simpa [Pi.single_apply, Finset.prod_ite_eq', pow_ite] using U.integrable (Pi.single j 1)
    have h0 : Integrable l μ := by simpa using U.integrable fun _ => 0
    refine ((h2.sub (h1.const_mul (2 * m))).add (h0.const_mul (m ^ 2))).congr (.of_forall fun x => ?_)
    simp only [Pi.add_apply, Pi.sub_apply]
    ring
  have hnn : ∀ x : Fin d → ℝ, 0 ≤ (x j - m) ^ 2 * l x := fun x => mul_nonneg (sq_nonneg _) (U.pos x).le
  refine lt_of_le_of_ne (integral_nonneg hnn) fun h0 => ?_
  have hz := (integral_eq_zero_iff_of_nonneg hnn hi).1 h0.symm
  have hq := U.spread (MvPolynomial.X j - MvPolynomial.C m) (by
    filter_upwards [hz] with x hx
    have hx : (x j - m) ^ 2 * l x = 0 := hx
    rcases mul_eq_zero.1 hx with h | h
    · simpa using h
    · exact absurd h (U.pos x).ne')
  have := congrArg (MvPolynomial.eval fun _ => m + 1) hq
  simp at this

/-- the rules of the raw moments. -/
theorem tendsto (U : UpdateData d μ l) (B : Backend) (hB : B.Valid) (sort ldl : Bool)
    {basis full : ℕ → List (List ℕ)} {mats : ℕ → List (List (List ℤ))} (T : ∀ N, 2 ≤ N → Tables N d (basis N) (full N) (mats N)) (β : Fin d → ℕ) :
    Tendsto (fun N => integND (momentQuadratureND B ((full N).map fun α => ∫ x, ∏ j, x j ^ α.getD j 0 ∂μ) (mats N) none none sort ldl)
      fun x => (∏ j : Fin d, x.getD j 0 ^ β j) * l fun j => x.getD j 0) atTop (𝓝 (∫ x, (∏ j, x j ^ β j) * l x ∂μ)) := by
  obtain ⟨n, g, hg, hl⟩ := U.form
  exact (C192_nd_rule_converges_whole B hB sort ldl U.hd μ U.exp_moment U.spread basis full mats T
    (List.replicate d 0) (List.replicate d 1) (by simp) (by simp) (fun t ht => by rw [List.eq_of_mem_replicate ht]; exact one_pos)
    (fun k j t => t ^ β j * g k j t) (fun k => (hg k).mul_pow β) (ι := Empty) (fun k => k.elim) (fun k => k.elim) (fun k => k.elim) (fun k => k.elim)
    (hasSum_fintype _).summable (fun x => (∏ j, x j ^ β j) * l x) fun x => by
      rw [hl, Finset.mul_sum]
      simp [Finset.prod_mul_distrib]).1

omit [IsProbabilityMeasure μ] in
/-- the three representations have the same rule. -/
theorem reps (U : UpdateData d μ l) (B : Backend) (hB : B.Valid) (ldl ldl' : Bool) {N : ℕ}
    {basis full : List (List ℕ)} {mats : List (List (List ℤ))} (T : Tables N d basis full mats)
    (mean scale : List ℝ) (hml : mean.length = d) (hsl : scale.length = d) (hs0 : ∀ t ∈ scale, 0 < t) (F : List ℝ → ℝ) :
    integND (momentQuadratureND B (full.map fun α => ∫ x, ∏ j : Fin d, (x j - mean.getD j 0) ^ α.getD j 0 ∂μ) mats (some mean) none false ldl) F
      = integND (momentQuadratureND B (full.map fun α => ∫ x, ∏ j : Fin d, x j ^ α.getD j 0 ∂μ) mats none none false ldl') F ∧
    integND (momentQuadratureND B (full.map fun α => ∫ x, ∏ j : Fin d, ((x j - mean.getD j 0) / scale.getD j 0) ^ α.getD j 0 ∂μ) mats
        (some mean) (some scale) false ldl) F
      = integND (momentQuadratureND B (full.map fun α => ∫ x, ∏ j : Fin d, x j ^ α.getD j 0 ∂μ) mats none none false ldl') F := by
  have hint := integrable_poly (μ := μ) U.exp_moment
  have hmL : (fun α : List ℕ => ∫ x, ∏ j : Fin d, x j ^ α.getD j 0 ∂μ) = polyMoment (lawL μ hint) rawCoord := by
    funext α
    rw [polyMoment, lawL]
    simp [rawCoord]
  have hmC : (fun α : List ℕ => ∫ x, ∏ j : Fin d, (x j - mean.getD j 0) ^ α.getD j 0 ∂μ)
      = polyMoment (lawL μ hint) (centralCoord mean) := by
    funext α
    rw [polyMoment, lawL]
    simp [centralCoord]
  have hmS : (fun α : List ℕ => ∫ x, ∏ j : Fin d, ((x j - mean.getD j 0) / scale.getD j 0) ^ α.getD j 0 ∂μ)
      = polyMoment (lawL μ hint) (scaledCoord mean scale) := by
    funext α
    rw [polyMoment, lawL]
    simp [scaledCoord, div_eq_inv_mul]
  have hN := T.hN
  rw [hmL, hmC, hmS]
  exact C85_nd_raw_central_scaled B hB N (by omega) U.hd (lawL μ hint) mean scale hml hsl hs0 basis full mats T.basis_eq T.full_eq T.mats_eq
    (by rw [← hmL]; exact gram_posDef_of_integrable T μ hint U.spread) false false false ldl' ldl ldl F

end UpdateData

/-- eventually the table contains the multi-index. -/
theorem eventually_mem_full {basis full : ℕ → List (List ℕ)} {mats : ℕ → List (List (List ℤ))} (T : ∀ N, 2 ≤ N → Tables N d (basis N) (full N) (mats N))
    {α : List ℕ} (hα : α.length = d) : ∀ᶠ N in atTop, α ∈ full N := by
  filter_upwards [eventually_ge_atTop (2 + α.sum)] with N hN
  exact (T N (by omega)).mem_full.2 ⟨hα, by omega, by omega⟩

theorem monomial_eq_prod {x : List ℝ} {α : List ℕ} (hx : x.length = d) (hα : α.length = d) :
    monomial x α = ∏ j : Fin d, x.getD j 0 ^ α.getD j 0 := by
  subst hx
  rw [monomial]
  rw [← List.prod_ofFn]
  congr 1
  apply List.ext_getElem
  · simp [hα]
  · intro i h1 h2
    have hi : i < x.length := by simpa using h2
    have hi' : i < α.length := by omega
    simp [List.getD_eq_getElem?_getD, hi']

/-! ### the three filters -/

/-- **C193 (raw moments).** If the predicted moments that the step computes are those of the law `μ`, then, as `N` grows, every updated moment
converges to that of the exact posterior law, and the increment of the negative log-likelihood to minus the logarithm of the exact evidence. -/
theorem C193_update_rms (B : Backend) (hB : B.Valid) (stable : Bool) (μ : Measure (Fin d → ℝ)) [IsProbabilityMeasure μ] (l : (Fin d → ℝ) → ℝ)
    (U : UpdateData d μ l) (basis full : ℕ → List (List ℕ)) (mats : ℕ → List (List (List ℤ))) (T : ∀ N, 2 ≤ N → Tables N d (basis N) (full N) (mats N))
    (pdf : Y → List ℝ → ℝ) (y : Y) (hl : ∀ x, pdf y x = l fun j => x.getD j 0)
    (P : ℕ → CondMoments Unit) (rms : ℕ → List ℝ) (nell : ℝ)
    (hpred : ∀ N, 2 ≤ N → wsumVec (full N).length (momentQuadratureND B (rms N) (mats N) none none false stable) ((P N).row (full N) ())
      = (full N).map fun α => ∫ x, ∏ j, x j ^ α.getD j 0 ∂μ) :
    let out := fun N => rmsStep B stable (P N) pdf (full N) (mats N) (rms N, nell) y
    (∀ α : List ℕ, α.length = d → Tendsto (fun N => momentAt (full N) (out N).2 α) atTop
      (𝓝 ((∫ x, (∏ j, x j ^ α.getD j 0) * l x ∂μ) / ∫ x, l x ∂μ))) ∧
    Tendsto (fun N => (out N).1.2) atTop (𝓝 (nell - Real.log (∫ x, l x ∂μ))) := by
  intro out
  have hlik := U.tendsto B hB false stable T fun _ => 0
  simp only [pow_zero, Finset.prod_const_one, one_mul] at hlik
  have hZ := U.evidence_pos
  refine ⟨fun α hα => ?_, ?_⟩
  · refine ((U.tendsto B hB false stable T fun j => α.getD j 0).div hlik hZ.ne').congr' ?_
    filter_upwards [eventually_ge_atTop 2, eventually_mem_full T hα] with N hN hmem
    have hnode := momentQuadratureND_node_length B ((full N).map fun α => ∫ x, ∏ j : Fin d, x j ^ α.getD j 0 ∂μ) (mats N) d (T N hN).mats_len none none
      (by simp) (by simp) false stable
    simp only [out, rmsStep]
    rw [hpred N hN, momentAt_map _ _ _ hmem, FilterND.wsum_eq, FilterND.wsum_eq, funext hl, Pi.div_apply]
    congr 1
    refine integND_congr fun p hp => ?_
    rw [prodPow_eq, monomial_eq_prod (hnode p hp) hα]
  · refine (tendsto_const_nhds.sub (hlik.log hZ.ne')).congr' ?_
    filter_upwards [eventually_ge_atTop 2] with N hN
    simp only [out, rmsStep]
    rw [hpred N hN, FilterND.wsum_eq, funext hl]

theorem eyeRows_getElem {j : ℕ} (hj : j < d) : (eyeRows d)[j]? = some ((List.range d).map fun i => if i = j then 1 else 0) := by
  simp [eyeRows, hj]

theorem getD_eyeRows_map (φ : List ℕ → ℝ) (j : Fin d) :
    ((eyeRows d).map φ).getD j 0 = φ ((List.range d).map fun i => if i = (j : ℕ) then 1 else 0) := by
  rw [List.getD_eq_getElem?_getD, List.getElem?_map, eyeRows_getElem j.2]
  rfl

theorem prod_eyeRow (x : Fin d → ℝ) (j : Fin d) (k : ℕ) :
    ∏ i : Fin d, x i ^ (((List.range d).map fun i => if i = (j : ℕ) then 1 else 0).map (· * k)).getD i 0 = x j ^ k := by
  rw [Finset.prod_eq_single j]
  · simp [List.getD_eq_getElem?_getD]
  · intro i _ hi
    have : (i : ℕ) ≠ j := fun h => hi (Fin.ext h)
    simp [List.getD_eq_getElem?_getD, this]
  · simp

theorem prod_eyeRow_one (x : Fin d → ℝ) (j : Fin d) :
    ∏ i : Fin d, x i ^ ((List.range d).map fun i => if i = (j : ℕ) then 1 else 0).getD i 0 = x j := by
  have := prod_eyeRow x j 1
  simpa using this

/-- the updated means. -/
theorem UpdateData.mean_tendsto {μ : Measure (Fin d → ℝ)} [IsProbabilityMeasure μ] {l : (Fin d → ℝ) → ℝ} (U : UpdateData d μ l) (B : Backend) (hB : B.Valid)
    (ldl : Bool) {basis full : ℕ → List (List ℕ)} {mats : ℕ → List (List (List ℤ))} (T : ∀ N, 2 ≤ N → Tables N d (basis N) (full N) (mats N)) (j : Fin d) :
    Tendsto (fun N => (integND (momentQuadratureND B ((full N).map fun α => ∫ x, ∏ j, x j ^ α.getD j 0 ∂μ) (mats N) none none false ldl)
        fun x => x.getD j 0 * l fun j => x.getD j 0)
      / integND (momentQuadratureND B ((full N).map fun α => ∫ x, ∏ j, x j ^ α.getD j 0 ∂μ) (mats N) none none false ldl) fun x => l fun j => x.getD j 0)
      atTop (𝓝 ((∫ x, x j * l x ∂μ) / ∫ x, l x ∂μ)) := by
  have hlik := U.tendsto B hB false ldl T fun _ => 0
  simp only [pow_zero, Finset.prod_const_one, one_mul] at hlik
  have h1 := U.tendsto B hB false ldl T (Pi.single j 1)
  simp only [Pi.single_apply, pow_ite, pow_one, pow_zero, Finset.prod_ite_eq', Finset.mem_univ, if_true] at h1
  exact h1.div hlik U.evidence_pos.ne'

/-- **C193 (central moments).** The same for the filter of the central moments, about any predicted means: the updated means and the updated central
moments converge to those of the exact posterior law. -/
theorem C193_update_cms (B : Backend) (hB : B.Valid) (stable : Bool) (μ : Measure (Fin d → ℝ)) [IsProbabilityMeasure μ] (l : (Fin d → ℝ) → ℝ)
    (U : UpdateData d μ l) (basis full : ℕ → List (List ℕ)) (mats : ℕ → List (List (List ℤ))) (T : ∀ N, 2 ≤ N → Tables N d (basis N) (full N) (mats N))
    (pdf : Y → List ℝ → ℝ) (y : Y) (hl : ∀ x, pdf y x = l fun j => x.getD j 0)
    (P : ℕ → CondMoments (List ℝ)) (condMean : List ℝ → List ℝ) (cms mean mean' : ℕ → List ℝ) (nell : ℝ)
    (hmean : ∀ N, 2 ≤ N → wsumVec d (momentQuadratureND B (cms N) (mats N) (some (mean N)) none false stable) condMean = mean' N)
    (hpred : ∀ N, 2 ≤ N → wsumVec (full N).length (momentQuadratureND B (cms N) (mats N) (some (mean N)) none false stable) ((P N).row (full N) (mean' N))
      = (full N).map fun α => ∫ x, ∏ j : Fin d, (x j - (mean' N).getD j 0) ^ α.getD j 0 ∂μ) :
    let out := fun N => cmsStep B stable (P N) condMean pdf d (full N) (mats N) ((cms N, mean N), nell) y
    let m := fun j => (∫ x, x j * l x ∂μ) / ∫ x, l x ∂μ
    (∀ j : Fin d, Tendsto (fun N => (out N).2.2.getD j 0) atTop (𝓝 (m j))) ∧
    (∀ α : List ℕ, α.length = d → Tendsto (fun N => momentAt (full N) (out N).2.1 α) atTop
      (𝓝 ((∫ x, (∏ j, (x j - m j) ^ α.getD j 0) * l x ∂μ) / ∫ x, l x ∂μ))) ∧
    Tendsto (fun N => (out N).1.2) atTop (𝓝 (nell - Real.log (∫ x, l x ∂μ))) := by
  intro out m
  have hlik := U.tendsto B hB false stable T fun _ => 0
  simp only [pow_zero, Finset.prod_const_one, one_mul] at hlik
  have hZ := U.evidence_pos
  -- the rule of the step
  have hlen : ∀ N, 2 ≤ N → (mean' N).length = d := fun N hN => by rw [← hmean N hN]; simp [wsumVec]
  have hrule : ∀ N, 2 ≤ N → ∀ F, integND (momentQuadratureND B ((full N).map fun α => ∫ x, ∏ j : Fin d, (x j - (mean' N).getD j 0) ^ α.getD j 0 ∂μ) (mats N)
      (some (mean' N)) none false stable) F
      = integND (momentQuadratureND B ((full N).map fun α => ∫ x, ∏ j : Fin d, x j ^ α.getD j 0 ∂μ) (mats N) none none false stable) F := fun N hN F =>
    (U.reps B hB stable stable (T N hN) (mean' N) (List.replicate d 1) (hlen N hN) (by simp)
      (fun t ht => by rw [List.eq_of_mem_replicate ht]; exact one_pos) F).1
  have hnode : ∀ N, 2 ≤ N → ∀ p ∈ momentQuadratureND B ((full N).map fun α => ∫ x, ∏ j : Fin d, x j ^ α.getD j 0 ∂μ) (mats N) none none false stable,
      p.2.length = d := fun N hN =>
    momentQuadratureND_node_length B _ (mats N) d (T N hN).mats_len none none (by simp) (by simp) false stable
  obtain ⟨r, hr⟩ : ∃ r : ℕ → List (ℝ × List ℝ), r = fun N => momentQuadratureND B ((full N).map fun α => ∫ x, ∏ j : Fin d, x j ^ α.getD j 0 ∂μ) (mats N)
    none none false stable := ⟨_, rfl⟩
  have hmt := U.mean_tendsto B hB stable T
  have hall := U.tendsto B hB false stable T
  have hrN : ∀ N, momentQuadratureND B ((full N).map fun α => ∫ x, ∏ j : Fin d, x j ^ α.getD j 0 ∂μ) (mats N) none none false stable = r N := fun N => by rw [hr]
  simp only [hrN] at hlik hrule hnode hmt hall
  -- the updated means
  have hm : ∀ N, 2 ≤ N → ∀ j : Fin d, (out N).2.2.getD j 0
      = (integND (r N) fun x => x.getD j 0 * l fun j => x.getD j 0) / integND (r N) fun x => l fun j => x.getD j 0 := by
    intro N hN j
    simp only [out, cmsStep]
    rw [hmean N hN, hpred N hN, getD_eyeRows_map]
    simp only [FilterND.wsum_eq, hrule N hN]
    rw [funext hl]
    congr 1
    refine integND_congr fun p hp => ?_
    rw [prodPow_eq, monomial_eq_prod (d := d) (by simpa using hnode N hN p hp) (by simp)]
    congr 1
    have := prod_eyeRow_one (fun i : Fin d => (p.2.map fun t => t - 0).getD i 0) j
    rw [this]
    simp
  have hmlim : ∀ j : Fin d, Tendsto (fun N => (out N).2.2.getD j 0) atTop (𝓝 (m j)) := fun j => by
    refine (hmt j).congr' ?_
    filter_upwards [eventually_ge_atTop 2] with N hN
    rw [hm N hN j]
  refine ⟨hmlim, fun α hα => ?_, ?_⟩
  · have h1 := standardised_tendsto μ r l U.integrable hall (fun N j => (out N).2.2.getD j 0) m hmlim
      (fun _ _ => 1) (fun _ => 1) (fun _ => tendsto_const_nhds) (fun _ => one_ne_zero) (fun j => α.getD j 0)
    simp only [div_one] at h1
    refine (h1.div hlik hZ.ne').congr' ?_
    filter_upwards [eventually_ge_atTop 2, eventually_mem_full T hα] with N hN hmem
    have hlm : (out N).2.2.length = d := by simp [out, cmsStep, eyeRows]
    have e : (out N).2.1 = (full N).map fun α => (integND (r N) fun x => monomial (List.zipWith (· - ·) x (out N).2.2) α * pdf y x)
        / integND (r N) (pdf y) := by
      simp only [out, cmsStep]
      rw [hmean N hN, hpred N hN]
      simp only [FilterND.wsum_eq, prodPow_eq, hrule N hN]
    rw [e, momentAt_map _ _ _ hmem, funext hl, Pi.div_apply]
    congr 1
    refine integND_congr fun p hp => ?_
    have hpl := hnode N hN p hp
    rw [monomial_eq_prod (d := d) (by simp [hpl, hlm]) hα]
    congr 1
    refine Finset.prod_congr rfl fun j _ => ?_
    congr 1
    simp [List.getD_eq_getElem?_getD, hpl, hlm]
  · refine (tendsto_const_nhds.sub (hlik.log hZ.ne')).congr' ?_
    filter_upwards [eventually_ge_atTop 2] with N hN
    simp only [out, cmsStep]
    rw [hmean N hN, hpred N hN, FilterND.wsum_eq, hrule N hN, funext hl]

/-- **C193 (scaled central moments).** The same for the filter of the scaled central moments, with any positive predicted scales: the updated means, the
updated scales and the updated scaled central moments converge to those of the exact posterior law. -/
theorem C193_update_scms (B : Backend) (hB : B.Valid) (stable : Bool) (μ : Measure (Fin d → ℝ)) [IsProbabilityMeasure μ] (l : (Fin d → ℝ) → ℝ)
    (U : UpdateData d μ l) (basis full : ℕ → List (List ℕ)) (mats : ℕ → List (List (List ℤ))) (T : ∀ N, 2 ≤ N → Tables N d (basis N) (full N) (mats N))
    (pdf : Y → List ℝ → ℝ) (y : Y) (hl : ∀ x, pdf y x = l fun j => x.getD j 0)
    (P : ℕ → CondMoments (List ℝ × List ℝ)) (condMeanVars : List ℝ → List ℝ × List ℝ) (scms mean scale mean' scale' : ℕ → List ℝ) (nell : ℝ)
    (hmean : ∀ N, 2 ≤ N → wsumVec d (momentQuadratureND B (scms N) (mats N) (some (mean N)) (some (scale N)) false stable) (fun x => (condMeanVars x).1) = mean' N)
    (hscale : ∀ N, 2 ≤ N → (wsumVec d (momentQuadratureND B (scms N) (mats N) (some (mean N)) (some (scale N)) false stable)
      fun x => (condMeanVars x).2).map Real.sqrt = scale' N) (hs0 : ∀ N, 2 ≤ N → ∀ t ∈ scale' N, 0 < t)
    (hpred : ∀ N, 2 ≤ N → wsumVec (full N).length (momentQuadratureND B (scms N) (mats N) (some (mean N)) (some (scale N)) false stable)
      ((P N).row (full N) (mean' N, scale' N))
      = (full N).map fun α => ∫ x, ∏ j : Fin d, ((x j - (mean' N).getD j 0) / (scale' N).getD j 0) ^ α.getD j 0 ∂μ) :
    let out := fun N => scmsStep B stable (P N) condMeanVars pdf d (full N) (mats N) ((scms N, mean N, scale N), nell) y
    let m := fun j => (∫ x, x j * l x ∂μ) / ∫ x, l x ∂μ
    let s := fun j => Real.sqrt ((∫ x, (x j - m j) ^ 2 * l x ∂μ) / ∫ x, l x ∂μ)
    (∀ j : Fin d, Tendsto (fun N => (out N).2.2.1.getD j 0) atTop (𝓝 (m j))) ∧
    (∀ j : Fin d, 0 < s j ∧ Tendsto (fun N => (out N).2.2.2.getD j 0) atTop (𝓝 (s j))) ∧
    (∀ α : List ℕ, α.length = d → Tendsto (fun N => momentAt (full N) (out N).2.1 α) atTop
      (𝓝 ((∫ x, (∏ j, ((x j - m j) / s j) ^ α.getD j 0) * l x ∂μ) / ∫ x, l x ∂μ))) ∧
    Tendsto (fun N => (out N).1.2) atTop (𝓝 (nell - Real.log (∫ x, l x ∂μ))) := by
  intro out m s
  have hlik := U.tendsto B hB false stable T fun _ => 0
  simp only [pow_zero, Finset.prod_const_one, one_mul] at hlik
  have hZ := U.evidence_pos
  have hlen : ∀ N, 2 ≤ N → (mean' N).length = d := fun N hN => by rw [← hmean N hN]; simp [wsumVec]
  have hlen' : ∀ N, 2 ≤ N → (scale' N).length = d := fun N hN => by rw [← hscale N hN]; simp [wsumVec]
  have hrule : ∀ N, 2 ≤ N → ∀ F, integND (momentQuadratureND B ((full N).map fun α => ∫ x, ∏ j : Fin d,
      ((x j - (mean' N).getD j 0) / (scale' N).getD j 0) ^ α.getD j 0 ∂μ) (mats N) (some (mean' N)) (some (scale' N)) false stable) F
      = integND (momentQuadratureND B ((full N).map fun α => ∫ x, ∏ j : Fin d, x j ^ α.getD j 0 ∂μ) (mats N) none none false stable) F := fun N hN F =>
    (U.reps B hB stable stable (T N hN) (mean' N) (scale' N) (hlen N hN) (hlen' N hN) (hs0 N hN) F).2
  have hnode : ∀ N, 2 ≤ N → ∀ p ∈ momentQuadratureND B ((full N).map fun α => ∫ x, ∏ j : Fin d, x j ^ α.getD j 0 ∂μ) (mats N) none none false stable,
      p.2.length = d := fun N hN =>
    momentQuadratureND_node_length B _ (mats N) d (T N hN).mats_len none none (by simp) (by simp) false stable
  obtain ⟨r, hr⟩ : ∃ r : ℕ → List (ℝ × List ℝ), r = fun N => momentQuadratureND B ((full N).map fun α => ∫ x, ∏ j : Fin d, x j ^ α.getD j 0 ∂μ) (mats N)
    none none false stable := ⟨_, rfl⟩
  have hmt := U.mean_tendsto B hB stable T
  have hall := U.tendsto B hB false stable T
  have hrN : ∀ N, momentQuadratureND B ((full N).map fun α => ∫ x, ∏ j : Fin d, x j ^ α.getD j 0 ∂μ) (mats N) none none false stable = r N := fun N => by rw [hr]
  simp only [hrN] at hlik hrule hnode hmt hall
  have hlm : ∀ N, (out N).2.2.1.length = d := fun N => by simp [out, scmsStep, eyeRows]
  have hls : ∀ N, (out N).2.2.2.length = d := fun N => by simp [out, scmsStep, eyeRows]
  have hm : ∀ N, 2 ≤ N → ∀ j : Fin d, (out N).2.2.1.getD j 0
      = (integND (r N) fun x => x.getD j 0 * l fun j => x.getD j 0) / integND (r N) fun x => l fun j => x.getD j 0 := by
    intro N hN j
    simp only [out, scmsStep]
    rw [hmean N hN, hscale N hN, hpred N hN, getD_eyeRows_map]
    simp only [FilterND.wsum_eq, hrule N hN]
    rw [funext hl]
    congr 1
    refine integND_congr fun p hp => ?_
    rw [prodPow_eq, monomial_eq_prod (d := d) (by simpa using hnode N hN p hp) (by simp)]
    congr 1
    have := prod_eyeRow_one (fun i : Fin d => (p.2.map fun t => (t - 0) / 1).getD i 0) j
    rw [this]
    simp
  have hmlim : ∀ j : Fin d, Tendsto (fun N => (out N).2.2.1.getD j 0) atTop (𝓝 (m j)) := fun j => by
    refine (hmt j).congr' ?_
    filter_upwards [eventually_ge_atTop 2] with N hN
    rw [hm N hN j]
  have hsv : ∀ j, 0 < s j := fun j => Real.sqrt_pos.2 (div_pos (U.variance_pos j _) hZ)
  have hslim : ∀ j : Fin d, Tendsto (fun N => (out N).2.2.2.getD j 0) atTop (𝓝 (s j)) := fun j => by
    have h1 := standardised_tendsto μ r l U.integrable hall (fun N j => (out N).2.2.1.getD j 0) m hmlim
      (fun _ _ => 1) (fun _ => 1) (fun _ => tendsto_const_nhds) (fun _ => one_ne_zero) (Pi.single j 2)
    simp only [div_one, Pi.single_apply, pow_ite, pow_zero, Finset.prod_ite_eq', Finset.mem_univ, if_true] at h1
    refine ((Real.continuous_sqrt.tendsto _).comp (h1.div hlik hZ.ne')).congr' ?_
    filter_upwards [eventually_ge_atTop 2] with N hN
    have e : (out N).2.2.2 = (eyeRows d).map fun α => Real.sqrt ((integND (r N) fun x => monomial (List.zipWith (fun t m => (t - m) / 1) x (out N).2.2.1)
        (α.map (· * 2)) * pdf y x) / integND (r N) (pdf y)) := by
      simp only [out, scmsStep]
      rw [hmean N hN, hscale N hN, hpred N hN]
      simp only [FilterND.wsum_eq, prodPow_eq, hrule N hN]
    rw [e, getD_eyeRows_map, funext hl, Function.comp_apply, Pi.div_apply]
    congr 2
    refine integND_congr fun p hp => ?_
    have hpl := hnode N hN p hp
    rw [monomial_eq_prod (d := d) (by simp [hpl, hlm]) (by simp)]
    congr 1
    have := prod_eyeRow (fun i : Fin d => (List.zipWith (fun t m => (t - m) / 1) p.2 (out N).2.2.1).getD i 0) j 2
    rw [this]
    congr 1
    simp [List.getD_eq_getElem?_getD, hpl, hlm]
  refine ⟨hmlim, fun j => ⟨hsv j, hslim j⟩, fun α hα => ?_, ?_⟩
  · have h1 := standardised_tendsto μ r l U.integrable hall (fun N j => (out N).2.2.1.getD j 0) m hmlim
      (fun N j => (out N).2.2.2.getD j 0) s hslim (fun j => (hsv j).ne') (fun j => α.getD j 0)
    refine (h1.div hlik hZ.ne').congr' ?_
    filter_upwards [eventually_ge_atTop 2, eventually_mem_full T hα] with N hN hmem
    have e : (out N).2.1 = (full N).map fun α => (integND (r N) fun x =>
        monomial (List.zipWith (· / ·) (List.zipWith (· - ·) x (out N).2.2.1) (out N).2.2.2) α * pdf y x) / integND (r N) (pdf y) := by
      simp only [out, scmsStep]
      rw [hmean N hN, hscale N hN, hpred N hN]
      simp only [FilterND.wsum_eq, prodPow_eq, hrule N hN]
    rw [e, momentAt_map _ _ _ hmem, funext hl, Pi.div_apply]
    congr 1
    refine integND_congr fun p hp => ?_
    have hpl := hnode N hN p hp
    rw [monomial_eq_prod (d := d) (by simp [hpl, hlm, hls]) hα]
    congr 1
    refine Finset.prod_congr rfl fun j _ => ?_
    congr 1
    simp [List.getD_eq_getElem?_getD, hpl, hlm, hls]
  · refine (tendsto_const_nhds.sub (hlik.log hZ.ne')).congr' ?_
    filter_upwards [eventually_ge_atTop 2] with N hN
    simp only [out, scmsStep]
    rw [hmean N hN, hscale N hN, hpred N hN, FilterND.wsum_eq, hrule N hN, funext hl]

end Mfs.Props

import Verif.Props.QuadNDEquiv

/-!
# Property C36: the three multidimensional filters compared
-/

namespace Mfs.Props

open Matrix Mfs.Spec Mfs.QuadND Mfs.MultiIndex Mfs.FilterND MvPolynomial

variable {Y : Type} {d : ℕ}

/-- the raw moments `r`, the central moments `c.1` about `c.2` and the scaled moments `s.1` with mean `s.2.1` and scales
`s.2.2`, all in the order of the table `full`, belong to one law `L`. -/
structure SameLawND (full : List (List ℕ)) (L : MvPolynomial (Fin d) ℝ →ₗ[ℝ] ℝ) (r : List ℝ) (c : List ℝ × List ℝ)
    (s : List ℝ × List ℝ × List ℝ) : Prop where
  one : L 1 = 1
  raw : r = full.map (polyMoment L rawCoord)
  central : c.1 = full.map (polyMoment L (centralCoord c.2))
  scaled : s.1 = full.map (polyMoment L (scaledCoord s.2.1 s.2.2))
  mean_len : c.2.length = d
  mean_eq : s.2.1 = c.2
  scale_len : s.2.2.length = d
  scale_pos : ∀ t ∈ s.2.2, 0 < t

/-- conditional moments of the transition law `E` in the three forms, conditional mean, and mean with variances. -/
noncomputable def rawOfND (E : List ℝ → MvPolynomial (Fin d) ℝ →ₗ[ℝ] ℝ) : CondMoments Unit :=
  .multiIndex fun x α _ => polyMoment (E x) rawCoord α
noncomputable def centralOfND (E : List ℝ → MvPolynomial (Fin d) ℝ →ₗ[ℝ] ℝ) : CondMoments (List ℝ) :=
  .multiIndex fun x α m => polyMoment (E x) (centralCoord m) α
noncomputable def scaledOfND (E : List ℝ → MvPolynomial (Fin d) ℝ →ₗ[ℝ] ℝ) : CondMoments (List ℝ × List ℝ) :=
  .multiIndex fun x α a => polyMoment (E x) (scaledCoord a.1 a.2) α
noncomputable def meanOfND (E : List ℝ → MvPolynomial (Fin d) ℝ →ₗ[ℝ] ℝ) : List ℝ → List ℝ :=
  fun x => List.ofFn fun j : Fin d => E x (X j)

/-- average of the conditional laws over a rule. -/
noncomputable def mixLawND (r : List (ℝ × List ℝ)) (E : List ℝ → MvPolynomial (Fin d) ℝ →ₗ[ℝ] ℝ) :
    MvPolynomial (Fin d) ℝ →ₗ[ℝ] ℝ := (r.map fun p => p.1 • E p.2).sum

theorem mixLawND_apply (r : List (ℝ × List ℝ)) (E : List ℝ → MvPolynomial (Fin d) ℝ →ₗ[ℝ] ℝ) (p : MvPolynomial (Fin d) ℝ) :
    mixLawND r E p = integND r (fun x => E x p) := by
  induction r with
  | nil => simp [mixLawND, integND]
  | cons q r ih =>
    simp only [mixLawND, integND, List.map_cons, List.sum_cons, LinearMap.add_apply, LinearMap.smul_apply, smul_eq_mul] at ih ⊢
    rw [ih]

/-- evaluation at a point given as a list. -/
noncomputable def evalAt (x : List ℝ) : MvPolynomial (Fin d) ℝ →ₗ[ℝ] ℝ :=
  (MvPolynomial.aeval fun j : Fin d => x.getD j 0).toLinearMap

/-- the law with weights proportional to weight times `g`. -/
noncomputable def postLawND (r : List (ℝ × List ℝ)) (g : List ℝ → ℝ) (Z : ℝ) : MvPolynomial (Fin d) ℝ →ₗ[ℝ] ℝ :=
  Z⁻¹ • mixLawND r (fun x => g x • evalAt x)

theorem postLawND_apply (r : List (ℝ × List ℝ)) (g : List ℝ → ℝ) (Z : ℝ) (p : MvPolynomial (Fin d) ℝ) :
    postLawND r g Z p = integND r (fun x => evalAt x p * g x) / Z := by
  rw [postLawND, LinearMap.smul_apply, mixLawND_apply, smul_eq_mul, div_eq_inv_mul]
  simp only [LinearMap.smul_apply, smul_eq_mul, mul_comm]

theorem monomial_eq_evalAt (p : Fin d → MvPolynomial (Fin d) ℝ) (x x' : List ℝ) (hx' : x'.length = d)
    (hp : ∀ j : Fin d, evalAt x (p j) = x'.getD j 0) (α : List ℕ) (hα : α.length = d) :
    monomial x' α = evalAt x (∏ j, p j ^ α.getD j 0) := by
  simp only [evalAt, AlgHom.toLinearMap_apply, map_prod, map_pow] at hp ⊢
  simp only [hp]
  rw [Spec.monomial]
  have : List.zipWith (· ^ ·) x' α = List.ofFn fun j : Fin d => x'.getD j 0 ^ α.getD j 0 := by
    apply List.ext_getElem
    · simp [hx', hα]
    · intro i h1 h2
      simp [List.getD_eq_getElem?_getD, hx', hα]
  rw [this, List.prod_ofFn]

/-- the moment stored at the place of `α`. -/
def momentAt (full : List (List ℕ)) (r : List ℝ) (α : List ℕ) : ℝ := r.getD (full.idxOf α) 0

theorem momentAt_map (full : List (List ℕ)) (μ : List ℕ → ℝ) (α : List ℕ) (h : α ∈ full) :
    momentAt full (full.map μ) α = μ α := by
  rw [momentAt, List.getD_eq_getElem?_getD, List.getElem?_map, List.getElem?_idxOf h]
  rfl

/-- what the theorems need about the tables. -/
structure Tables (N d : ℕ) (basis full : List (List ℕ)) (mats : List (List (List ℤ))) : Prop where
  hN : 2 ≤ N
  hd : 1 ≤ d
  basis_eq : generateMultiIndices d (N - 1) 0 = .ok basis
  full_eq : generateMultiIndices d (2 * N - 1) 0 = .ok full
  mats_eq : gramAndHankelIndices N d = .ok mats

variable {N : ℕ} {basis full : List (List ℕ)} {mats : List (List (List ℤ))}

theorem Tables.mem_full (T : Tables N d basis full mats) {α : List ℕ} : α ∈ full ↔ IsMultiIndex d (2 * N - 1) 0 α := by
  obtain ⟨t, ht, _, hmem⟩ := C01_generate_complete d (2 * N - 1) 0 T.hd (by omega)
  rw [T.full_eq] at ht; cases ht
  exact hmem α

theorem Tables.mem_basis (T : Tables N d basis full mats) {α : List ℕ} : α ∈ basis ↔ IsMultiIndex d (N - 1) 0 α := by
  obtain ⟨t, ht, _, hmem⟩ := C01_generate_complete d (N - 1) 0 T.hd (by omega)
  rw [T.basis_eq] at ht; cases ht
  exact hmem α

theorem Tables.mats_len (T : Tables N d basis full mats) : mats.length = d + 1 := by
  obtain ⟨_, h, _⟩ := momentData (by have := T.hN; omega) T.hd (fun _ => 0) T.basis_eq T.full_eq T.mats_eq
  exact h

theorem Tables.head_len (T : Tables N d basis full mats) : (full.headD []).length = d := by
  have h : full ≠ [] := by
    intro h
    have : List.replicate d 0 ∈ full := T.mem_full.2 ⟨by simp, by simp, by simp⟩
    rw [h] at this; simp at this
  obtain ⟨a, l, rfl⟩ := List.exists_cons_of_ne_nil h
  exact (T.mem_full.1 (by simp : a ∈ a :: l)).1

theorem Tables.gram (T : Tables N d basis full mats) (μ : List ℕ → ℝ) :
    gramOn basis (momentAt full (full.map μ)) = gramOn basis μ := by
  ext a b
  simp only [gramOn, Matrix.of_apply]
  refine momentAt_map _ _ _ (T.mem_full.2 ?_)
  have ha := T.mem_basis.1 (List.getElem_mem a.2)
  have hb := T.mem_basis.1 (List.getElem_mem b.2)
  refine ⟨by simp [ha.1, hb.1], by simp, ?_⟩
  have := sum_addRows _ _ (ha.1.trans hb.1.symm)
  rw [addRows] at this
  simp only [Fin.getElem_fin]
  rw [this]
  have := ha.2.2; have := hb.2.2; have := T.hN
  omega

theorem SameLawND.rule {L : MvPolynomial (Fin d) ℝ →ₗ[ℝ] ℝ} {r : List ℝ} {c : List ℝ × List ℝ}
    {s : List ℝ × List ℝ × List ℝ} (h : SameLawND full L r c s) (T : Tables N d basis full mats) (B : Backend) (hB : B.Valid)
    (hpd : (gramOn basis (momentAt full r)).PosDef) (l₁ l₂ l₃ : Bool) (F : List ℝ → ℝ) :
    integND (momentQuadratureND B c.1 mats (some c.2) none false l₂) F
      = integND (momentQuadratureND B r mats none none false l₁) F ∧
    integND (momentQuadratureND B s.1 mats (some s.2.1) (some s.2.2) false l₃) F
      = integND (momentQuadratureND B r mats none none false l₁) F := by
  rw [h.raw, T.gram] at hpd
  have := C85_nd_raw_central_scaled B hB N (by have := T.hN; omega) T.hd L c.2 s.2.2 h.mean_len h.scale_len h.scale_pos basis full
    mats T.basis_eq T.full_eq T.mats_eq hpd false false false l₁ l₂ l₃ F
  rw [h.central, h.scaled, h.raw, h.mean_eq]
  exact this

section

variable (B : Backend) (E : List ℝ → MvPolynomial (Fin d) ℝ →ₗ[ℝ] ℝ) (cv : List ℝ → List ℝ) (pdf : Y → List ℝ → ℝ)

variable {B E cv pdf}

theorem wsumVec_row {A : Type} (full : List (List ℕ)) (r : List (ℝ × List ℝ)) (f : List ℝ → List ℕ → A → ℝ) (a : A) :
    wsumVec full.length r ((CondMoments.multiIndex f).row full a) = full.map fun α => integND r fun x => f x α a := by
  apply List.ext_getElem
  · simp [wsumVec]
  · intro i h1 h2
    have hi : i < full.length := by simpa using h2
    simp only [wsumVec, List.getElem_map, List.getElem_range, FilterND.wsum_eq, CondMoments.row]
    simp [List.getD_eq_getElem?_getD, hi]

theorem wsumVec_congr {n : ℕ} {r r' : List (ℝ × List ℝ)} (h : ∀ F, integND r F = integND r' F) (f : List ℝ → List ℝ) :
    wsumVec n r f = wsumVec n r' f := by
  simp only [wsumVec, FilterND.wsum_eq, h]

theorem wsumVec_mean (r : List (ℝ × List ℝ)) (j : Fin d) :
    (wsumVec d r (meanOfND E)).getD j 0 = mixLawND r E (X j) := by
  rw [mixLawND_apply, wsumVec, getD_map_range' _ j.2, FilterND.wsum_eq]
  congr 1
  funext x
  simp [meanOfND, List.getD_eq_getElem?_getD]

theorem SameLawND.predict {L : MvPolynomial (Fin d) ℝ →ₗ[ℝ] ℝ} {r : List ℝ} {c : List ℝ × List ℝ}
    {s : List ℝ × List ℝ × List ℝ} (h : SameLawND full L r c s) (T : Tables N d basis full mats) (hB : B.Valid)
    (hE : ∀ x, E x 1 = 1) (hpd : (gramOn basis (momentAt full r)).PosDef) (l₁ l₂ l₃ : Bool)
    (hcv : ∀ j < d, 0 < integND (momentQuadratureND B r mats none none false l₁) (fun x => (cv x).getD j 0)) :
    SameLawND full (mixLawND (momentQuadratureND B r mats none none false l₁) E)
      (FilterND.predRms B l₁ full mats (rawOfND E) r)
      (FilterND.predCms B l₂ d full mats (centralOfND E) (meanOfND E) c)
      (FilterND.predScms B l₃ d full mats (scaledOfND E) (fun x => (meanOfND E x, cv x)) s) := by
  have hr := h.rule T B hB hpd l₁ l₂ l₃
  have hrc := fun F => (hr F).1
  have hrs := fun F => (hr F).2
  have hm : (FilterND.predScms B l₃ d full mats (scaledOfND E) (fun x => (meanOfND E x, cv x)) s).2.1
      = (FilterND.predCms B l₂ d full mats (centralOfND E) (meanOfND E) c).2 := by
    simp only [FilterND.predScms, FilterND.predCms]
    rw [wsumVec_congr hrs, wsumVec_congr hrc]
  refine ⟨?_, ?_, ?_, ?_, by simp [FilterND.predCms, wsumVec], hm, by simp [FilterND.predScms, wsumVec], ?_⟩
  · rw [mixLawND_apply]
    simp only [hE]
    have := C22_nd_weights_sum_one B hB r mats (by rw [T.mats_len]; have := T.hd; omega)
      (C22_applies N d (by have := T.hN; omega) T.hd mats T.mats_eq).2 none none false l₁
    simpa [integND] using this
  · rw [FilterND.predRms, rawOfND, wsumVec_row]
    apply List.map_congr_left
    intro α _
    rw [polyMoment, mixLawND_apply]
    rfl
  · simp only [FilterND.predCms]
    rw [centralOfND, wsumVec_row]
    apply List.map_congr_left
    intro α _
    rw [polyMoment, mixLawND_apply, hrc]
    rfl
  · simp only [FilterND.predScms]
    rw [scaledOfND, wsumVec_row]
    apply List.map_congr_left
    intro α _
    rw [polyMoment, mixLawND_apply, hrs]
    rfl
  · intro t ht
    simp only [FilterND.predScms, wsumVec, List.map_map, List.mem_map, List.mem_range, Function.comp_def] at ht
    obtain ⟨j, hj, rfl⟩ := ht
    rw [FilterND.wsum_eq, hrs]
    exact Real.sqrt_pos.2 (hcv j hj)

/-- positivity of the variance from the Gram matrix. -/
theorem var_pos_of_gram (T : Tables N d basis full mats) (L : MvPolynomial (Fin d) ℝ →ₗ[ℝ] ℝ)
    (hpd : (gramOn basis (polyMoment L rawCoord)).PosDef) (j : Fin d) (m : ℝ) : 0 < L ((X j - C m) ^ 2) := by
  have h0 : List.replicate d 0 ∈ basis := T.mem_basis.2 ⟨by simp, by simp, by simp⟩
  have h1 : axisIndex d j 1 ∈ basis := T.mem_basis.2 ⟨by simp [axisIndex], by simp, by
    rw [sum_axisIndex d j 1 j.2]; have := T.hN; omega⟩
  obtain ⟨a, ha, ha'⟩ := List.getElem_of_mem h0
  obtain ⟨b, hb, hb'⟩ := List.getElem_of_mem h1
  have hprod : ∀ k, ∏ i : Fin d, (X i : MvPolynomial (Fin d) ℝ) ^ (axisIndex d j k).getD i 0 = X j ^ k := by
    intro k
    rw [Finset.prod_eq_single j]
    · simp [axisIndex, List.getD_eq_getElem?_getD]
    · intro i _ hi
      have : (i : ℕ) ≠ j := fun h => hi (Fin.ext h)
      simp [axisIndex, List.getD_eq_getElem?_getD, this]
    · simp
  have hadd : ∀ k l, List.zipWith (· + ·) (axisIndex d j k) (axisIndex d j l) = axisIndex d j (k + l) := by
    intro k l
    apply List.ext_getElem
    · simp [axisIndex]
    · intro i h1 h2
      simp only [axisIndex, List.getElem_zipWith, List.getElem_map, List.getElem_range]
      split <;> simp
  have h0' : List.replicate d 0 = axisIndex d j 0 := by
    apply List.ext_getElem
    · simp [axisIndex]
    · intro i h1 h2
      simp [axisIndex]
  have hG : ∀ (u v : Fin basis.length) k l, basis[u] = axisIndex d j k → basis[v] = axisIndex d j l →
      gramOn basis (polyMoment L rawCoord) u v = L (X j ^ (k + l)) := by
    intro u v k l hu hv
    simp only [gramOn, Matrix.of_apply]
    rw [hu, hv, hadd, polyMoment]
    simp only [rawCoord]
    rw [hprod]
  have hab : (⟨a, ha⟩ : Fin basis.length) ≠ ⟨b, hb⟩ := by
    intro h
    have : a = b := congrArg Fin.val h
    subst this
    rw [ha'] at hb'
    have := congrArg List.sum hb'
    rw [sum_axisIndex d j 1 j.2] at this
    simp at this
  have hv : (Pi.single ⟨b, hb⟩ 1 - m • Pi.single ⟨a, ha⟩ 1 : Fin basis.length → ℝ) ≠ 0 := by
    intro h
    have := congrFun h ⟨b, hb⟩
    simp [hab.symm] at this
  have := hpd.dotProduct_mulVec_pos hv
  have e00 := hG ⟨a, ha⟩ ⟨a, ha⟩ 0 0 (by rw [← h0']; exact ha') (by rw [← h0']; exact ha')
  have e01 := hG ⟨a, ha⟩ ⟨b, hb⟩ 0 1 (by rw [← h0']; exact ha') hb'
  have e10 := hG ⟨b, hb⟩ ⟨a, ha⟩ 1 0 hb' (by rw [← h0']; exact ha')
  have e11 := hG ⟨b, hb⟩ ⟨b, hb⟩ 1 1 hb' hb'
  have hexp : star (Pi.single ⟨b, hb⟩ 1 - m • Pi.single ⟨a, ha⟩ 1 : Fin basis.length → ℝ) ⬝ᵥ
      (gramOn basis (polyMoment L rawCoord) *ᵥ (Pi.single ⟨b, hb⟩ 1 - m • Pi.single ⟨a, ha⟩ 1)) = L ((X j - C m) ^ 2) := by
    rw [star_trivial, Matrix.mulVec_sub, Matrix.mulVec_smul, sub_dotProduct, dotProduct_sub, dotProduct_sub, smul_dotProduct,
      smul_dotProduct, dotProduct_smul, dotProduct_smul]
    simp only [single_one_dotProduct, Matrix.mulVec_single_one, Matrix.col_apply, smul_eq_mul, e00, e01, e10, e11]
    have : (X j - C m : MvPolynomial (Fin d) ℝ) ^ 2 = X j ^ 2 - (2 * m) • X j ^ 1 + (m * m) • X j ^ 0 := by
      rw [MvPolynomial.smul_eq_C_mul, MvPolynomial.smul_eq_C_mul]; simp only [map_mul, map_ofNat]; ring
    rw [this]
    simp only [map_add, map_sub, map_smul, smul_eq_mul]
    norm_num
    ring
  rw [hexp] at this
  exact this

theorem SameLawND.update {L : MvPolynomial (Fin d) ℝ →ₗ[ℝ] ℝ} {r : List ℝ} {c : List ℝ × List ℝ}
    {s : List ℝ × List ℝ × List ℝ} {Pr : CondMoments Unit} {Pc : CondMoments (List ℝ)} {Ps : CondMoments (List ℝ × List ℝ)}
    {cm : List ℝ → List ℝ} {cmv : List ℝ → List ℝ × List ℝ} {l₁ l₂ l₃ : Bool}
    (h : SameLawND full L (FilterND.predRms B l₁ full mats Pr r) (FilterND.predCms B l₂ d full mats Pc cm c)
      (FilterND.predScms B l₃ d full mats Ps cmv s)) (T : Tables N d basis full mats) (hB : B.Valid)
    (hpd : (gramOn basis (momentAt full (FilterND.predRms B l₁ full mats Pr r))).PosDef) (y : Y)
    (hZ : FilterND.likRms B l₁ pdf full mats Pr r y ≠ 0)
    (hpd' : (gramOn basis (momentAt full (FilterND.nextRms B l₁ pdf full mats Pr r y))).PosDef) :
    FilterND.likCms B l₂ pdf d full mats Pc cm c y = FilterND.likRms B l₁ pdf full mats Pr r y ∧
    FilterND.likScms B l₃ pdf d full mats Ps cmv s y = FilterND.likRms B l₁ pdf full mats Pr r y ∧
    ∃ L' : MvPolynomial (Fin d) ℝ →ₗ[ℝ] ℝ, SameLawND full L' (FilterND.nextRms B l₁ pdf full mats Pr r y)
        (FilterND.nextCms B l₂ pdf d full mats Pc cm c y)
        (FilterND.nextScms B l₃ pdf d full mats Ps cmv s y) ∧
      (∀ j : Fin d, (FilterND.nextCms B l₂ pdf d full mats Pc cm c y).2.getD j 0 = L' (X j)) ∧
      ∀ j : Fin d, (FilterND.nextScms B l₃ pdf d full mats Ps cmv s y).2.2.getD j 0 ^ 2
        = L' ((X j - C (L' (X j))) ^ 2) := by
  have hr := h.rule T B hB hpd l₁ l₂ l₃
  have hrc : ∀ F, integND (ruleCms B l₂ d full mats Pc cm c) F = integND (ruleRms B l₁ full mats Pr r) F := fun F => (hr F).1
  have hrs : ∀ F, integND (ruleScms B l₃ d full mats Ps cmv s) F = integND (ruleRms B l₁ full mats Pr r) F := fun F => (hr F).2
  have hZc : FilterND.likCms B l₂ pdf d full mats Pc cm c y = FilterND.likRms B l₁ pdf full mats Pr r y := hrc (pdf y)
  have hZs : FilterND.likScms B l₃ pdf d full mats Ps cmv s y = FilterND.likRms B l₁ pdf full mats Pr r y := hrs (pdf y)
  refine ⟨hZc, hZs, ?_⟩
  have hnode : ∀ p ∈ ruleRms B l₁ full mats Pr r, p.2.length = d :=
    momentQuadratureND_node_length B _ _ d T.mats_len _ _ (by simp) (by simp) _ _
  have hZd : integND (ruleRms B l₁ full mats Pr r) (pdf y) = FilterND.likRms B l₁ pdf full mats Pr r y := rfl
  have hnr : FilterND.nextRms B l₁ pdf full mats Pr r y = full.map (fun α => integND (ruleRms B l₁ full mats Pr r)
      (fun x => monomial x α * pdf y x) / FilterND.likRms B l₁ pdf full mats Pr r y) := rfl
  have hnc : FilterND.nextCms B l₂ pdf d full mats Pc cm c y =
      (let mean := (eyeRows d).map fun α => integND (ruleRms B l₁ full mats Pr r) (fun x => monomial (x.map (· - 0)) α * pdf y x)
          / FilterND.likRms B l₁ pdf full mats Pr r y
       (full.map fun α => integND (ruleRms B l₁ full mats Pr r) (fun x => monomial (List.zipWith (· - ·) x mean) α * pdf y x)
          / FilterND.likRms B l₁ pdf full mats Pr r y, mean)) := by
    simp only [FilterND.nextCms, hrc, hZc]
  have hns : FilterND.nextScms B l₃ pdf d full mats Ps cmv s y =
      (let mean := (eyeRows d).map fun α => integND (ruleRms B l₁ full mats Pr r)
          (fun x => monomial (x.map fun t => (t - 0) / 1) α * pdf y x) / FilterND.likRms B l₁ pdf full mats Pr r y
       let scale := (eyeRows d).map fun α => Real.sqrt (integND (ruleRms B l₁ full mats Pr r)
          (fun x => monomial (List.zipWith (fun t m => (t - m) / 1) x mean) (α.map (· * 2)) * pdf y x)
            / FilterND.likRms B l₁ pdf full mats Pr r y)
       (full.map fun α => integND (ruleRms B l₁ full mats Pr r)
          (fun x => monomial (List.zipWith (· / ·) (List.zipWith (· - ·) x mean) scale) α * pdf y x)
            / FilterND.likRms B l₁ pdf full mats Pr r y, mean, scale)) := by
    simp only [FilterND.nextScms, hrs, hZs]
  rw [hnr] at hpd' ⊢
  rw [hnc, hns]
  clear hnr hnc hns hr hrc hrs hZc hZs h
  generalize FilterND.likRms B l₁ pdf full mats Pr r y = Z at *
  generalize ruleRms B l₁ full mats Pr r = ru at *
  -- the posterior law
  set L' : MvPolynomial (Fin d) ℝ →ₗ[ℝ] ℝ := postLawND ru (pdf y) Z with hL'
  have key : ∀ p, L' p = integND ru (fun x => evalAt x p * pdf y x) / Z := fun p => by rw [hL', postLawND_apply]
  have hXe : ∀ (x : List ℝ) (j : Fin d), evalAt x (X j) = x.getD j 0 := by intro x j; simp [evalAt]
  have hraw : (full.map fun α => integND ru (fun x => monomial x α * pdf y x) / Z) = full.map (polyMoment L' rawCoord) := by
    apply List.map_congr_left
    intro α hα
    rw [polyMoment, key]
    congr 1
    apply integND_congr
    intro p hp
    rw [monomial_eq_evalAt rawCoord p.2 p.2 (hnode p hp) (fun j => hXe _ j) α (T.mem_full.1 hα).1]
  have hmean1 : ((eyeRows d).map fun α => integND ru (fun x => monomial (x.map (· - 0)) α * pdf y x) / Z)
      = List.ofFn fun j : Fin d => L' (X j) := by
    apply List.ext_getElem
    · simp [eyeRows]
    · intro i h1 h2
      have hi : i < d := by simpa using h2
      simp only [eyeRows_eq, List.getElem_map, List.getElem_range, List.getElem_ofFn]
      rw [key]
      congr 1
      apply integND_congr
      intro p hp
      rw [monomial_axis _ (by simp [hnode p hp]) i 1 hi, hXe]
      simp
  have hmean2 : ((eyeRows d).map fun α => integND ru (fun x => monomial (x.map fun t => (t - 0) / 1) α * pdf y x) / Z)
      = List.ofFn fun j : Fin d => L' (X j) := by
    rw [← hmean1]
    apply List.map_congr_left
    intro α _
    simp only [div_one]
  have hpdL : (gramOn basis (polyMoment L' rawCoord)).PosDef := by
    rw [hraw, T.gram] at hpd'
    exact hpd'
  simp only [hmean1, hmean2, hraw]
  have hml : (List.ofFn fun j : Fin d => L' (X j)).length = d := by simp
  have hmg : ∀ j : Fin d, (List.ofFn fun j : Fin d => L' (X j)).getD j 0 = L' (X j) := by
    intro j; simp [List.getD_eq_getElem?_getD]
  generalize (List.ofFn fun j : Fin d => L' (X j)) = m at hml hmg ⊢
  have hscale : ((eyeRows d).map fun α => Real.sqrt (integND ru
        (fun x => monomial (List.zipWith (fun t m => (t - m) / 1) x m) (α.map (· * 2)) * pdf y x) / Z))
      = List.ofFn fun j : Fin d => Real.sqrt (L' ((X j - C (L' (X j))) ^ 2)) := by
    apply List.ext_getElem
    · simp [eyeRows]
    · intro i h1 h2
      have hi : i < d := by simpa using h2
      simp only [eyeRows_eq, List.getElem_map, List.getElem_range, List.getElem_ofFn, div_one]
      rw [key]
      congr 2
      apply integND_congr
      intro p hp
      rw [axisIndex_double, one_mul, monomial_axis _ (by simp [hnode p hp, hml]) i 2 hi, getD_zipWith_sub (hnode p hp) hml]
      have := hmg ⟨i, hi⟩
      simp only at this
      rw [this]
      simp [evalAt]
  simp only [hscale]
  have hpos : ∀ j : Fin d, 0 < L' ((X j - C (L' (X j))) ^ 2) := fun j => var_pos_of_gram T L' hpdL j _
  have hsl : (List.ofFn fun j : Fin d => Real.sqrt (L' ((X j - C (L' (X j))) ^ 2))).length = d := by simp
  have hsg : ∀ j : Fin d, (List.ofFn fun j : Fin d => Real.sqrt (L' ((X j - C (L' (X j))) ^ 2))).getD j 0
      = Real.sqrt (L' ((X j - C (L' (X j))) ^ 2)) := by
    intro j; simp [List.getD_eq_getElem?_getD]
  have hspos : ∀ t ∈ (List.ofFn fun j : Fin d => Real.sqrt (L' ((X j - C (L' (X j))) ^ 2))), 0 < t := by
    intro t ht
    rw [List.mem_ofFn] at ht
    obtain ⟨j, rfl⟩ := ht
    exact Real.sqrt_pos.2 (hpos j)
  generalize (List.ofFn fun j : Fin d => Real.sqrt (L' ((X j - C (L' (X j))) ^ 2))) = sc at hsl hsg hspos ⊢
  refine ⟨L', ⟨?_, rfl, ?_, ?_, hml, rfl, hsl, hspos⟩, hmg, ?_⟩
  · rw [hL', postLawND_apply]
    simp only [evalAt, AlgHom.toLinearMap_apply, map_one, one_mul]
    rw [hZd]
    exact div_self hZ
  · apply List.map_congr_left
    intro α hα
    rw [polyMoment, key]
    congr 1
    apply integND_congr
    intro p hp
    rw [monomial_eq_evalAt (centralCoord m) p.2 _ (by simp [hnode p hp, hml]) ?_ α (T.mem_full.1 hα).1]
    intro j
    rw [getD_zipWith_sub (hnode p hp) hml]
    simp [evalAt, centralCoord]
  · apply List.map_congr_left
    intro α hα
    rw [polyMoment, key]
    congr 1
    apply integND_congr
    intro p hp
    rw [monomial_eq_evalAt (scaledCoord m sc) p.2 _ (by simp [hnode p hp, hml, hsl]) ?_ α (T.mem_full.1 hα).1]
    intro j
    have : (List.zipWith (· / ·) (List.zipWith (· - ·) p.2 m) sc).getD j 0
        = (p.2.getD j 0 - m.getD j 0) / sc.getD j 0 := by
      simp [List.getD_eq_getElem?_getD, hnode p hp, hml, hsl]
    rw [this]
    simp [evalAt, scaledCoord, div_eq_inv_mul]
  · intro j
    rw [hsg, Real.sq_sqrt (hpos j).le]

variable (B E cv pdf)

/-- along the run of the raw filter: Gram matrices positive definite, averaged conditional variances positive, predictive
likelihoods non-zero. -/
def StaysValidND (stable : Bool) (basis full : List (List ℕ)) (mats : List (List (List ℤ))) : List ℝ → List Y → Prop
  | r, [] => (gramOn basis (momentAt full r)).PosDef
  | r, y :: ys => (gramOn basis (momentAt full r)).PosDef ∧
      (∀ j < d, 0 < integND (momentQuadratureND B r mats none none false stable) (fun x => (cv x).getD j 0)) ∧
      (gramOn basis (momentAt full (FilterND.predRms B stable full mats (rawOfND E) r))).PosDef ∧
      FilterND.likRms B stable pdf full mats (rawOfND E) r y ≠ 0 ∧
      StaysValidND stable basis full mats (FilterND.nextRms B stable pdf full mats (rawOfND E) r y) ys

variable {B E cv pdf}

theorem StaysValidND.head {stable : Bool} {r : List ℝ} {ys : List Y} (h : StaysValidND B E cv pdf stable basis full mats r ys) :
    (gramOn basis (momentAt full r)).PosDef := by
  cases ys with
  | nil => exact h
  | cons y ys => exact h.1

/-- **C36.** Let the transition law be `E x` (a linear functional on polynomials in `d` variables, total mass one), the
tables those of the library for `N ≥ 2` and `d ≥ 1`, and the initial raw, central and scaled moments those of one law. As
long as the run of the raw filter stays valid, the three filters succeed, return the same negative log-likelihood and, at
every step, the raw, central and scaled moments of one law, with its mean and its standard deviations. The conditional
variances `cv` given to the scaled filter need not be correct. -/
theorem C36_nd_same_filter (hB : B.Valid) (T : Tables N d basis full mats) (hE : ∀ x, E x 1 = 1) (l₁ l₂ l₃ : Bool)
    (rms0 cms0 scms0 m0 s0 : List ℝ) (L : MvPolynomial (Fin d) ℝ →ₗ[ℝ] ℝ)
    (h : SameLawND full L rms0 (cms0, m0) (scms0, m0, s0)) (ys : List Y)
    (hv : StaysValidND B E cv pdf l₁ basis full mats rms0 ys) :
    ∃ a b c, FilterND.filterRms B (rawOfND E) pdf ys (full, mats) rms0 l₁ = .ok a ∧
      FilterND.filterCms B (centralOfND E) (meanOfND E) pdf ys (full, mats) cms0 m0 l₂ = .ok b ∧
      FilterND.filterScms B (scaledOfND E) (fun x => (meanOfND E x, cv x)) pdf ys (full, mats) scms0 m0 s0 l₃ = .ok c ∧
      b.2 = a.2 ∧ c.2 = a.2 ∧ a.1.length = ys.length ∧ b.1.length = ys.length ∧ c.1.length = ys.length ∧
      ∀ (k : ℕ) r ce sc, a.1[k]? = some r → b.1[k]? = some ce → c.1[k]? = some sc →
        ∃ L' : MvPolynomial (Fin d) ℝ →ₗ[ℝ] ℝ, SameLawND full L' r ce sc ∧ (∀ j : Fin d, ce.2.getD j 0 = L' (X j)) ∧
          ∀ j : Fin d, sc.2.2.getD j 0 ^ 2 = L' ((X j - C (L' (X j))) ^ 2) := by
  have e1 : full.length = rms0.length := by rw [h.raw]; simp
  have e2 : full.length = cms0.length := by have := h.central; simp only at this; rw [this]; simp
  have e3 : full.length = scms0.length := by have := h.scaled; simp only at this; rw [this]; simp
  simp only [FilterND.filterRms_eq, FilterND.filterCms_eq, FilterND.filterScms_eq, ← e1, ← e2, ← e3, ne_eq, not_true_eq_false,
    if_false, T.head_len]
  refine ⟨_, _, _, rfl, rfl, rfl, ?_⟩
  simp only [length_traj, true_and]
  generalize (cms0, m0) = c0 at *
  generalize (scms0, m0, s0) = sc0 at *
  clear e1 e2 e3
  set gr := FilterND.nextRms B l₁ pdf full mats (rawOfND E) with hgr
  set gc := FilterND.nextCms B l₂ pdf d full mats (centralOfND E) (meanOfND E) with hgc
  set gs := FilterND.nextScms B l₃ pdf d full mats (scaledOfND E) (fun x => (meanOfND E x, cv x)) with hgs
  set lr := FilterND.likRms B l₁ pdf full mats (rawOfND E) with hlr
  set lc := FilterND.likCms B l₂ pdf d full mats (centralOfND E) (meanOfND E) with hlc
  set ls := FilterND.likScms B l₃ pdf d full mats (scaledOfND E) (fun x => (meanOfND E x, cv x)) with hls
  suffices H : liks gc lc c0 ys = liks gr lr rms0 ys ∧ liks gs ls sc0 ys = liks gr lr rms0 ys ∧
      ∀ (k : ℕ) r ce sc, (traj gr rms0 ys)[k]? = some r → (traj gc c0 ys)[k]? = some ce → (traj gs sc0 ys)[k]? = some sc →
        ∃ L' : MvPolynomial (Fin d) ℝ →ₗ[ℝ] ℝ, SameLawND full L' r ce sc ∧ (∀ j : Fin d, ce.2.getD j 0 = L' (X j)) ∧
          ∀ j : Fin d, sc.2.2.getD j 0 ^ 2 = L' ((X j - C (L' (X j))) ^ 2) by
    rw [H.1, H.2.1]
    exact ⟨rfl, rfl, H.2.2⟩
  induction ys generalizing rms0 c0 sc0 L with
  | nil => simp [liks, traj]
  | cons y ys ih =>
    obtain ⟨h1, h2, h3, h4, h5⟩ := hv
    obtain ⟨e1, e2, L', hL', e3, e4⟩ := (h.predict T hB hE h1 l₁ l₂ l₃ h2).update T hB h3 y h4 h5.head
    obtain ⟨i1, i2, i3⟩ := ih _ _ h5 _ _ hL'
    refine ⟨?_, ?_, ?_⟩
    · rw [liks, liks, i1, hlc, e1]
    · rw [liks, liks, i2, hls, e2]
    · intro k r ce sc hr hce hsc
      cases k with
      | zero =>
        simp only [traj, List.getElem?_cons_zero, Option.some.injEq] at hr hce hsc
        subst hr hce hsc
        exact ⟨L', hL', e3, e4⟩
      | succ k =>
        simp only [traj, List.getElem?_cons_succ] at hr hce hsc
        exact i3 k r ce sc hr hce hsc

end

/-- a run meeting the hypotheses: a state which does not move, a constant density, any law with positive definite Gram
matrix (`fourPoints` for instance), any number of measurements. -/
theorem staysValidND_static (B : Backend) (hB : B.Valid) (T : Tables N d basis full mats) (stable : Bool)
    (L : MvPolynomial (Fin d) ℝ →ₗ[ℝ] ℝ) (hL : L 1 = 1) (hpd : (gramOn basis (polyMoment L rawCoord)).PosDef) (ys : List Y) :
    StaysValidND B (fun x => (evalAt x : MvPolynomial (Fin d) ℝ →ₗ[ℝ] ℝ)) (fun _ => List.replicate d 1) (fun _ _ => (2 : ℝ)) stable basis full mats
      (full.map (polyMoment L rawCoord)) ys := by
  have hpd' : (gramOn basis (momentAt full (full.map (polyMoment L rawCoord)))).PosDef := by rw [T.gram]; exact hpd
  have hsum := C22_nd_weights_sum_one B hB (full.map (polyMoment L rawCoord)) mats
    (by rw [T.mats_len]; have := T.hd; omega)
    (C22_applies N d (by have := T.hN; omega) T.hd mats T.mats_eq).2 none none false stable
  have hconst : ∀ c : ℝ, integND (momentQuadratureND B (full.map (polyMoment L rawCoord)) mats none none false stable) (fun _ => c) = c := by
    intro c
    rw [integND]
    have : ∀ l : List (ℝ × List ℝ), (l.map fun p => p.1 * c).sum = (l.map (·.1)).sum * c := by
      intro l
      rw [← List.sum_map_mul_right]
    rw [this, hsum, one_mul]
  obtain ⟨hex, _, hnode⟩ := C21_nd_reproduces B hB N d (by have := T.hN; omega) T.hd (polyMoment L rawCoord) basis full mats
    T.basis_eq T.full_eq T.mats_eq hpd false stable
  have hmon : ∀ α ∈ full, integND (momentQuadratureND B (full.map (polyMoment L rawCoord)) mats none none false stable)
      (fun x => monomial x α) = polyMoment L rawCoord α := by
    intro α hα
    rw [hex α (T.mem_full.1 hα)]
    have : polyMoment L rawCoord (List.replicate d 0) = 1 := by
      rw [polyMoment]
      simp [List.getD_eq_getElem?_getD, hL]
    rw [this, div_one]
  have hpred : FilterND.predRms B stable full mats (rawOfND fun x => (evalAt x : MvPolynomial (Fin d) ℝ →ₗ[ℝ] ℝ))
      (full.map (polyMoment L rawCoord)) = full.map (polyMoment L rawCoord) := by
    rw [FilterND.predRms, rawOfND, wsumVec_row]
    apply List.map_congr_left
    intro α hα
    rw [← hmon α hα]
    apply integND_congr
    intro p hp
    rw [monomial_eq_evalAt rawCoord p.2 p.2 (hnode p hp) (fun j => by simp [evalAt, rawCoord]) α (T.mem_full.1 hα).1]
    rfl
  have hlik : ∀ y : Y, FilterND.likRms B stable (fun _ _ => (2 : ℝ)) full mats
      (rawOfND fun x => (evalAt x : MvPolynomial (Fin d) ℝ →ₗ[ℝ] ℝ)) (full.map (polyMoment L rawCoord)) y = 2 := by
    intro y
    rw [FilterND.likRms, ruleRms, hpred]
    exact hconst 2
  have hnext : ∀ y : Y, FilterND.nextRms B stable (fun _ _ => (2 : ℝ)) full mats
      (rawOfND fun x => (evalAt x : MvPolynomial (Fin d) ℝ →ₗ[ℝ] ℝ)) (full.map (polyMoment L rawCoord)) y
        = full.map (polyMoment L rawCoord) := by
    intro y
    rw [FilterND.nextRms, hlik, ruleRms, hpred]
    apply List.map_congr_left
    intro α hα
    simp only [mul_comm _ (2 : ℝ)]
    rw [integND_mul_left, hmon α hα]
    field_simp
  induction ys with
  | nil => exact hpd'
  | cons y ys ih =>
    refine ⟨hpd', ?_, ?_, ?_, ?_⟩
    · intro j hj
      have : (List.replicate d (1 : ℝ)).getD j 0 = 1 := by simp [List.getD_eq_getElem?_getD, hj]
      simp only [this, hconst]; norm_num
    · rw [hpred]; exact hpd'
    · rw [hlik]; norm_num
    · rw [hnext]; exact ih

/-- initial moments of one law, and tables, for `N = 2`, `d = 2`. -/
example : ∃ full mats, Tables 2 2 [[0, 0], [0, 1], [1, 0]] full mats ∧
    SameLawND full fourPoints (full.map (polyMoment fourPoints rawCoord))
      (full.map (polyMoment fourPoints (centralCoord [1, 2])), [1, 2])
      (full.map (polyMoment fourPoints (scaledCoord [1, 2] [3, 4])), [1, 2], [3, 4]) := by
  obtain ⟨b, f, m, h1, h2, h3, _⟩ := C05_gram_hankel_indices 2 2 (by norm_num) (by norm_num)
  have hb : b = [[0, 0], [0, 1], [1, 0]] := by
    have : generateMultiIndices 2 (2 - 1) 0 = .ok [[0, 0], [0, 1], [1, 0]] := by rfl
    rw [this] at h1; cases h1; rfl
  subst hb
  exact ⟨f, m, ⟨by norm_num, by norm_num, h1, h2, h3⟩,
    ⟨fourPoints_one, rfl, rfl, rfl, rfl, rfl, rfl, by simp⟩⟩

end Mfs.Props

import Verif.Props.QuadNDMore
import Verif.Props.FilterND

/-!
# Property C113: signs of the multidimensional weights
-/

namespace Mfs.Props

open Matrix Mfs.MultiIndex Mfs.QuadND Mfs.Spec Polynomial

/-- the law putting mass 1/4 on each of `(1, ±√(3/2))`, `(-1, ±√(1/2))`: mean zero, unit covariance. -/
noncomputable def skewAtoms : List (List ℝ) := [[1, √(3 / 2)], [1, -√(3 / 2)], [-1, √(1 / 2)], [-1, -√(1 / 2)]]

/-- moments of that law. -/
noncomputable def skewMoment (α : List ℕ) : ℝ := (skewAtoms.map fun x => 1 / 4 * Spec.monomial x α).sum

theorem skewMoment_eq : ∃ u v : ℝ, u ^ 2 = 3 / 2 ∧ v ^ 2 = 1 / 2 ∧ ∀ i j : ℕ, skewMoment [i, j]
    = 1 / 4 * (u ^ j + (-u) ^ j + (-1) ^ i * v ^ j + (-1) ^ i * (-v) ^ j) := by
  refine ⟨√(3 / 2), √(1 / 2), Real.sq_sqrt (by norm_num), Real.sq_sqrt (by norm_num), fun i j => ?_⟩
  rw [skewMoment, skewAtoms]
  generalize √(3 / 2 : ℝ) = u
  generalize √(1 / 2 : ℝ) = v
  simp [Spec.monomial]
  ring

/-- matrices of multiplication by the two coordinates, in the basis `1, x₂, x₁`. -/
noncomputable def skewH1 : Matrix (Fin 3) (Fin 3) ℝ := !![0, 0, 1; 0, 1 / 2, 0; 1, 0, 0]
noncomputable def skewH2 : Matrix (Fin 3) (Fin 3) ℝ := !![0, 1, 0; 1, 0, 1 / 2; 0, 1 / 2, 0]

/-- a polynomial which is non-negative everywhere. -/
noncomputable def skewSq (x : List ℝ) : ℝ :=
  ((x.getD 0 0 + 1) * (x.getD 0 0 - 1 / 2)) ^ 2 * (x.getD 1 0 ^ 2 - 5 / 4) ^ 2

theorem skew_gram : gramOn [[0, 0], [0, 1], [1, 0]] skewMoment = (1 : Matrix (Fin 3) (Fin 3) ℝ) := by
  obtain ⟨u, v, hu, hv, h⟩ := skewMoment_eq
  ext i j
  fin_cases i <;> fin_cases j <;> simp [gramOn, h] <;> norm_num [hu, hv]

theorem one_isChol {n : ℕ} : IsChol (1 : Matrix (Fin n) (Fin n) ℝ) 1 := by
  refine ⟨fun i j h => ?_, fun i => by simp, by simp⟩
  exact Matrix.one_apply_ne (by rintro rfl; exact lt_irrefl _ h)

/-- the rule of the law above, on products of polynomials. -/
theorem skew_core (B : Backend) (hB : B.Valid) (sort ldl : Bool) (P Q : ℝ[X]) :
    integND (quadCore B 3 2 1 [skewH1, skewH2] none none sort ldl) (fun x => P.eval (x.getD 0 0) * Q.eval (x.getD 1 0))
      = (aeval skewH1 P * aeval skewH2 Q) 0 0 := by
  have hR : codeR B (1 : Matrix (Fin 3) (Fin 3) ℝ) ldl = 1 := (codeR_isChol hB Matrix.PosDef.one ldl).unique one_isChol
  have hS1 : skewH1.IsSymm := by
    ext i j; fin_cases i <;> fin_cases j <;> rfl
  have hS2 : skewH2.IsSymm := by
    ext i j; fin_cases i <;> fin_cases j <;> rfl
  have hO : ∀ H : Matrix (Fin 3) (Fin 3) ℝ, H.IsSymm → symmetrize (Quad1.orthonormalise (codeR B 1 ldl) H) = H := by
    intro H hH
    rw [hR, Quad1.orthonormalise_eq (G := 1) one_isChol.lower, multMat]
    simpa using symmetrize_eq hH
  rw [integND_congr (F' := prodFun [fun t => P.eval t, fun t => Q.eval t]) fun p hp => ?_]
  · have key := quadCore_prod B (z := 3) (by norm_num) 1 [skewH1, skewH2] (by simp) sort ldl
      [fun t => P.eval t, fun t => Q.eval t] rfl
    refine key.trans ?_
    simp only [List.map_cons, List.map_nil, List.zipWith_cons_cons, List.zipWith_nil_left, List.prod_cons, List.prod_nil, mul_one,
      hO _ hS1, hO _ hS2, (hB.eigh sort _ hS1).funMat_poly, (hB.eigh sort _ hS2).funMat_poly]
    rfl
  · obtain ⟨a, b, hab⟩ := List.length_eq_two.1 (nodes_length B 1 [skewH1, skewH2] sort ldl p hp)
    rw [hab]
    simp [prodFun]

theorem skew_H (μ : List ℕ → ℝ) (hμ : μ = skewMoment) (Hs : Fin 2 → Matrix (Fin 3) (Fin 3) ℝ)
    (h : ∀ i a b, Hs i a b = μ (List.ofFn fun j : Fin 2 =>
      (([[0, 0], [0, 1], [1, 0]] : List (List ℕ))[(a : ℕ)]'a.2).getD j 0
        + (([[0, 0], [0, 1], [1, 0]] : List (List ℕ))[(b : ℕ)]'b.2).getD j 0 + (Pi.single i 1 : Fin 2 → ℕ) j)) :
    List.ofFn Hs = [skewH1, skewH2] := by
  obtain ⟨u, v, hu, hv, hm⟩ := skewMoment_eq
  have e1 : Hs 0 = skewH1 := by
    ext a b
    rw [h, hμ]
    fin_cases a <;> fin_cases b <;> simp [hm, skewH1, Pi.single_apply] <;> ring_nf <;> simp [hu, hv] <;> norm_num
  have e2 : Hs 1 = skewH2 := by
    ext a b
    rw [h, hμ]
    fin_cases a <;> fin_cases b <;> simp [hm, skewH2, Pi.single_apply] <;> ring_nf <;> simp [hu, hv] <;> norm_num
  simp [List.ofFn_succ, e1, e2]

/-- the rule, on products of polynomials. -/
theorem skew_rule (B : Backend) (hB : B.Valid) {full : List (List ℕ)} {mats : List (List (List ℤ))}
    (hfull : generateMultiIndices 2 (2 * 2 - 1) 0 = .ok full) (hmats : gramAndHankelIndices 2 2 = .ok mats) (sort ldl : Bool)
    (P Q : ℝ[X]) :
    integND (momentQuadratureND B (full.map skewMoment) mats none none sort ldl)
      (fun x => P.eval (x.getD 0 0) * Q.eval (x.getD 1 0)) = (aeval skewH1 P * aeval skewH2 Q) 0 0 := by
  obtain ⟨h, Hs, hq, hD⟩ := nd_setup (N := 2) (d := 2) (by norm_num) (by norm_num) skewMoment
    (basis := [[0, 0], [0, 1], [1, 0]]) rfl hfull hmats
  have hHs : List.ofFn Hs = [skewH1, skewH2] := by
    refine skew_H skewMoment rfl Hs fun i a b => ?_
    have := (hD 1 (by rw [skew_gram]; exact one_isChol)).H_eq i a b
    exact this
  rw [hq, hHs]
  have := skew_core B hB sort ldl P Q
  rw [← skew_gram] at this
  exact this

theorem aeval_skew1 : aeval skewH1 (((X + C 1) * (X - C (1 / 2))) ^ 2 : ℝ[X]) = !![1 / 2, 0, 1 / 2; 0, 0, 0; 1 / 2, 0, 1 / 2] := by
  simp only [map_pow, map_mul, map_add, map_sub, aeval_X, aeval_C, Algebra.algebraMap_eq_smul_one]
  ext i j
  fin_cases i <;> fin_cases j <;> simp [skewH1, pow_two, Matrix.mul_apply, Fin.sum_univ_three, Matrix.one_apply] <;> norm_num

theorem aeval_skew2 : aeval skewH2 ((X ^ 2 - C (5 / 4)) ^ 2 : ℝ[X]) = !![5 / 16, 0, -5 / 8; 0, 0, 0; -5 / 8, 0, 5 / 4] := by
  simp only [map_pow, map_sub, aeval_X, aeval_C, Algebra.algebraMap_eq_smul_one]
  ext i j
  fin_cases i <;> fin_cases j <;> simp [skewH2, pow_two, Matrix.mul_apply, Fin.sum_univ_three, Matrix.one_apply] <;> norm_num

/-- **C113 (the claim is false).** The moments of the law with mass 1/4 on each point of `skewAtoms`, a genuine probability law
on the plane with identity covariance, give for `N = d = 2` a rule with a negative weight. It assigns a negative integral to the
non-negative polynomial `skewSq`. Consequently `moment_filter_nd_rms`, run for one step on a static state with this initial law
and a measurement density which is at least one everywhere, takes the logarithm of a negative likelihood and returns a posterior
second moment of the second coordinate equal to `-1`. -/
theorem C113_weights_nonneg_refuted (B : Backend) (hB : B.Valid) (basis full : List (List ℕ)) (mats : List (List (List ℤ)))
    (hbasis : generateMultiIndices 2 (2 - 1) 0 = .ok basis) (hfull : generateMultiIndices 2 (2 * 2 - 1) 0 = .ok full)
    (hmats : gramAndHankelIndices 2 2 = .ok mats) (sort ldl : Bool) :
    (gramOn basis skewMoment).PosDef ∧
    (∃ q ∈ momentQuadratureND B (full.map skewMoment) mats none none sort ldl, q.1 < 0) ∧
    (∀ x, 0 ≤ skewSq x) ∧ integND (momentQuadratureND B (full.map skewMoment) mats none none sort ldl) skewSq < 0 ∧
    ∃ pdf : List ℝ → ℝ, (∀ x, 1 ≤ pdf x) ∧
      integND (momentQuadratureND B (full.map skewMoment) mats none none sort ldl) pdf < 0 ∧
      ∃ out nell, FilterND.filterRms B (.multiIndex fun x α _ => Spec.monomial x α) (fun (_ : Unit) x => pdf x) [()] (full, mats)
          (full.map skewMoment) ldl = .ok ([out], nell) ∧
        ∃ i : ℕ, full[i]? = some [0, 2] ∧ out[i]? = some (-1) := by
  have hbasis' : basis = [[0, 0], [0, 1], [1, 0]] := by
    have : generateMultiIndices 2 (2 - 1) 0 = .ok [[0, 0], [0, 1], [1, 0]] := rfl
    rw [hbasis] at this
    exact Except.ok.inj this
  subst hbasis'
  have hpd : (gramOn [[0, 0], [0, 1], [1, 0]] skewMoment).PosDef := by rw [skew_gram]; exact Matrix.PosDef.one
  have hnn : ∀ x, 0 ≤ skewSq x := fun x => by rw [skewSq]; positivity
  set P : ℝ[X] := ((X + C 1) * (X - C (1 / 2))) ^ 2 with hP
  set Q : ℝ[X] := (X ^ 2 - C (5 / 4)) ^ 2 with hQ
  have hsq : skewSq = fun x => P.eval (x.getD 0 0) * Q.eval (x.getD 1 0) := by
    funext x; simp [skewSq, hP, hQ]
  have hint : ∀ sort, integND (momentQuadratureND B (full.map skewMoment) mats none none sort ldl) skewSq = -5 / 32 := by
    intro sort
    rw [hsq, skew_rule B hB hfull hmats, aeval_skew1, aeval_skew2]
    simp [Matrix.mul_apply, Fin.sum_univ_three]
    norm_num
  have hone : ∀ sort, integND (momentQuadratureND B (full.map skewMoment) mats none none sort ldl) (fun _ => 1) = 1 := by
    intro sort
    have := C22_nd_weights_sum_one B hB (full.map skewMoment) mats (C22_applies 2 2 (by norm_num) (by norm_num) mats hmats).1
      (C22_applies 2 2 (by norm_num) (by norm_num) mats hmats).2 none none sort ldl
    simpa [integND] using this
  have hlin : ∀ (r : List (ℝ × List ℝ)) (c : ℝ) (f g : List ℝ → ℝ),
      integND r (fun x => f x + c * g x) = integND r f + c * integND r g := by
    intro r c f g
    have := integND_sub r (fun x => f x) (fun x => (-c) * g x)
    rw [integND_mul_left] at this
    simpa [sub_eq_add_neg] using this
  refine ⟨hpd, ?_, hnn, by rw [hint]; norm_num, fun x => 1 + 64 / 5 * skewSq x, fun x => ?_, ?_, ?_⟩
  · by_contra hcon
    push Not at hcon
    have : 0 ≤ integND (momentQuadratureND B (full.map skewMoment) mats none none sort ldl) skewSq := by
      rw [integND]
      refine List.sum_nonneg fun a ha => ?_
      obtain ⟨q, hq, rfl⟩ := List.mem_map.1 ha
      exact mul_nonneg (hcon q hq) (hnn _)
    rw [hint] at this
    norm_num at this
  · have := hnn x
    linarith
  · rw [hlin, hone, hint]; norm_num
  · obtain ⟨t, ht, _, hmem⟩ := C01_generate_complete 2 (2 * 2 - 1) 0 (by norm_num) (by norm_num)
    rw [hfull] at ht; cases ht
    obtain ⟨u, v, hu, hv, hm⟩ := skewMoment_eq
    have hrep := (C21_nd_reproduces B hB 2 2 (by norm_num) (by norm_num) skewMoment _ full mats hbasis hfull hmats hpd false ldl).1
    have h00 : skewMoment (List.replicate 2 0) = 1 := by
      rw [show List.replicate 2 0 = [0, 0] from rfl, hm]; norm_num
    have hrep' : ∀ α ∈ full, integND (momentQuadratureND B (full.map skewMoment) mats none none false ldl)
        (fun x => Spec.monomial x α) = skewMoment α := by
      intro α hα
      rw [hrep α ((hmem α).1 hα), h00, div_one]
    have h02 : [0, 2] ∈ full := (hmem _).2 (by simp [IsMultiIndex])
    have hpred : FilterND.predRms B ldl full mats (.multiIndex fun x α _ => Spec.monomial x α) (full.map skewMoment)
        = full.map skewMoment := by
      apply List.ext_getElem
      · simp [FilterND.predRms, FilterND.wsumVec]
      · intro k h1 h2
        have hk : k < full.length := by simpa using h2
        simp only [FilterND.predRms, FilterND.wsumVec, FilterND.CondMoments.row, List.getElem_map, List.getElem_range,
          FilterND.wsum_eq]
        rw [← hrep' _ (List.getElem_mem hk)]
        refine integND_congr fun p _ => ?_
        simp [List.getD_eq_getElem?_getD, hk]
    rw [FilterND.filterRms_eq, if_neg (by simp)]
    refine ⟨_, _, rfl, ?_⟩
    obtain ⟨i, hi, hi2⟩ := List.getElem_of_mem h02
    refine ⟨i, by rw [List.getElem?_eq_getElem hi, hi2], ?_⟩
    rw [FilterND.nextRms, List.getElem?_map, List.getElem?_eq_getElem hi, hi2, Option.map_some, FilterND.likRms,
      FilterND.ruleRms, hpred, hlin, hone, hint]
    have h2 : integND (momentQuadratureND B (full.map skewMoment) mats none none false ldl)
        (fun x => Spec.monomial x [0, 2] * (1 + 64 / 5 * skewSq x)) = 1 := by
      have e1 : ∀ p ∈ momentQuadratureND B (full.map skewMoment) mats none none false ldl,
          Spec.monomial p.2 [0, 2] * (1 + 64 / 5 * skewSq p.2)
            = Spec.monomial p.2 [0, 2] + 64 / 5 * (P.eval (p.2.getD 0 0) * (X ^ 2 * Q).eval (p.2.getD 1 0)) := by
        intro p hp
        obtain ⟨a, b, hab⟩ := List.length_eq_two.1 ((C21_nd_reproduces B hB 2 2 (by norm_num) (by norm_num) skewMoment _ full
          mats hbasis hfull hmats hpd false ldl).2.2 p hp)
        rw [hsq, hab]
        simp [Spec.monomial]
        ring
      rw [integND_congr (F' := fun x => Spec.monomial x [0, 2] + 64 / 5 * (P.eval (x.getD 0 0) * (X ^ 2 * Q).eval (x.getD 1 0))) e1,
        hlin, hrep' _ h02, hm, skew_rule B hB hfull hmats, map_mul (aeval skewH2), aeval_skew2]
      have e2 : aeval skewH2 (X ^ 2 : ℝ[X]) * !![5 / 16, 0, -5 / 8; 0, 0, 0; -5 / 8, 0, 5 / 4] = 0 := by
        simp only [map_pow, aeval_X]
        ext i j
        fin_cases i <;> fin_cases j <;> simp [skewH2, pow_two, Matrix.mul_apply, Fin.sum_univ_three] <;> norm_num
      rw [e2, mul_zero]
      simp [hu, hv]
      norm_num
    rw [h2]
    norm_num

/-- the hypotheses can be met. -/
example : theBackend.Valid ∧ generateMultiIndices 2 (2 - 1) 0 = .ok [[0, 0], [0, 1], [1, 0]] ∧
    (∃ full, generateMultiIndices 2 (2 * 2 - 1) 0 = .ok full) ∧ ∃ mats, gramAndHankelIndices 2 2 = .ok mats := by
  obtain ⟨_, full, mats, _, h2, h3, _⟩ := C05_gram_hankel_indices 2 2 (by norm_num) (by norm_num)
  exact ⟨theBackend_valid, rfl, ⟨full, h2⟩, mats, h3⟩

/-- **C113, what is true.** In dimension one the weights are non-negative, for every moment vector, mean and scale. In any
dimension the rule of a law with as many atoms as there are multi-indices of order below `N`, in general position, integrates
non-negative functions to non-negative numbers (independent coordinates: C114). Missing: laws in dimension two or more with
more atoms and dependent coordinates, where the claim is false (`C113_weights_nonneg_refuted`). -/
theorem C113_weights_nonneg_partial (B : Backend) (hB : B.Valid) (sort ldl : Bool) :
    (∀ (N : ℕ) (mats : List (List (List ℤ))) (ms : List ℝ) (mean scale : ℝ), 1 ≤ N → gramAndHankelIndices N 1 = .ok mats →
      ms.length / 2 = N →
      (∀ q ∈ momentQuadratureND B ms mats none none sort ldl, 0 ≤ q.1) ∧
      (∀ q ∈ momentQuadratureND B ms mats (some [mean]) none sort ldl, 0 ≤ q.1) ∧
      ∀ q ∈ momentQuadratureND B ms mats (some [mean]) (some [scale]) sort ldl, 0 ≤ q.1) ∧
    ∀ (N d : ℕ) (basis full : List (List ℕ)) (mats : List (List (List ℤ))), 1 ≤ N → 1 ≤ d →
      generateMultiIndices d (N - 1) 0 = .ok basis → generateMultiIndices d (2 * N - 1) 0 = .ok full →
      gramAndHankelIndices N d = .ok mats → ∀ (p : Fin basis.length → ℝ) (x : Fin basis.length → List ℝ),
      (∀ i, 0 < p i) → (∀ i, (x i).length = d) →
      (Matrix.of fun a i => Spec.monomial (x i) basis[a] : Matrix (Fin basis.length) (Fin basis.length) ℝ).det ≠ 0 →
      ∀ F : List ℝ → ℝ, (∀ x, 0 ≤ F x) →
        0 ≤ integND (momentQuadratureND B (full.map fun α => ∑ i, p i * Spec.monomial (x i) α) mats none none sort ldl) F := by
  constructor
  · intro N mats ms mean scale hN hm hl
    obtain ⟨h1, h2, h3⟩ := C23_nd_one_dim B N hN mats hm ms hl mean scale sort ldl
    have key : ∀ m s, ∀ q ∈ (ruleList B ms m s sort ldl).map (fun p => (p.1, [p.2])), 0 ≤ q.1 := by
      intro m s q hq
      obtain ⟨p, hp, rfl⟩ := List.mem_map.1 hq
      rw [ruleList, List.mem_ofFn] at hp
      obtain ⟨i, rfl⟩ := hp
      exact (C09_weights_probability B hB ms (by omega) m s sort ldl).1 i
    exact ⟨by rw [h1]; exact key _ _, by rw [h2]; exact key _ _, by rw [h3]; exact key _ _⟩
  · intro N d basis full mats hN hd hb hf hm p x hp hx hdet F hF
    rw [(C101_nd_discrete_recovery B hB N d hN hd basis full mats hb hf hm p hp x hx hdet sort ldl).2]
    exact div_nonneg (Finset.sum_nonneg fun i _ => mul_nonneg (hp i).le (hF _)) (Finset.sum_nonneg fun i _ => (hp i).le)

/-- hypotheses of the first part; the second has those of C101. -/
example : ∃ mats, gramAndHankelIndices 2 1 = .ok mats ∧ ([1, 0, 1, 0] : List ℝ).length / 2 = 2 := by
  obtain ⟨_, _, mats, _, _, h3, _⟩ := C05_gram_hankel_indices 2 1 (by norm_num) (by norm_num)
  exact ⟨mats, h3, rfl⟩

end Mfs.Props

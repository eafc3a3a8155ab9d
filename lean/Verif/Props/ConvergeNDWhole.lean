import Verif.Props.ConvergeND
import Verif.Lemmas.ProdLimND

/-!
# C192: convergence of the multidimensional rule for laws on the whole space
-/

namespace Mfs.Props

open Matrix Mfs.Spec Mfs.QuadND Mfs.MultiIndex Mfs.FilterND Mfs.StrongND Mfs.Converge
open MeasureTheory Filter Topology

variable {d N : ℕ} {basis full : List (List ℕ)} {mats : List (List (List ℤ))}

/-! ### one order -/

/-- the rule on products as a form on the vectors of polynomials. -/
theorem rule_vectors {B : Backend} (hB : B.Valid) (sort ldl : Bool) (T : Tables N d basis full mats) (L : MvPolynomial (Fin d) ℝ →ₗ[ℝ] ℝ)
    (hL : L 1 = 1) (hpd : (gramOn basis (polyMoment L rawCoord)).PosDef) :
    ∃ (K U : Fin d → Matrix (Fin basis.length) (Fin basis.length) ℝ) (lam : Fin d → Fin basis.length → ℝ)
      (vec : MvPolynomial (Fin d) ℝ →ₗ[ℝ] (Fin basis.length → ℝ)), (∀ j, IsEigh (K j) (U j) (lam j)) ∧ PolyVec N L K vec ∧
      ∀ f : Fin d → ℝ → ℝ, integND (momentQuadratureND B (full.map (polyMoment L rawCoord)) mats none none sort ldl)
        (fun x => ∏ j : Fin d, f j (x.getD j 0)) = vec 1 ⬝ᵥ ((List.ofFn fun j => funMat (U j) (lam j) (f j)).prod *ᵥ vec 1) := by
  have hN := T.hN
  obtain ⟨h, Hs, hq, hD⟩ := nd_setup (by omega) T.hd (polyMoment L rawCoord) T.basis_eq T.full_eq T.mats_eq
  have hd := T.hd
  have hne : List.ofFn Hs ≠ [] := by
    intro hc
    have := congrArg List.length hc
    simp at this; omega
  have hR := codeR_isChol hB hpd ldl
  have D := hD _ hR
  set R := codeR B (gramOn basis (polyMoment L rawCoord)) ldl with hRdef
  have hmom : ∀ α : Fin d →₀ ℕ, polyMoment L rawCoord (List.ofFn α) = L (MvPolynomial.monomial α 1) := by
    intro α
    rw [polyMoment]
    congr 1
    rw [MvPolynomial.monomial_eq, MvPolynomial.C_1, one_mul, Finsupp.prod_fintype _ _ (fun _ => pow_zero _)]
    refine Finset.prod_congr rfl fun j _ => ?_
    simp [rawCoord, List.getD_eq_getElem?_getD]
  obtain ⟨vec, hvec, h1⟩ := exists_polyVec D (by omega) hmom
  have hsym : ∀ j, symmetrize (Quad1.orthonormalise R (Hs j)) = multMat R (Hs j) := fun j => by
    rw [Quad1.orthonormalise_eq (G := gramOn basis (polyMoment L rawCoord)) hR.lower, symmetrize_eq (D.symm j)]
  refine ⟨fun j => multMat R (Hs j), fun j => (B.eigh sort (multMat R (Hs j))).1, fun j => (B.eigh sort (multMat R (Hs j))).2, vec,
    fun j => hB.eigh sort _ (D.symm j), hvec, fun f => ?_⟩
  have hone : vec 1 = Pi.single ⟨0, h⟩ 1 := by
    rw [h1, hR.lower.rowVec_zero _ rfl]
    have h2 := hvec.dot 1 1 (by simp; omega) (by simp; omega)
    rw [mul_one, hL, h1, hR.lower.rowVec_zero _ rfl, smul_dotProduct, dotProduct_smul, single_one_dotProduct, Pi.single_eq_same] at h2
    have h3 := hR.diag_pos ⟨0, h⟩
    have h4 : R ⟨0, h⟩ ⟨0, h⟩ = 1 := by
      simp only [smul_eq_mul, mul_one] at h2
      nlinarith
    rw [h4, one_smul]
  rw [hq, hone, single_one_dotProduct, Matrix.mulVec_single_one, Matrix.col_apply]
  have h5 := quadCore_prod B h (gramOn basis (polyMoment L rawCoord)) (List.ofFn Hs) hne sort ldl (List.ofFn f) (by simp)
  rw [integND_congr (F' := fun x => ∏ j : Fin d, f j (x.getD j 0)) fun p hp => prodFun_ofFn f p.2
    ((nodes_length B _ _ sort ldl p hp).trans (by simp))] at h5
  rw [h5]
  refine congrArg (fun l : List (Matrix (Fin basis.length) (Fin basis.length) ℝ) => l.prod ⟨0, h⟩ ⟨0, h⟩) ?_
  apply List.ext_getElem
  · simp
  · intro i h1 h2
    simp [hsym, ← hRdef]

/-- a product of functions of the coordinates for which the rules converge: from `a` to `b` the factors are bounded, except that at `a`
and at `b` they may be of polynomial growth; the other factors are polynomials. -/
def Admissible (f : Fin d → ℝ → ℝ) : Prop :=
  (∀ j, Continuous (f j)) ∧ ∃ a b : Fin d, a ≤ b ∧ (∀ j, j < a ∨ b < j → ∃ p : Polynomial ℝ, ∀ t, f j t = p.eval t) ∧
    (∀ j, a < j → j < b → ∃ C, ∀ t, |f j t| ≤ C) ∧ PolyGrowth (f a) ∧ PolyGrowth (f b)

theorem PolyGrowth.of_bounded {f : ℝ → ℝ} {C : ℝ} (h : ∀ t, |f t| ≤ C) : PolyGrowth f := by
  refine ⟨C, 0, fun t => (h t).trans ?_⟩
  have : 0 ≤ C := (abs_nonneg _).trans (h t)
  simp
  linarith

theorem PolyGrowth.polynomial (p : Polynomial ℝ) : PolyGrowth fun t => p.eval t := by
  have e : (fun t : ℝ => p.eval t) = fun t => ∑ k ∈ Finset.range (p.natDegree + 1), p.coeff k * t ^ k := by
    funext t; rw [Polynomial.eval_eq_sum_range]
  rw [e]
  exact PolyGrowth.sum fun k _ => (PolyGrowth.const _).mul (PolyGrowth.pow k)

/-- all factors bounded. -/
theorem Admissible.bounded (hd : 1 ≤ d) {f : Fin d → ℝ → ℝ} (hc : ∀ j, Continuous (f j)) (hb : ∀ j, ∃ C, ∀ t, |f j t| ≤ C) : Admissible f := by
  have hg : ∀ j, PolyGrowth (f j) := fun j => by
    obtain ⟨C, hC⟩ := hb j
    exact PolyGrowth.of_bounded hC
  refine ⟨hc, ⟨0, hd⟩, ⟨d - 1, by omega⟩, Fin.le_def.2 (by simp), fun j hj => ?_, fun j _ _ => hb j, hg _, hg _⟩
  rw [Fin.lt_def, Fin.lt_def] at hj
  simp only at hj
  have := j.2
  omega

/-- all factors polynomials but one, of polynomial growth. -/
theorem Admissible.single {f : Fin d → ℝ → ℝ} (a : Fin d) (hc : Continuous (f a)) (hg : PolyGrowth (f a))
    (hp : ∀ j, j ≠ a → ∃ p : Polynomial ℝ, ∀ t, f j t = p.eval t) : Admissible f := by
  refine ⟨fun j => ?_, a, a, le_rfl, fun j hj => hp j (by rcases hj with h | h; exacts [h.ne, h.ne']), fun j h1 h2 => absurd (h1.trans h2) (lt_irrefl _), hg, hg⟩
  by_cases h : j = a
  · subst h; exact hc
  · obtain ⟨p, hp⟩ := hp j h
    rw [funext hp]
    exact p.continuous

/-- two coordinates: any factors of polynomial growth. -/
theorem Admissible.two {f : Fin 2 → ℝ → ℝ} (hc : ∀ j, Continuous (f j)) (hg : ∀ j, PolyGrowth (f j)) : Admissible f := by
  refine ⟨hc, 0, 1, by decide, fun j hj => ?_, fun j h1 h2 => ?_, hg 0, hg 1⟩
  · fin_cases j <;> simp at hj
  · fin_cases j <;> simp at h1 h2

theorem Admissible.continuous {f : Fin d → ℝ → ℝ} (h : Admissible f) : Continuous fun x : Fin d → ℝ => ∏ j, f j (x j) :=
  continuous_finsetProd _ fun j _ => (h.1 j).comp (continuous_apply j)

theorem Admissible.growth {f : Fin d → ℝ → ℝ} (h : Admissible f) (j : Fin d) : PolyGrowth (f j) := by
  obtain ⟨_, a, b, hab, h1, h2, h3, h4⟩ := h
  rcases lt_trichotomy j a with h | h | h
  · obtain ⟨p, hp⟩ := h1 j (Or.inl h)
    rw [funext hp]; exact PolyGrowth.polynomial p
  · rw [h]; exact h3
  · rcases lt_trichotomy j b with h' | h' | h'
    · obtain ⟨C, hC⟩ := h2 j h h'
      exact PolyGrowth.of_bounded hC
    · rw [h']; exact h4
    · obtain ⟨p, hp⟩ := h1 j (Or.inr h')
      rw [funext hp]; exact PolyGrowth.polynomial p

theorem subExp_prod {f : Fin d → ℝ → ℝ} (h : ∀ j, PolyGrowth (f j)) : SubExp fun x : Fin d → ℝ => ∏ j, f j (x j) := by
  classical
  have key : ∀ s : Finset (Fin d), SubExp fun x : Fin d → ℝ => ∏ j ∈ s, f j (x j) := by
    intro s
    induction s using Finset.induction_on with
    | empty => simpa using SubExp.bdd (g := fun _ : Fin d → ℝ => (1 : ℝ)) (C := 1) (by simp)
    | insert k s hk ih => simpa [Finset.prod_insert hk] using (SubExp.growth (h k) k).mul ih
  exact key Finset.univ

/-- one product, raw moments. -/
theorem cvg_product_whole {B : Backend} (hB : B.Valid) (sort ldl : Bool) (μ : Measure (Fin d → ℝ)) [IsProbabilityMeasure μ]
    (hμ : SomeExpMomentND μ) (m : List ℕ → ℝ) (hm : ∀ α, m α = ∫ x, ∏ j, x j ^ α.getD j 0 ∂μ)
    (basis full : ℕ → List (List ℕ)) (mats : ℕ → List (List (List ℤ))) (T : ∀ N, 2 ≤ N → Tables N d (basis N) (full N) (mats N))
    (hpd : ∀ N, 2 ≤ N → (gramOn (basis N) m).PosDef) (f : Fin d → ℝ → ℝ) (hf : Admissible f) :
    Tendsto (fun N => integND (momentQuadratureND B ((full N).map m) (mats N) none none sort ldl) fun x => ∏ j : Fin d, f j (x.getD j 0))
      atTop (𝓝 (∫ x, ∏ j, f j (x j) ∂μ)) := by
  have hint := integrable_poly hμ
  have hmL : m = polyMoment (lawL μ hint) rawCoord := by
    funext α
    rw [hm, polyMoment, lawL]
    simp [rawCoord]
  have hL1 : lawL μ hint 1 = 1 := by rw [lawL]; simp
  have hex : ∀ N, ∃ (K U : Fin d → Matrix (Fin (basis N).length) (Fin (basis N).length) ℝ) (lam : Fin d → Fin (basis N).length → ℝ)
      (vec : MvPolynomial (Fin d) ℝ →ₗ[ℝ] (Fin (basis N).length → ℝ)), 2 ≤ N → (∀ j, IsEigh (K j) (U j) (lam j)) ∧ PolyVec N (lawL μ hint) K vec ∧
      ∀ f : Fin d → ℝ → ℝ, integND (momentQuadratureND B ((full N).map (polyMoment (lawL μ hint) rawCoord)) (mats N) none none sort ldl)
        (fun x => ∏ j : Fin d, f j (x.getD j 0)) = vec 1 ⬝ᵥ ((List.ofFn fun j => funMat (U j) (lam j) (f j)).prod *ᵥ vec 1) := by
    intro N
    by_cases hN : 2 ≤ N
    · obtain ⟨K, U, lam, vec, h⟩ := rule_vectors hB sort ldl (T N hN) (lawL μ hint) hL1 (hmL ▸ hpd N hN)
      exact ⟨K, U, lam, vec, fun _ => h⟩
    · exact ⟨0, 0, 0, 0, fun h => absurd h hN⟩
  choose K U lam vec hE using hex
  have S : VecSeq μ (lawL μ hint) (fun N => (basis N).length) K U lam vec :=
    ⟨hμ, fun N hN => (hE N hN).1, fun N hN => (hE N hN).2.1, fun p => rfl⟩
  obtain ⟨hc, a, b, hab, h1, h2, h3, h4⟩ := hf
  refine (S.product f hc a b hab h1 h2 h3 h4).congr' ?_
  filter_upwards [eventually_ge_atTop 2] with N hN
  rw [hmL, (hE N hN).2.2 f]

/-- the Gram matrices are positive definite if no polynomial but zero vanishes almost everywhere. -/
theorem gram_posDef_of_integrable (T : Tables N d basis full mats) (μ : Measure (Fin d → ℝ))
    (hint : ∀ p : MvPolynomial (Fin d) ℝ, Integrable (fun x => MvPolynomial.eval x p) μ)
    (hne : ∀ q : MvPolynomial (Fin d) ℝ, (∀ᵐ x ∂μ, MvPolynomial.eval x q = 0) → q = 0) :
    (gramOn basis fun α => ∫ x, ∏ j, x j ^ α.getD j 0 ∂μ).PosDef := by
  have hbl : ∀ c : Fin basis.length, (basis[c]).length = d := fun c => (T.mem_basis.1 (List.getElem_mem c.2)).1
  have hnd : basis.Nodup := by
    obtain ⟨t, ht, hn, _⟩ := C01_generate_complete d (N - 1) 0 T.hd (by omega)
    rw [T.basis_eq] at ht
    cases ht
    exact hn
  set e : Fin basis.length → Fin d →₀ ℕ := fun c => Finsupp.equivFunOnFinite.symm fun k => (basis[c]).getD k 0 with he
  have hinj : Function.Injective e := by
    intro a b hab
    have h1 : ∀ k : Fin d, (basis[a]).getD k 0 = (basis[b]).getD k 0 := fun k => by
      have := DFunLike.congr_fun hab k
      simpa [he] using this
    have h2 : basis[a] = basis[b] := by
      apply List.ext_getElem ((hbl a).trans (hbl b).symm)
      intro i hi1 hi2
      have := h1 ⟨i, by rw [hbl a] at hi1; exact hi1⟩
      simp only at this
      rwa [List.getD_eq_getElem _ _ hi1, List.getD_eq_getElem _ _ hi2] at this
    exact Fin.ext (hnd.getElem_inj_iff.1 h2)
  set mon : Fin basis.length → MvPolynomial (Fin d) ℝ := fun c => MvPolynomial.monomial (e c) 1 with hmon
  have hev : ∀ c x, MvPolynomial.eval x (mon c) = ∏ k, x k ^ (basis[c]).getD k 0 := by
    intro c x
    rw [hmon]
    simp only [MvPolynomial.eval_monomial, one_mul]
    rw [Finsupp.prod_fintype _ _ (fun _ => pow_zero _)]
    simp [he]
  have hentry : ∀ a b, (gramOn basis fun α => ∫ x, ∏ j : Fin d, x j ^ α.getD j 0 ∂μ) a b
      = ∫ x, MvPolynomial.eval x (mon a * mon b) ∂μ := by
    intro a b
    rw [gramOn, Matrix.of_apply]
    refine integral_congr_ae (Eventually.of_forall fun x => ?_)
    simp only
    rw [map_mul, hev, hev, ← Finset.prod_mul_distrib]
    refine Finset.prod_congr rfl fun k _ => ?_
    rw [← pow_add]
    congr 1
    have h1 := hbl a
    have h2 := hbl b
    have h3 : (k : ℕ) < (basis[a]).length := by rw [h1]; exact k.2
    have h4 : (k : ℕ) < (basis[b]).length := by rw [h2]; exact k.2
    rw [List.getD_eq_getElem _ _ h3, List.getD_eq_getElem _ _ h4, List.getD_eq_getElem _ _ (by
      rw [List.length_zipWith]; exact lt_min h3 h4), List.getElem_zipWith]
  rw [Matrix.posDef_iff_dotProduct_mulVec]
  refine ⟨?_, fun {w} hw => ?_⟩
  · ext a b
    rw [Matrix.conjTranspose_apply, star_trivial, hentry, hentry, mul_comm]
  · set q : MvPolynomial (Fin d) ℝ := ∑ c, w c • mon c with hq
    have hform : star w ⬝ᵥ ((gramOn basis fun α => ∫ x, ∏ j : Fin d, x j ^ α.getD j 0 ∂μ) *ᵥ w)
        = ∫ x, MvPolynomial.eval x q ^ 2 ∂μ := by
      have h1 : ∀ x, MvPolynomial.eval x q ^ 2 = ∑ a, ∑ b, w a * w b * MvPolynomial.eval x (mon a * mon b) := by
        intro x
        rw [hq, map_sum, sq, Finset.sum_mul_sum]
        refine Finset.sum_congr rfl fun a _ => Finset.sum_congr rfl fun b _ => ?_
        rw [MvPolynomial.smul_eval, MvPolynomial.smul_eval, map_mul]
        ring
      simp only [h1]
      rw [integral_finsetSum _ fun a _ => integrable_finsetSum _ fun b _ => (hint _).const_mul _, dotProduct]
      refine Finset.sum_congr rfl fun a _ => ?_
      rw [integral_finsetSum _ fun b _ => (hint _).const_mul _, mulVec, dotProduct, Finset.mul_sum]
      refine Finset.sum_congr rfl fun b _ => ?_
      rw [integral_const_mul, hentry, star_trivial]
      ring
    rw [hform]
    have h0 : 0 ≤ ∫ x, MvPolynomial.eval x q ^ 2 ∂μ := integral_nonneg fun x => sq_nonneg _
    refine lt_of_le_of_ne h0 fun h => hw ?_
    have hi2 : Integrable (fun x => MvPolynomial.eval x q ^ 2) μ := by
      have := hint (q ^ 2)
      simpa using this
    have h2 := (integral_eq_zero_iff_of_nonneg (fun x => sq_nonneg _) hi2).1 h.symm
    have h3 : q = 0 := hne q (by
      filter_upwards [h2] with x hx
      simpa using hx)
    funext c
    have h4 : MvPolynomial.coeff (e c) q = w c := by
      rw [hq, MvPolynomial.coeff_sum, Finset.sum_eq_single c]
      · simp [hmon]
      · intro b _ hb
        simp [hmon, MvPolynomial.coeff_monomial, hinj.ne hb]
      · simp
    rw [← h4, h3]
    simp


/-- **C192.** Let `μ` be a probability law on `ℝᵈ` with some exponential moment, not concentrated on the zeros of a polynomial (the Gram
matrices are positive definite). The rule converges, as `N` grows, on every integrand that is a finite sum of admissible products
(in particular of all products of continuous functions of polynomial growth in two dimensions, and, in any dimension, of a continuous function
of polynomial growth of one coordinate times a polynomial) plus a series of products of bounded continuous functions of single coordinates with summable
bounds. It does so in each of the three representations of the moments. -/
theorem C192_nd_rule_converges_whole (B : Backend) (hB : B.Valid) (sort ldl : Bool) (hd : 1 ≤ d) (μ : Measure (Fin d → ℝ)) [IsProbabilityMeasure μ]
    (hμ : ∃ c : ℝ, 0 < c ∧ Integrable (fun x => Real.exp (c * ∑ j, |x j|)) μ)
    (hne : ∀ q : MvPolynomial (Fin d) ℝ, (∀ᵐ x ∂μ, MvPolynomial.eval x q = 0) → q = 0)
    (basis full : ℕ → List (List ℕ)) (mats : ℕ → List (List (List ℤ))) (T : ∀ N, 2 ≤ N → Tables N d (basis N) (full N) (mats N))
    (mean scale : List ℝ) (hml : mean.length = d) (hsl : scale.length = d) (hs0 : ∀ t ∈ scale, 0 < t)
    {κ : Type} [Fintype κ] (g : κ → Fin d → ℝ → ℝ) (hg : ∀ k, Admissible (g k))
    {ι : Type} [Countable ι] (f : ι → Fin d → ℝ → ℝ) (hf : ∀ k j, Continuous (f k j))
    (c : ι → Fin d → ℝ) (hc : ∀ k j t, |f k j t| ≤ c k j) (hsum : Summable fun k => ∏ j, c k j)
    (F : (Fin d → ℝ) → ℝ) (hF : ∀ x, F x = ∑ k, ∏ j, g k j (x j) + ∑' k, ∏ j, f k j (x j)) :
    Tendsto (fun N => integND (momentQuadratureND B ((full N).map fun α => ∫ x, ∏ j, x j ^ α.getD j 0 ∂μ) (mats N) none none sort ldl)
      fun x => F fun j => x.getD j 0) atTop (𝓝 (∫ x, F x ∂μ)) ∧
    Tendsto (fun N => integND (momentQuadratureND B ((full N).map fun α => ∫ x, ∏ j : Fin d, (x j - mean.getD j 0) ^ α.getD j 0 ∂μ) (mats N)
      (some mean) none sort ldl) fun x => F fun j => x.getD j 0) atTop (𝓝 (∫ x, F x ∂μ)) ∧
    Tendsto (fun N => integND (momentQuadratureND B
      ((full N).map fun α => ∫ x, ∏ j : Fin d, ((x j - mean.getD j 0) / scale.getD j 0) ^ α.getD j 0 ∂μ) (mats N)
      (some mean) (some scale) sort ldl) fun x => F fun j => x.getD j 0) atTop (𝓝 (∫ x, F x ∂μ)) := by
  have hint := integrable_poly (μ := μ) hμ
  have hpd : ∀ N, 2 ≤ N → (gramOn (basis N) fun α => ∫ x, ∏ j, x j ^ α.getD j 0 ∂μ).PosDef := fun N hN =>
    gram_posDef_of_integrable (T N hN) μ hint hne
  have hmL : (fun α : List ℕ => ∫ x, ∏ j : Fin d, x j ^ α.getD j 0 ∂μ) = polyMoment (lawL μ hint) rawCoord := by
    funext α
    rw [polyMoment, lawL]
    simp [rawCoord]
  have hmC : (fun α : List ℕ => ∫ x, ∏ j : Fin d, (x j - mean.getD j 0) ^ α.getD j 0 ∂μ)
      = polyMoment (lawL μ hint) (centralCoord mean) := by
    funext α
    rw [polyMoment, lawL]
    simp [centralCoord]
  have hmS : (fun α : List ℕ => ∫ x, ∏ j : Fin d, ((x j - mean.getD j 0) / scale.getD j 0) ^ α.getD j 0 ∂μ)
      = polyMoment (lawL μ hint) (scaledCoord mean scale) := by
    funext α
    rw [polyMoment, lawL]
    simp [scaledCoord, div_eq_inv_mul]
  have h0 : Tendsto (fun N => integND (momentQuadratureND B ((full N).map fun α => ∫ x, ∏ j, x j ^ α.getD j 0 ∂μ) (mats N) none none
      sort ldl) fun x => F fun j => x.getD j 0) atTop (𝓝 (∫ x, F x ∂μ)) := by
    have hfa : ∀ k, Admissible (f k) := fun k => Admissible.bounded hd (hf k) fun j => ⟨c k j, hc k j⟩
    have hiA : ∀ {h : Fin d → ℝ → ℝ}, Admissible h → Integrable (fun x => ∏ j, h j (x j)) μ := fun {h} ha =>
      (subExp_prod ha.growth).integrable hμ ha.continuous
    have hbd : ∀ k, ∀ x : Fin d → ℝ, ‖∏ j, f k j (x j)‖ ≤ ∏ j, c k j := fun k x => by
      rw [Real.norm_eq_abs, Finset.abs_prod]
      exact Finset.prod_le_prod (fun j _ => abs_nonneg _) fun j _ => hc k j _
    have hS : HasSum (fun k => ∫ x, ∏ j, f k j (x j) ∂μ) (∫ x, ∑' k, ∏ j, f k j (x j) ∂μ) := by
      refine hasSum_integral_of_summable_integral_norm (fun k => hiA (hfa k)) ?_
      refine Summable.of_nonneg_of_le (fun k => integral_nonneg fun _ => norm_nonneg _) (fun k => ?_) hsum
      have := integral_mono (μ := μ) (hiA (hfa k)).norm (integrable_const (∏ j, c k j)) (hbd k)
      simpa using this
    have hI : ∫ x, F x ∂μ = ∑ k, (∫ x, ∏ j, g k j (x j) ∂μ) + ∑' k, ∫ x, ∏ j, f k j (x j) ∂μ := by
      rw [hS.tsum_eq, ← integral_finsetSum _ fun k _ => hiA (hg k), ← integral_add (integrable_finsetSum _ fun k _ => hiA (hg k))]
      · exact integral_congr_ae (.of_forall hF)
      · have hcont : Continuous fun x : Fin d → ℝ => ∑' k, ∏ j, f k j (x j) := continuous_tsum (fun k => (hfa k).continuous) hsum hbd
        exact Integrable.of_bound hcont.aestronglyMeasurable (∑' k, ∏ j, c k j) (.of_forall fun x => tsum_of_norm_bounded hsum.hasSum fun k => hbd k x)
    rw [hI]
    have hR : ∀ N, (∑ k, integND (momentQuadratureND B ((full N).map fun α => ∫ x, ∏ j, x j ^ α.getD j 0 ∂μ) (mats N) none none
          sort ldl) fun x => ∏ j : Fin d, g k j (x.getD j 0)) + (∑' k, integND (momentQuadratureND B ((full N).map fun α => ∫ x, ∏ j, x j ^ α.getD j 0 ∂μ) (mats N) none none
        sort ldl) fun x => ∏ j : Fin d, f k j (x.getD j 0))
        = integND (momentQuadratureND B ((full N).map fun α => ∫ x, ∏ j, x j ^ α.getD j 0 ∂μ) (mats N) none none sort ldl)
          fun x => F fun j => x.getD j 0 := by
      intro N
      generalize momentQuadratureND B ((full N).map fun α => ∫ x, ∏ j, x j ^ α.getD j 0 ∂μ) (mats N) none none sort ldl = r
      have h1 : HasSum (fun k => integND r fun x => ∏ j : Fin d, f k j (x.getD j 0)) (integND r fun x => ∑' k, ∏ j : Fin d, f k j (x.getD j 0)) := by
        induction r with
        | nil => simp [integND]
        | cons p r ih =>
          simp only [integND, List.map_cons, List.sum_cons] at ih ⊢
          refine HasSum.add (HasSum.mul_left _ ?_) ih
          exact (Summable.of_norm_bounded hsum fun k => hbd k fun j => p.2.getD j 0).hasSum
      rw [h1.tsum_eq]
      clear h1
      have h2 : (∑ k, integND r fun x => ∏ j : Fin d, g k j (x.getD j 0)) = integND r fun x => ∑ k, ∏ j : Fin d, g k j (x.getD j 0) := by
        induction r with
        | nil => simp [integND]
        | cons p r ih =>
          simp only [integND, List.map_cons, List.sum_cons] at ih ⊢
          rw [Finset.sum_add_distrib, ih, Finset.mul_sum]
      rw [h2]
      have h3 : (fun x : List ℝ => F fun j => x.getD j 0) = fun x : List ℝ => ∑ k, ∏ j : Fin d, g k j (x.getD j 0)
          + ∑' k, ∏ j : Fin d, f k j (x.getD j 0) := by
        funext x; exact hF fun j => x.getD j 0
      rw [h3]
      simp only [integND, mul_add]
      rw [← List.sum_map_add]
    refine Tendsto.congr hR (Tendsto.add (tendsto_finsetSum _ fun k _ => ?_) (tendsto_tsum_of_dominated_convergence hsum (fun k => ?_) ?_))
    · exact cvg_product_whole hB sort ldl μ hμ _ (fun α => rfl) basis full mats T hpd (g k) (hg k)
    · exact cvg_product_whole hB sort ldl μ hμ _ (fun α => rfl) basis full mats T hpd (f k) (hfa k)
    · filter_upwards [eventually_ge_atTop 2] with N hN k
      rw [Real.norm_eq_abs]
      have TN := T N hN
      exact C143_nd_product_bound B hB _ _ hd TN.mats_len (C22_applies N d (by omega) TN.hd _ TN.mats_eq).2 none none (by simp)
        (by simp) sort ldl (f k) (c k) fun j t => hc k j t
  have hrep := fun N (hN : 2 ≤ N) s₁ l₁ => C85_nd_raw_central_scaled B hB N (by omega) hd (lawL μ hint) mean scale hml hsl hs0 (basis N)
    (full N) (mats N) (T N hN).basis_eq (T N hN).full_eq (T N hN).mats_eq (by rw [← hmL]; exact hpd N hN) s₁ sort sort l₁ ldl ldl
    (fun x => F fun j => x.getD j 0)
  rw [hmL, hmC, hmS]
  rw [hmL] at h0
  refine ⟨h0, h0.congr' ?_, h0.congr' ?_⟩
  · filter_upwards [eventually_ge_atTop 2] with N hN
    rw [← (hrep N hN sort ldl).1]
  · filter_upwards [eventually_ge_atTop 2] with N hN
    rw [← (hrep N hN sort ldl).2]

end Mfs.Props

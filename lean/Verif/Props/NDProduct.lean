import Verif.Lemmas.NDProduct
import Verif.Props.QuadNDMore
import Verif.Props.Quad1More
import Mathlib.Combinatorics.Nullstellensatz

/-!
# Property C114: independent coordinates
-/

namespace Mfs.Props

open Matrix Mfs.MultiIndex Mfs.QuadND Mfs.Spec Mfs.Quad1 Polynomial

/-- the one-dimensional rule as a polynomial of the multiplication matrix. -/
theorem integ_aeval (B : Backend) (hB : B.Valid) (ms : List ℝ) (n : ℕ) (hn : ms.length / 2 = n) (h0 : 0 < n)
    (hpd : (hankelMat n fun k => ms.getD k 0).PosDef) (sort ldl : Bool) :
    ∃ R1 : Matrix (Fin n) (Fin n) ℝ, IsChol (hankelMat n fun k => ms.getD k 0) R1 ∧ ∀ p : ℝ[X],
      integ (momentQuadrature B ms 0 1 sort ldl) (fun x => p.eval x)
        = aeval (multMat R1 (hankelMat n fun k => ms.getD (k + 1) 0)) p ⟨0, h0⟩ ⟨0, h0⟩ := by
  subst hn
  obtain ⟨R, hR, U, lam, hE, h1, h2⟩ := momentQuadrature_data B hB ms hpd 0 1 sort ldl
  refine ⟨R, hR, fun p => ?_⟩
  rw [← hE.funMat_poly, funMat_apply, integ, h1, h2]
  refine Finset.sum_congr rfl fun i _ => ?_
  simp only [one_mul, add_zero, pow_two]

/-- a grid of positive weights and distinct nodes has a positive definite Gram matrix. -/
theorem grid_posDef {z d N : ℕ} {basis : Fin z → (Fin d → ℕ)} (hinj : Function.Injective basis)
    (hlt : ∀ a j, basis a j < N) {κ : Fin d → Type} [∀ j, Fintype (κ j)] (hκ : ∀ j, Fintype.card (κ j) = N)
    (w x : (j : Fin d) → κ j → ℝ) (hw : ∀ j k, 0 < w j k) (hx : ∀ j, Function.Injective (x j))
    (G : Matrix (Fin z) (Fin z) ℝ)
    (hG : ∀ a b, G a b = ∑ i : (j : Fin d) → κ j, (∏ j, w j (i j)) * ((∏ j, x j (i j) ^ basis a j) * ∏ j, x j (i j) ^ basis b j)) :
    G.PosDef := by
  classical
  refine Matrix.PosDef.of_dotProduct_mulVec_pos ?_ fun c hc => ?_
  · ext a b
    simp only [Matrix.conjTranspose_apply, star_trivial]
    rw [hG, hG]
    exact Finset.sum_congr rfl fun i _ => by ring
  have hq : star c ⬝ᵥ (G *ᵥ c)
      = ∑ i : (j : Fin d) → κ j, (∏ j, w j (i j)) * (∑ a, c a * ∏ j, x j (i j) ^ basis a j) ^ 2 := by
    have e1 : ∀ i : (j : Fin d) → κ j, (∏ j, w j (i j)) * (∑ a, c a * ∏ j, x j (i j) ^ basis a j) ^ 2
        = ∑ a, ∑ b, c a * ((∏ j, w j (i j)) * ((∏ j, x j (i j) ^ basis a j) * ∏ j, x j (i j) ^ basis b j) * c b) := by
      intro i
      rw [pow_two, Finset.sum_mul_sum, Finset.mul_sum]
      refine Finset.sum_congr rfl fun a _ => ?_
      rw [Finset.mul_sum]
      exact Finset.sum_congr rfl fun b _ => by ring
    simp only [e1]
    rw [Finset.sum_comm]
    simp only [star_trivial, dotProduct, Matrix.mulVec, hG, Finset.mul_sum, Finset.sum_mul]
    exact Finset.sum_congr rfl fun a _ => Finset.sum_comm
  rw [hq]
  have hnn : ∀ i : (j : Fin d) → κ j, 0 ≤ (∏ j, w j (i j)) * (∑ a, c a * ∏ j, x j (i j) ^ basis a j) ^ 2 := fun i =>
    mul_nonneg (Finset.prod_nonneg fun j _ => (hw j _).le) (sq_nonneg _)
  refine lt_of_le_of_ne (Finset.sum_nonneg fun i _ => hnn i) fun h0 => hc ?_
  rw [eq_comm, Finset.sum_eq_zero_iff_of_nonneg fun i _ => hnn i] at h0
  let P : MvPolynomial (Fin d) ℝ := ∑ a, MvPolynomial.monomial (Finsupp.equivFunOnFinite.symm (basis a)) (c a)
  have hev : ∀ y : Fin d → ℝ, MvPolynomial.eval y P = ∑ a, c a * ∏ j, y j ^ basis a j := by
    intro y
    simp only [P, map_sum, MvPolynomial.eval_monomial]
    refine Finset.sum_congr rfl fun a _ => ?_
    rw [Finsupp.prod_fintype _ _ (by simp)]
    rfl
  have hP : P = 0 := by
    refine MvPolynomial.eq_zero_of_eval_zero_at_prod_finset P (fun j => Finset.univ.image (x j)) (fun j => ?_) fun y hy => ?_
    · rw [Finset.card_image_of_injective _ (hx j), Finset.card_univ, hκ]
      obtain ⟨a0, _⟩ := Function.ne_iff.1 hc
      rw [MvPolynomial.degreeOf_lt_iff (Nat.zero_lt_of_lt (hlt a0 j))]
      intro m hm
      have hm' := MvPolynomial.mem_support_iff.1 hm
      simp only [P, MvPolynomial.coeff_sum, MvPolynomial.coeff_monomial] at hm'
      obtain ⟨a, _, ha⟩ := Finset.exists_ne_zero_of_sum_ne_zero hm'
      have : Finsupp.equivFunOnFinite.symm (basis a) = m := by
        by_contra h
        exact ha (if_neg h)
      rw [← this]
      exact hlt a j
    · simp only [Finset.mem_image, Finset.mem_univ, true_and] at hy
      choose i hi using hy
      rw [hev]
      have := h0 i (Finset.mem_univ _)
      have hne : (∏ j, w j (i j)) ≠ 0 := (Finset.prod_pos fun j _ => hw j _).ne'
      have := pow_eq_zero_iff (two_ne_zero) |>.1 ((mul_eq_zero.1 this).resolve_left hne)
      simpa [hi] using this
  funext a
  have hco : MvPolynomial.coeff (Finsupp.equivFunOnFinite.symm (basis a)) P = c a := by
    simp only [P, MvPolynomial.coeff_sum, MvPolynomial.coeff_monomial]
    rw [Finset.sum_eq_single a]
    · simp
    · intro b _ hb
      rw [if_neg]
      intro h
      exact hb (hinj (Finsupp.equivFunOnFinite.symm.injective h))
    · simp
  rw [← hco, hP]
  simp

/-- **C114.** Let the coordinates be independent: every mixed moment is the product of the moments of the coordinates, whose
Hankel matrices of size `N` are positive definite. Then the Gram matrix is positive definite, and the multidimensional rule
integrates *every* function exactly as the tensor product of the one-dimensional rules, also with `mean` and `scale`. In
particular it integrates non-negative functions to non-negative numbers (compare C113). -/
theorem C114_independent_coordinates (B : Backend) (hB : B.Valid) (N d : ℕ) (hN : 1 ≤ N) (hd : 1 ≤ d)
    (basis full : List (List ℕ)) (mats : List (List (List ℤ)))
    (hbasis : generateMultiIndices d (N - 1) 0 = .ok basis) (hfull : generateMultiIndices d (2 * N - 1) 0 = .ok full)
    (hmats : gramAndHankelIndices N d = .ok mats) (ν : Fin d → ℕ → ℝ) (hν : ∀ j, ν j 0 = 1)
    (hpd : ∀ j, (Matrix.of fun a b : Fin N => ν j (a + b)).PosDef) (sort ldl : Bool) :
    let μ : List ℕ → ℝ := fun α => ∏ j : Fin d, ν j (α.getD j 0)
    let rule := fun (j : Fin d) (m s : ℝ) => momentQuadrature B ((List.range (2 * N)).map (ν j)) m s sort ldl
    (gramOn basis μ).PosDef ∧
    (∀ F : List ℝ → ℝ, integND (momentQuadratureND B (full.map μ) mats none none sort ldl) F
      = ∑ i : (j : Fin d) → Fin (((List.range (2 * N)).map (ν j)).length / 2),
          (∏ j, (rule j 0 1).1 (i j)) * F (List.ofFn fun j => (rule j 0 1).2 (i j))) ∧
    (∀ (m : Fin d → ℝ) (F : List ℝ → ℝ),
      integND (momentQuadratureND B (full.map μ) mats (some (List.ofFn m)) none sort ldl) F
      = ∑ i : (j : Fin d) → Fin (((List.range (2 * N)).map (ν j)).length / 2),
          (∏ j, (rule j (m j) 1).1 (i j)) * F (List.ofFn fun j => (rule j (m j) 1).2 (i j))) ∧
    (∀ (m s : Fin d → ℝ) (F : List ℝ → ℝ),
      integND (momentQuadratureND B (full.map μ) mats (some (List.ofFn m)) (some (List.ofFn s)) sort ldl) F
      = ∑ i : (j : Fin d) → Fin (((List.range (2 * N)).map (ν j)).length / 2),
          (∏ j, (rule j (m j) (s j)).1 (i j)) * F (List.ofFn fun j => (rule j (m j) (s j)).2 (i j))) := by
  intro μ rule
  classical
  have hlen : ∀ j : Fin d, ((List.range (2 * N)).map (ν j)).length / 2 = N := fun j => by simp
  have hget : ∀ (j : Fin d), ∀ k < 2 * N, ((List.range (2 * N)).map (ν j)).getD k 0 = ν j k := by
    intro j k hk
    simp [List.getD_eq_getElem?_getD, hk]
  have hank0 : ∀ j n, n ≤ N → (hankelMat n fun k => ((List.range (2 * N)).map (ν j)).getD k 0) = hankelMat n (ν j) := by
    intro j n hn
    ext a b
    simp only [hankelMat, Matrix.of_apply]
    exact hget j _ (by omega)
  have hank1 : ∀ j n, n ≤ N → (hankelMat n fun k => ((List.range (2 * N)).map (ν j)).getD (k + 1) 0)
      = hankelMat n fun k => ν j (k + 1) := by
    intro j n hn
    ext a b
    simp only [hankelMat, Matrix.of_apply]
    exact hget j _ (by omega)
  have hpdN : ∀ j, (hankelMat N (ν j)).PosDef := hpd
  have hpd1 : ∀ j, (gramOf ((List.range (2 * N)).map (ν j))).PosDef := by
    intro j
    have : ∀ n, n = N → (hankelMat n fun k => ((List.range (2 * N)).map (ν j)).getD k 0).PosDef := by
      rintro n rfl
      rw [hank0 j _ le_rfl]; exact hpdN j
    exact this _ (hlen j)
  obtain ⟨t, ht, hnd, hmem⟩ := C01_generate_complete d (N - 1) 0 hd (by omega)
  rw [hbasis] at ht; cases ht
  have hbl : ∀ a : Fin basis.length, (basis[a]).length = d := fun a => ((hmem _).1 (by simp)).1
  have hofn : ∀ a : Fin basis.length, List.ofFn (fun j : Fin d => (basis[a]).getD j 0) = basis[a] := fun a => ofFn_getD _ (hbl a)
  set bas : Fin basis.length → (Fin d → ℕ) := fun a j => (basis[a]).getD j 0 with hbas
  have hinj : Function.Injective bas := by
    intro a b hab
    have : basis[a] = basis[b] := by rw [← hofn a, ← hofn b]; exact congrArg List.ofFn hab
    exact Fin.ext ((List.Nodup.getElem_inj_iff hnd).1 this)
  have hsum : ∀ a, ∑ j, bas a j < N := by
    intro a
    have := ((hmem basis[a]).1 (by simp)).2.2
    rw [← hofn a, List.sum_ofFn] at this
    have h2 : ∑ j, bas a j ≤ N - 1 := this
    omega
  have hltj : ∀ a j, bas a j < N := fun a j =>
    lt_of_le_of_lt (Finset.single_le_sum (fun _ _ => Nat.zero_le _) (Finset.mem_univ j)) (hsum a)
  have hμ : ∀ α : Fin d → ℕ, μ (List.ofFn α) = prodMom ν α := by
    intro α
    simp only [μ, prodMom]
    exact Finset.prod_congr rfl fun j _ => by simp [List.getD_eq_getElem?_getD]
  have hrep : ∀ j, ∀ k < 2 * N, ∑ i, (rule j 0 1).1 i * (rule j 0 1).2 i ^ k = ν j k := by
    intro j k hk
    have := momentQuadrature_reproduces B hB _ (hpd1 j) sort ldl k (by rw [hlen j]; exact hk)
    refine this.trans ?_
    simp only
    rw [hget j k hk, hget j 0 (by omega), hν, div_one]
  obtain ⟨h, Hs, hq, hD⟩ := nd_setup hN hd μ hbasis hfull hmats
  have hgram : (gramOn basis μ).PosDef := by
    refine grid_posDef hinj hltj (κ := fun j => Fin (((List.range (2 * N)).map (ν j)).length / 2)) (fun j => by simp)
      (fun j => (rule j 0 1).1) (fun j => (rule j 0 1).2) (fun j => (C98_rule_shape B hB _ (hpd1 j) sort ldl).1.1 0 1)
      (fun j => (C98_rule_shape B hB _ (hpd1 j) sort ldl).1.2 0 1 one_ne_zero) _ fun a b => ?_
    have h2 : List.zipWith (· + ·) basis[a] basis[b] = List.ofFn (bas a + bas b) := by
      conv_lhs => rw [← hofn a, ← hofn b]
      apply List.ext_getElem
      · simp
      · intro k h1 h2; simp [hbas]
    have h1 : gramOn basis μ a b = μ (List.zipWith (· + ·) basis[a] basis[b]) := rfl
    rw [h1, h2, hμ, prodMom]
    have e1 : ∀ i : (j : Fin d) → Fin (((List.range (2 * N)).map (ν j)).length / 2),
        (∏ j, (rule j 0 1).1 (i j)) * ((∏ j, (rule j 0 1).2 (i j) ^ bas a j) * ∏ j, (rule j 0 1).2 (i j) ^ bas b j)
          = ∏ j, (rule j 0 1).1 (i j) * (rule j 0 1).2 (i j) ^ (bas a j + bas b j) := by
      intro i
      rw [← Finset.prod_mul_distrib, ← Finset.prod_mul_distrib]
      exact Finset.prod_congr rfl fun j _ => by rw [pow_add]
    simp only [e1]
    have e2 := Finset.prod_univ_sum (fun j : Fin d => (Finset.univ : Finset (Fin (((List.range (2 * N)).map (ν j)).length / 2))))
      (fun j k => (rule j 0 1).1 k * (rule j 0 1).2 k ^ (bas a j + bas b j))
    rw [Fintype.piFinset_univ] at e2
    rw [← e2]
    refine Finset.prod_congr rfl fun j _ => ?_
    have := hltj a j
    have := hltj b j
    rw [hrep j _ (by omega), Pi.add_apply]
  have hR := codeR_isChol hB hgram ldl
  have D := hD _ hR
  have hDμ : (fun α : Fin d → ℕ => μ (List.ofFn α)) = prodMom ν := funext hμ
  rw [hDμ] at D
  set r := momentQuadratureND B (full.map μ) mats none none sort ldl with hr
  have hrl : ∀ p ∈ r, p.2.length = d :=
    (C21_nd_reproduces B hB N d hN hd μ basis full mats hbasis hfull hmats hgram sort ldl).2.2
  have hpf : ∀ (f : Fin d → ℝ → ℝ) (x : List ℝ), x.length = d → prodFun (List.ofFn f) x = ∏ j, f j (x.getD j 0) := by
    intro f x hx
    rw [prodFun, ← List.prod_ofFn]
    congr 1
    apply List.ext_getElem
    · simp [hx]
    · intro k h1 h2
      simp [List.getD_eq_getElem?_getD, hx]
  -- polynomials first
  have hpoly : ∀ p : Fin d → ℝ[X], integND r (prodFun (List.ofFn fun j => fun t => (p j).eval t))
      = ∏ j, integ (rule j 0 1) (fun t => (p j).eval t) := by
    intro p
    have hne : List.ofFn Hs ≠ [] := by
      intro hc
      have := congrArg List.length hc
      simp at this; omega
    rw [hr, hq, quadCore_prod B h _ _ hne sort ldl _ (by simp)]
    have hlist : List.zipWith (fun e f => funMat e.1 e.2 f)
        ((List.ofFn Hs).map fun H => B.eigh sort (symmetrize (orthonormalise (codeR B (gramOn basis μ) ldl) H)))
        (List.ofFn fun j => fun t => (p j).eval t)
        = (List.finRange d).map fun j => aeval (multMat (codeR B (gramOn basis μ) ldl) (Hs j)) (p j) := by
      apply List.ext_getElem
      · simp
      · intro i h1 h2
        have hi : i < d := by simpa using h2
        have hsy : (multMat (codeR B (gramOn basis μ) ldl) (Hs ⟨i, hi⟩)).IsSymm := D.symm _
        simp only [List.getElem_zipWith, List.getElem_map, List.getElem_ofFn, List.getElem_finRange]
        rw [orthonormalise_eq (G := gramOn basis μ) hR.lower, symmetrize_eq hsy, (hB.eigh sort _ hsy).funMat_poly]
        rfl
    rw [hlist, (prod_aeval D hν hsum hgram p (List.finRange d) (List.nodup_finRange d)).2, ← List.ofFn_eq_map, List.prod_ofFn]
    refine Finset.prod_congr rfl fun j _ => ?_
    obtain ⟨R1, hR1, hint⟩ := integ_aeval B hB ((List.range (2 * N)).map (ν j)) N (hlen j) (by omega)
      (by rw [hank0 j N le_rfl]; exact hpdN j) sort ldl
    rw [hint, hank1 j N le_rfl]
    rw [hank0 j N le_rfl] at hR1
    exact aeval_marginal D hν hsum (by omega) j hR1 (p j)
  -- then all functions
  have hfun : ∀ f : Fin d → ℝ → ℝ, integND r (prodFun (List.ofFn f)) = ∏ j, integ (rule j 0 1) (f j) := by
    intro f
    let S : Fin d → Finset ℝ := fun j => Finset.univ.image (rule j 0 1).2 ∪ (r.map fun q => q.2.getD j 0).toFinset
    let p : Fin d → ℝ[X] := fun j => Lagrange.interpolate (S j) id (f j)
    have hp : ∀ j, ∀ x ∈ S j, (p j).eval x = f j x := fun j x hx =>
      Lagrange.eval_interpolate_at_node (f j) (v := id) (s := S j) (fun _ _ _ _ h => h) hx
    rw [integND_congr (F' := prodFun (List.ofFn fun j => fun t => (p j).eval t)), hpoly]
    · refine Finset.prod_congr rfl fun j _ => ?_
      rw [integ, integ]
      refine Finset.sum_congr rfl fun i _ => ?_
      rw [hp j _ (by simp [S])]
    · intro q hq'
      rw [hpf _ _ (hrl q hq'), hpf _ _ (hrl q hq')]
      refine Finset.prod_congr rfl fun j _ => ?_
      rw [hp j]
      simp only [S, Finset.mem_union, List.mem_toFinset, List.mem_map]
      exact Or.inr ⟨q, hq', rfl⟩
  have hmain : ∀ F : List ℝ → ℝ, integND r F = ∑ i : (j : Fin d) → Fin (((List.range (2 * N)).map (ν j)).length / 2),
      (∏ j, (rule j 0 1).1 (i j)) * F (List.ofFn fun j => (rule j 0 1).2 (i j)) := by
    intro F
    let r' : List (ℝ × List ℝ) := (Finset.univ : Finset ((j : Fin d) → Fin (((List.range (2 * N)).map (ν j)).length / 2))).toList.map
      fun i => (∏ j, (rule j 0 1).1 (i j), List.ofFn fun j => (rule j 0 1).2 (i j))
    have hr' : ∀ F : List ℝ → ℝ, integND r' F = ∑ i : (j : Fin d) → Fin (((List.range (2 * N)).map (ν j)).length / 2),
        (∏ j, (rule j 0 1).1 (i j)) * F (List.ofFn fun j => (rule j 0 1).2 (i j)) := by
      intro F
      rw [integND, List.map_map, ← Finset.sum_map_toList]
      rfl
    rw [← hr']
    refine integND_eq_of_prod hrl ?_ ?_ F
    · intro q hq'
      obtain ⟨i, _, rfl⟩ := List.mem_map.1 hq'
      simp
    · intro fs hfs
      have hfs' : fs = List.ofFn fun j : Fin d => fs.getD j fun _ => 0 := by
        apply List.ext_getElem
        · simp [hfs]
        · intro k h1 h2
          simp [List.getD_eq_getElem?_getD, h1]
      rw [hfs', hfun, hr']
      simp only [hpf _ _ (List.length_ofFn), ← Finset.prod_mul_distrib]
      have e2 := Finset.prod_univ_sum
        (fun j : Fin d => (Finset.univ : Finset (Fin (((List.range (2 * N)).map (ν j)).length / 2))))
        (fun j k => (rule j 0 1).1 k * fs.getD j (fun _ => 0) ((rule j 0 1).2 k))
      rw [Fintype.piFinset_univ] at e2
      simp only [integ]
      rw [e2]
      refine Finset.sum_congr rfl fun i _ => Finset.prod_congr rfl fun j _ => ?_
      simp [List.getD_eq_getElem?_getD]
  have haff : ∀ mean scale (F : List ℝ → ℝ), integND (momentQuadratureND B (full.map μ) mats mean scale sort ldl) F
      = integND r fun x => F (affineNode mean scale x) := by
    intro mean scale F
    rw [hr, hq, hq, quadCore_affine, integND, integND, List.map_map]
    rfl
  have hrule : ∀ j m s, (rule j m s).1 = (rule j 0 1).1 ∧ (rule j m s).2 = fun i => s * (rule j 0 1).2 i + m := fun j m s =>
    momentQuadrature_affine B _ m s sort ldl
  refine ⟨hgram, hmain, fun m F => ?_, fun m s F => ?_⟩
  · rw [haff, hmain]
    refine Finset.sum_congr rfl fun i _ => ?_
    simp only [(hrule _ (m _) 1).1, (hrule _ (m _) 1).2]
    congr 2
    apply List.ext_getElem
    · simp [affineNode]
    · intro k h1 h2
      simp [affineNode]
  · rw [haff, hmain]
    refine Finset.sum_congr rfl fun i _ => ?_
    simp only [(hrule _ (m _) (s _)).1, (hrule _ (m _) (s _)).2]
    congr 2
    apply List.ext_getElem
    · simp [affineNode]
    · intro k h1 h2
      simp [affineNode, mul_comm]

/-- independent fair signs in the plane, `N = 2`. -/
example : (∀ j : Fin 2, (fun (_ : Fin 2) (k : ℕ) => if k % 2 = 0 then (1 : ℝ) else 0) j 0 = 1) ∧
    ∀ _ : Fin 2, (Matrix.of fun a b : Fin 2 => if ((a : ℕ) + b) % 2 = 0 then (1 : ℝ) else 0).PosDef := by
  refine ⟨fun j => by simp, fun _ => ?_⟩
  have : (Matrix.of fun a b : Fin 2 => if ((a : ℕ) + b) % 2 = 0 then (1 : ℝ) else 0) = 1 := by
    ext i j
    fin_cases i <;> fin_cases j <;> simp
  rw [this]
  exact Matrix.PosDef.one

end Mfs.Props

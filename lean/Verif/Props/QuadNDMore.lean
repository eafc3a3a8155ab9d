import Verif.Props.QuadNDEquiv

/-!
# Properties C101–C103: more on the multidimensional rule
-/

namespace Mfs.Props

open Matrix Mfs.Spec Mfs.QuadND Mfs.MultiIndex Mfs.Quad1

/-! ## C101 -/

theorem monomial_ofFn {d : ℕ} (x : List ℝ) (hx : x.length = d) (α : Fin d → ℕ) :
    monomial x (List.ofFn α) = ∏ j : Fin d, x.getD j 0 ^ α j := by
  rw [monomial, ← List.prod_ofFn]
  congr 1
  apply List.ext_getElem
  · simp [hx]
  · intro i h1 h2
    have : i < x.length := by simp at h1; omega
    simp [List.getD_eq_getElem?_getD, this]

/-- product of functions of commuting matrices diagonalised by the same orthogonal matrix. -/
theorem prod_funMat_same {z : ℕ} {U : Matrix (Fin z) (Fin z) ℝ} (hU : U * Uᵀ = 1) (ls : List ((Fin z → ℝ) × (ℝ → ℝ))) :
    (ls.map fun l => funMat U l.1 l.2).prod = U * Matrix.diagonal (fun i => (ls.map fun l => l.2 (l.1 i)).prod) * Uᵀ := by
  have hU' : Uᵀ * U = 1 := mul_eq_one_comm.1 hU
  induction ls with
  | nil => simp [hU]
  | cons l ls ih =>
    rw [List.map_cons, List.prod_cons, ih, funMat]
    calc U * diagonal (fun i => l.2 (l.1 i)) * Uᵀ * (U * diagonal (fun i => (ls.map fun l => l.2 (l.1 i)).prod) * Uᵀ)
        = U * diagonal (fun i => l.2 (l.1 i)) * (Uᵀ * U) * diagonal (fun i => (ls.map fun l => l.2 (l.1 i)).prod) * Uᵀ := by
          simp only [Matrix.mul_assoc]
      _ = _ := by
          rw [hU', Matrix.mul_one, Matrix.mul_assoc U, Matrix.diagonal_mul_diagonal]
          simp

theorem vander_posDef {z : ℕ} {Φ : Matrix (Fin z) (Fin z) ℝ} (hdet : Φ.det ≠ 0) {p : Fin z → ℝ} (hp : ∀ i, 0 < p i) :
    (Φ * Matrix.diagonal p * Φᵀ).PosDef := by
  have hsym : (Φ * Matrix.diagonal p * Φᵀ).IsSymm := by
    rw [Matrix.IsSymm, Matrix.transpose_mul, Matrix.transpose_mul, Matrix.transpose_transpose, Matrix.diagonal_transpose,
      Matrix.mul_assoc]
  refine Matrix.PosDef.of_dotProduct_mulVec_pos (by
    rw [Matrix.IsHermitian, Matrix.conjTranspose_eq_transpose_of_trivial]; exact hsym) ?_
  intro c hc
  have hc' : Φᵀ *ᵥ c ≠ 0 := by
    intro h0
    refine hc ?_
    have hu : IsUnit Φᵀ.det := by rw [Matrix.det_transpose]; exact hdet.isUnit
    have := congrArg (fun v => (Φᵀ)⁻¹ *ᵥ v) h0
    simpa [Matrix.mulVec_mulVec, Matrix.nonsing_inv_mul _ hu] using this
  have e : star c ⬝ᵥ ((Φ * Matrix.diagonal p * Φᵀ) *ᵥ c) = ∑ i, p i * (Φᵀ *ᵥ c) i ^ 2 := by
    rw [star_trivial, ← Matrix.mulVec_mulVec, ← Matrix.mulVec_mulVec, Matrix.dotProduct_mulVec, ← Matrix.mulVec_transpose]
    simp only [dotProduct, Matrix.mulVec_diagonal]
    exact Finset.sum_congr rfl fun i _ => by ring
  rw [e]
  obtain ⟨i, hi⟩ : ∃ i, (Φᵀ *ᵥ c) i ≠ 0 := by
    by_contra hall
    push Not at hall
    exact hc' (funext hall)
  exact Finset.sum_pos' (fun i _ => mul_nonneg (hp i).le (sq_nonneg _)) ⟨i, Finset.mem_univ _,
    mul_pos (hp i) (by positivity)⟩

/-- matrix form of the recovery of a discrete law. -/
theorem discrete_core (B : Backend) (hB : B.Valid) {z d : ℕ} (h : 0 < z) (hd : 1 ≤ d) {Φ : Matrix (Fin z) (Fin z) ℝ}
    (hdet : Φ.det ≠ 0) (hΦ0 : ∀ i, Φ ⟨0, h⟩ i = 1) {p : Fin z → ℝ} (hp : ∀ i, 0 < p i) (t : Fin d → Fin z → ℝ)
    (sort ldl : Bool) (fs : List (ℝ → ℝ)) (hfs : fs.length = d) :
    integND (quadCore B z (List.ofFn fun j => Φ * Matrix.diagonal (fun i => p i * t j i) * Φᵀ).length
        (Φ * Matrix.diagonal p * Φᵀ) (List.ofFn fun j => Φ * Matrix.diagonal (fun i => p i * t j i) * Φᵀ) none none sort ldl)
      (prodFun fs) = (∑ i, p i * prodFun fs (List.ofFn fun j => t j i)) / ∑ i, p i := by
  set G := Φ * Matrix.diagonal p * Φᵀ with hG
  set H : Fin d → Matrix (Fin z) (Fin z) ℝ := fun j => Φ * Matrix.diagonal (fun i => p i * t j i) * Φᵀ with hH
  have hpd : G.PosDef := vander_posDef hdet hp
  have hR := codeR_isChol hB hpd ldl
  set R := codeR B G ldl with hRdef
  set s : Fin z → ℝ := fun i => Real.sqrt (p i) with hs
  have hss : ∀ i, s i * s i = p i := fun i => Real.mul_self_sqrt (hp i).le
  set Ψ := R⁻¹ * Φ * Matrix.diagonal s with hΨ
  have hRu : IsUnit R.det := hR.isUnit_det
  have hΨt : Ψᵀ = Matrix.diagonal s * Φᵀ * Rᵀ⁻¹ := by
    rw [hΨ, Matrix.transpose_mul, Matrix.transpose_mul, Matrix.diagonal_transpose, Matrix.transpose_nonsing_inv,
      Matrix.mul_assoc]
  have hfac : ∀ l : Fin z → ℝ, Ψ * Matrix.diagonal l * Ψᵀ = multMat R (Φ * Matrix.diagonal (fun i => p i * l i) * Φᵀ) := by
    intro l
    rw [hΨt, hΨ, multMat]
    have : Matrix.diagonal (fun i => p i * l i) = Matrix.diagonal s * Matrix.diagonal l * Matrix.diagonal s := by
      rw [Matrix.diagonal_mul_diagonal, Matrix.diagonal_mul_diagonal]
      congr 1
      funext i
      rw [← hss i]; ring
    rw [this]
    simp only [Matrix.mul_assoc]
  have horth : Ψ * Ψᵀ = 1 := by
    have := hfac (fun _ => 1)
    rw [Matrix.diagonal_one, Matrix.mul_one] at this
    rw [this]
    simp only [mul_one]
    rw [← hG, multMat]
    conv_lhs => rw [← hR.mul_transpose]
    rw [← Matrix.mul_assoc, Matrix.nonsing_inv_mul _ hRu, Matrix.one_mul, Matrix.mul_nonsing_inv]
    rw [Matrix.det_transpose]; exact hRu
  have hE : ∀ j, IsEigh (multMat R (H j)) Ψ (t j) := fun j => ⟨horth, by rw [hfac]⟩
  have hne : List.ofFn H ≠ [] := by
    intro hc
    have := congrArg List.length hc
    simp at this; omega
  have hsym : ∀ j, (H j).IsSymm := by
    intro j
    simp only [hH]
    rw [Matrix.IsSymm, Matrix.transpose_mul, Matrix.transpose_mul, Matrix.transpose_transpose, Matrix.diagonal_transpose,
      Matrix.mul_assoc]
  rw [quadCore_prod B h G (List.ofFn H) hne sort ldl fs (by simp [hfs]), ← hRdef]
  -- all functions of the matrices are diagonalised by `Ψ`
  have hlist : List.zipWith (fun e f => funMat e.1 e.2 f)
      ((List.ofFn H).map fun H => B.eigh sort (symmetrize (orthonormalise R H))) fs
      = (List.ofFn fun j : Fin d => (t j, fs.getD j (fun _ => 0))).map fun l => funMat Ψ l.1 l.2 := by
    apply List.ext_getElem
    · simp [hfs]
    · intro i h1 h2
      have hi : i < d := by simpa using h2
      simp only [List.getElem_zipWith, List.getElem_map, List.getElem_ofFn]
      have hm : orthonormalise R (H ⟨i, hi⟩) = multMat R (H ⟨i, hi⟩) := orthonormalise_eq (G := G) hR.lower
      rw [hm, symmetrize_eq (multMat_isSymm (hsym _))]
      rw [(hB.eigh sort _ (multMat_isSymm (hsym _))).funMat_eq (hE ⟨i, hi⟩)]
      simp [List.getD_eq_getElem?_getD, show i < fs.length by omega]
  rw [hlist, prod_funMat_same horth, Matrix.mul_apply]
  have hrow : ∀ i, R ⟨0, h⟩ ⟨0, h⟩ * Ψ ⟨0, h⟩ i = s i := by
    intro i
    have h1 : R * Ψ = Φ * Matrix.diagonal s := by
      rw [hΨ, ← Matrix.mul_assoc, ← Matrix.mul_assoc, Matrix.mul_nonsing_inv _ hRu, Matrix.one_mul]
    have h2 := congrFun (congrFun h1 ⟨0, h⟩) i
    rw [Matrix.mul_diagonal, hΦ0, one_mul, Matrix.mul_apply, Finset.sum_eq_single ⟨0, h⟩] at h2
    · exact h2
    · intro b _ hb
      rw [hR.lower ⟨0, h⟩ b (lt_of_le_of_ne (Fin.mk_le_of_le_val (Nat.zero_le _)) (Ne.symm hb)), zero_mul]
    · simp
  have hR00 : R ⟨0, h⟩ ⟨0, h⟩ ^ 2 = ∑ i, p i := by
    have h1 := hR.rowVec_dot ⟨0, h⟩ ⟨0, h⟩
    rw [hR.lower.rowVec_zero ⟨0, h⟩ rfl] at h1
    simp only [dotProduct_smul, smul_dotProduct, smul_eq_mul] at h1
    rw [single_one_dotProduct, Pi.single_eq_same, mul_one] at h1
    rw [sq, h1, hG, Matrix.mul_apply]
    refine Finset.sum_congr rfl fun i _ => ?_
    rw [Matrix.mul_diagonal, Matrix.transpose_apply, hΦ0, one_mul, mul_one]
  have hR0 := hR.diag_pos ⟨0, h⟩
  rw [Finset.sum_div]
  refine Finset.sum_congr rfl fun i _ => ?_
  rw [Matrix.mul_diagonal, Matrix.transpose_apply, ← hR00]
  have hprod : (List.map (fun l : (Fin z → ℝ) × (ℝ → ℝ) => l.2 (l.1 i)) (List.ofFn fun j : Fin d => (t j, fs.getD j (fun _ => 0)))).prod
      = prodFun fs (List.ofFn fun j => t j i) := by
    rw [prodFun]
    congr 1
    apply List.ext_getElem
    · simp [hfs]
    · intro k h1 h2
      have hk : k < d := by simpa using h1
      simp [List.getD_eq_getElem?_getD, show k < fs.length by omega]
  rw [hprod, ← hss i, ← hrow i]
  field_simp

/-- **C101.** Let the moments be those of a law with exactly as many atoms as there are multi-indices of order below `N`,
with positive masses, such that no non-zero polynomial of degree below `N` vanishes at all atoms (the Vandermonde matrix
is invertible). Then the moments are valid, and the rule integrates *every* function exactly as that law. -/
theorem C101_nd_discrete_recovery (B : Backend) (hB : B.Valid) (N d : ℕ) (hN : 1 ≤ N) (hd : 1 ≤ d)
    (basis full : List (List ℕ)) (mats : List (List (List ℤ)))
    (hbasis : generateMultiIndices d (N - 1) 0 = .ok basis) (hfull : generateMultiIndices d (2 * N - 1) 0 = .ok full)
    (hmats : gramAndHankelIndices N d = .ok mats) (p : Fin basis.length → ℝ) (hp : ∀ i, 0 < p i)
    (x : Fin basis.length → List ℝ) (hx : ∀ i, (x i).length = d)
    (hdet : (Matrix.of fun a i => monomial (x i) basis[a] : Matrix (Fin basis.length) (Fin basis.length) ℝ).det ≠ 0)
    (sort ldl : Bool) :
    (gramOn basis fun α => ∑ i, p i * monomial (x i) α).PosDef ∧
    ∀ F : List ℝ → ℝ,
      integND (momentQuadratureND B (full.map fun α => ∑ i, p i * monomial (x i) α) mats none none sort ldl) F
        = (∑ i, p i * F (x i)) / ∑ i, p i := by
  set μ : List ℕ → ℝ := fun α => ∑ i, p i * monomial (x i) α with hμ
  set Φ : Matrix (Fin basis.length) (Fin basis.length) ℝ := Matrix.of fun a i => monomial (x i) basis[a] with hΦ
  obtain ⟨h, Hs, hq, hD⟩ := nd_setup hN hd μ hbasis hfull hmats
  have hbl : ∀ a : Fin basis.length, (basis[a]).length = d := by
    intro a
    obtain ⟨t, ht, _, hmem⟩ := C01_generate_complete d (N - 1) 0 hd (by omega)
    rw [hbasis] at ht; cases ht
    exact ((hmem _).1 (by simp)).1
  have hofn : ∀ a : Fin basis.length, List.ofFn (fun j : Fin d => (basis[a]).getD j 0) = basis[a] :=
    fun a => ofFn_getD _ (hbl a)
  have hmul : ∀ i (α β : Fin d → ℕ), monomial (x i) (List.ofFn (α + β))
      = monomial (x i) (List.ofFn α) * monomial (x i) (List.ofFn β) := by
    intro i α β
    rw [monomial_ofFn _ (hx i), monomial_ofFn _ (hx i), monomial_ofFn _ (hx i), ← Finset.prod_mul_distrib]
    exact Finset.prod_congr rfl fun j _ => by rw [Pi.add_apply, pow_add]
  have hsingle : ∀ i (j : Fin d), monomial (x i) (List.ofFn (Pi.single j 1 : Fin d → ℕ)) = (x i).getD j 0 := by
    intro i j
    rw [monomial_ofFn _ (hx i), Finset.prod_eq_single j]
    · simp
    · intro k _ hk; simp [hk]
    · simp
  have hgram : gramOn basis μ = Φ * Matrix.diagonal p * Φᵀ := by
    ext a b
    have h1 : gramOn basis μ a b = ∑ i, p i * monomial (x i) (List.zipWith (· + ·) basis[a] basis[b]) := rfl
    rw [h1, Matrix.mul_apply]
    refine Finset.sum_congr rfl fun i _ => ?_
    rw [Matrix.mul_diagonal, Matrix.transpose_apply]
    have h2 : List.zipWith (· + ·) basis[a] basis[b]
        = List.ofFn ((fun j : Fin d => (basis[a]).getD j 0) + fun j : Fin d => (basis[b]).getD j 0) := by
      conv_lhs => rw [← hofn a, ← hofn b]
      apply List.ext_getElem
      · simp
      · intro k h1 h2; simp
    rw [h2, hmul, hofn, hofn]
    simp only [hΦ, Matrix.of_apply]
    ring
  have hpd : (gramOn basis μ).PosDef := by rw [hgram]; exact vander_posDef hdet hp
  refine ⟨hpd, ?_⟩
  have hR := codeR_isChol hB hpd ldl
  have D := hD _ hR
  have hH : Hs = fun j : Fin d => Φ * Matrix.diagonal (fun i => p i * (x i).getD j 0) * Φᵀ := by
    funext j
    ext a b
    rw [D.H_eq]
    have h1 : ∀ α, μ α = ∑ i, p i * monomial (x i) α := fun _ => rfl
    rw [h1, Matrix.mul_apply]
    refine Finset.sum_congr rfl fun i _ => ?_
    rw [Matrix.mul_diagonal, Matrix.transpose_apply, hmul, hmul, hsingle, hofn, hofn]
    simp only [hΦ, Matrix.of_apply]
    ring
  have hΦ0 : ∀ i, Φ ⟨0, h⟩ i = 1 := by
    intro i
    have h1 := D.basis0
    simp only [hΦ, Matrix.of_apply]
    rw [← hofn ⟨0, h⟩, h1, monomial_ofFn _ (hx i)]
    simp
  intro F
  have hxo : ∀ i, List.ofFn (fun j : Fin d => (x i).getD j 0) = x i := by
    intro i
    apply List.ext_getElem
    · simp [hx i]
    · intro k h1 h2
      simp [List.getD_eq_getElem?_getD, h2]
  rw [integND_eq_of_prod (d := d) (r' := List.ofFn fun i => (p i / ∑ j, p j, x i)) ?_ ?_ ?_ F]
  · rw [integND, List.map_ofFn, List.sum_ofFn, Finset.sum_div]
    refine Finset.sum_congr rfl fun i _ => ?_
    simp only [Function.comp_apply]
    ring
  · intro q hq'
    exact (C21_nd_reproduces B hB N d hN hd μ basis full mats hbasis hfull hmats hpd sort ldl).2.2 q hq'
  · intro q hq'
    rw [List.mem_ofFn] at hq'
    obtain ⟨i, rfl⟩ := hq'
    exact hx i
  · intro fs hfs
    rw [hq, hgram, hH, discrete_core B hB h hd hdet hΦ0 hp _ sort ldl fs hfs, integND, List.map_ofFn, List.sum_ofFn,
      Finset.sum_div]
    refine Finset.sum_congr rfl fun i _ => ?_
    simp only [Function.comp_apply, hxo]
    ring

/-- hypotheses of C101 for `N = 2`, `d = 2`: three atoms not on a line. -/
example : generateMultiIndices 2 (2 - 1) 0 = .ok [[0, 0], [0, 1], [1, 0]] ∧
    (Matrix.of fun (a i : Fin 3) => monomial (([[0, 0], [0, 1], [1, 0]] : List (List ℝ))[i])
      (([[0, 0], [0, 1], [1, 0]] : List (List ℕ))[a])).det ≠ 0 := by
  refine ⟨by rfl, ?_⟩
  simp [Matrix.det_fin_three, monomial]

end Mfs.Props

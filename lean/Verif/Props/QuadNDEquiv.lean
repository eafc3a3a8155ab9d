import Verif.Props.FilterND
import Mathlib.Algebra.MvPolynomial.Basic
import Mathlib.Data.Nat.Choose.Sum

/-!
# Property C85: raw, central and scaled moments give the same multidimensional rule
-/

namespace Mfs.Props

open Matrix Mfs.Spec Mfs.QuadND Mfs.MultiIndex MvPolynomial

variable {d : ℕ}

/-- the moment of multi-index `α` of the law `L` in the coordinates `p`: `L(∏ⱼ pⱼ ^ αⱼ)`. -/
noncomputable def polyMoment (L : MvPolynomial (Fin d) ℝ →ₗ[ℝ] ℝ) (p : Fin d → MvPolynomial (Fin d) ℝ) (α : List ℕ) : ℝ :=
  L (∏ j, p j ^ α.getD j 0)

/-- the coordinates `xⱼ`, `xⱼ - mⱼ` and `(xⱼ - mⱼ) / sⱼ`. -/
noncomputable def rawCoord : Fin d → MvPolynomial (Fin d) ℝ := fun j => X j
noncomputable def centralCoord (m : List ℝ) : Fin d → MvPolynomial (Fin d) ℝ := fun j => X j - C (m.getD j 0)
noncomputable def scaledCoord (m s : List ℝ) : Fin d → MvPolynomial (Fin d) ℝ :=
  fun j => C (s.getD j 0)⁻¹ * (X j - C (m.getD j 0))

section basis

/-- coefficient of `x^β` in `((x - m) / s)^α`. -/
noncomputable def shiftCoeff (m s : List ℝ) (α β : Fin d → ℕ) : ℝ :=
  ∏ j, ((α j).choose (β j) : ℝ) * (-m.getD j 0) ^ (α j - β j) * ((s.getD j 0)⁻¹) ^ α j

theorem shift_pow (m s : ℝ) (j : Fin d) (k : ℕ) :
    (C s⁻¹ * (X j - C m) : MvPolynomial (Fin d) ℝ) ^ k
      = ∑ l ∈ Finset.range (k + 1), C ((k.choose l : ℝ) * (-m) ^ (k - l) * s⁻¹ ^ k) * X j ^ l := by
  rw [mul_pow, sub_eq_add_neg, ← C_neg, add_pow, Finset.mul_sum]
  refine Finset.sum_congr rfl fun l _ => ?_
  simp only [map_mul, map_pow, map_natCast]
  ring

theorem shift_expand {z : ℕ} (e : Fin z → Fin d → ℕ) (he : Function.Injective e) (m s : List ℝ) (a : Fin z)
    (hdown : ∀ β : Fin d → ℕ, (∀ j, β j ≤ e a j) → ∃ b, e b = β) :
    ∏ j, scaledCoord m s j ^ e a j = ∑ b, C (shiftCoeff m s (e a) (e b)) * ∏ j, (X j : MvPolynomial (Fin d) ℝ) ^ e b j := by
  classical
  have h1 : ∏ j, scaledCoord (d := d) m s j ^ e a j
      = ∑ β ∈ Fintype.piFinset (fun j => Finset.range (e a j + 1)),
        C (shiftCoeff m s (e a) β) * ∏ j, (X j : MvPolynomial (Fin d) ℝ) ^ β j := by
    simp only [scaledCoord, shift_pow]
    rw [Finset.prod_univ_sum]
    refine Finset.sum_congr rfl fun β _ => ?_
    rw [Finset.prod_mul_distrib, shiftCoeff, map_prod]
  rw [h1]
  have h2 : ∑ b, C (shiftCoeff m s (e a) (e b)) * ∏ j, (X j : MvPolynomial (Fin d) ℝ) ^ e b j
      = ∑ β ∈ Finset.univ.image e, C (shiftCoeff m s (e a) β) * ∏ j, (X j : MvPolynomial (Fin d) ℝ) ^ β j := by
    rw [Finset.sum_image (fun x _ y _ h => he h)]
  rw [h2]
  refine Finset.sum_subset ?_ ?_
  · intro β hβ
    rw [Fintype.mem_piFinset] at hβ
    obtain ⟨b, hb⟩ := hdown β (fun j => by have := hβ j; simp at this; omega)
    exact Finset.mem_image.2 ⟨b, Finset.mem_univ _, hb⟩
  · intro β _ hβ
    rw [Fintype.mem_piFinset] at hβ
    push Not at hβ
    obtain ⟨j, hj⟩ := hβ
    have : shiftCoeff m s (e a) β = 0 := by
      refine Finset.prod_eq_zero (Finset.mem_univ j) ?_
      rw [Nat.choose_eq_zero_of_lt (by simpa using hj)]
      simp
    rw [this]; simp

end basis

theorem eigh_affine {n : ℕ} {K U : Matrix (Fin n) (Fin n) ℝ} {lam : Fin n → ℝ} (h : IsEigh K U lam) (m s : ℝ) :
    IsEigh (s • (K - m • (1 : Matrix (Fin n) (Fin n) ℝ))) U (fun i => s * (lam i - m)) := by
  refine ⟨h.orth, ?_⟩
  have : Matrix.diagonal (fun i => s * (lam i - m)) = s • (Matrix.diagonal lam - m • (1 : Matrix (Fin n) (Fin n) ℝ)) := by
    ext i j
    by_cases hij : i = j
    · subst hij; simp
    · simp [hij]
  rw [this, Matrix.mul_smul, Matrix.smul_mul, Matrix.mul_sub, Matrix.sub_mul, ← h.spec, Matrix.mul_smul, Matrix.mul_one,
    Matrix.smul_mul, h.orth]

theorem prodFun_affine (fs : List (ℝ → ℝ)) (m s x : List ℝ) (hm : m.length = fs.length) (hs : s.length = fs.length)
    (hx : x.length = fs.length) :
    prodFun fs (affineNode (some m) (some s) x)
      = prodFun (List.ofFn fun j : Fin fs.length => fun t => fs[j] (t * s.getD j 0 + m.getD j 0)) x := by
  simp only [prodFun, affineNode]
  congr 1
  apply List.ext_getElem
  · simp [hm, hs, hx]
  · intro i h1 h2
    have hi : i < fs.length := by simp at h1; omega
    simp [List.getD_eq_getElem?_getD, hm, hs]

/-- the rules from raw and from scaled moments, `d`-dimensional: statement about the matrices. -/
theorem scaled_rule (B : Backend) (hB : B.Valid) (N : ℕ) (hN : 1 ≤ N) (hd : 1 ≤ d)
    (L : MvPolynomial (Fin d) ℝ →ₗ[ℝ] ℝ) (m s : List ℝ) (hm : m.length = d) (hs : s.length = d) (hs0 : ∀ t ∈ s, 0 < t)
    (basis full : List (List ℕ)) (mats : List (List (List ℤ)))
    (hbasis : generateMultiIndices d (N - 1) 0 = .ok basis) (hfull : generateMultiIndices d (2 * N - 1) 0 = .ok full)
    (hmats : gramAndHankelIndices N d = .ok mats) (hpd : (gramOn basis (polyMoment L rawCoord)).PosDef)
    (sort sort' ldl ldl' : Bool) (F : List ℝ → ℝ) :
    integND (momentQuadratureND B (full.map (polyMoment L (scaledCoord m s))) mats (some m) (some s) sort' ldl') F
      = integND (momentQuadratureND B (full.map (polyMoment L rawCoord)) mats none none sort ldl) F := by
  obtain ⟨hz, Hs, hq, hD⟩ := nd_setup hN hd (polyMoment L rawCoord) hbasis hfull hmats
  obtain ⟨hz', Hs', hq', hD'⟩ := nd_setup hN hd (polyMoment L (scaledCoord m s)) hbasis hfull hmats
  have hmlen : mats.length = d + 1 := by
    obtain ⟨_, h, _⟩ := momentData hN hd (polyMoment L rawCoord) hbasis hfull hmats
    exact h
  have hR := codeR_isChol hB hpd ldl
  set G := gramOn basis (polyMoment L rawCoord) with hGdef
  set G' := gramOn basis (polyMoment L (scaledCoord m s)) with hGdef'
  set R := codeR B G ldl with hRdef
  have D := hD R hR
  set e : Fin basis.length → Fin d → ℕ := fun a j => (basis[a]).getD j 0 with he
  have hbl : ∀ a : Fin basis.length, (basis[a]).length = d := by
    intro a
    obtain ⟨t, ht, _, hmem⟩ := C01_generate_complete d (N - 1) 0 hd (by omega)
    rw [hbasis] at ht; cases ht
    exact ((hmem _).1 (by simp)).1
  have hofn : ∀ a, List.ofFn (e a) = basis[a] := fun a => ofFn_getD _ (hbl a)
  have hinj : Function.Injective e := by
    intro a b hab
    have h1 : basis[a] = basis[b] := by rw [← hofn a, ← hofn b, hab]
    have hnd : basis.Nodup := by
      obtain ⟨t, ht, hnd, _⟩ := C01_generate_complete d (N - 1) 0 hd (by omega)
      rw [hbasis] at ht; cases ht; exact hnd
    exact Fin.ext (hnd.getElem_inj_iff.1 h1)
  have hlt : ∀ a, ∑ j, e a j < N := by
    intro a
    obtain ⟨t, ht, _, hmem⟩ := C01_generate_complete d (N - 1) 0 hd (by omega)
    rw [hbasis] at ht; cases ht
    have := ((hmem (basis[a])).1 (by simp)).2.2
    rw [← List.sum_ofFn, hofn]
    omega
  have hdown : ∀ a, ∀ β : Fin d → ℕ, (∀ j, β j ≤ e a j) → ∃ b, e b = β := by
    intro a β hβ
    exact D.surj β (lt_of_le_of_lt (Finset.sum_le_sum fun j _ => hβ j) (hlt a))
  -- the change of basis
  set T : Matrix (Fin basis.length) (Fin basis.length) ℝ := Matrix.of fun a b => shiftCoeff m s (e a) (e b) with hT
  have hspos : ∀ j : Fin d, 0 < s.getD j 0 := by
    intro j
    have : (j : ℕ) < s.length := by rw [hs]; exact j.2
    rw [List.getD_eq_getElem?_getD, List.getElem?_eq_getElem this]
    exact hs0 _ (List.getElem_mem this)
  have hTl : IsLower T := by
    intro a b hab
    have hsorted := C02_generate_sorted d (N - 1) 0 hd basis hbasis
    have hgl : GradedLexLt basis[a] basis[b] := by
      rw [List.pairwise_iff_getElem] at hsorted
      exact hsorted a b a.2 b.2 hab
    obtain ⟨j, hj⟩ : ∃ j : Fin d, e a j < e b j := by
      rcases hgl with h | ⟨_, k, _, hk⟩
      · by_contra hc
        push Not at hc
        have := Finset.sum_le_sum (s := Finset.univ) fun j _ => hc j
        rw [← List.sum_ofFn, ← List.sum_ofFn, hofn, hofn] at this
        omega
      · have hkd : k < d := by
          by_contra hc
          have := hbl b
          rw [List.getD_eq_getElem?_getD (l := basis[b]), List.getElem?_eq_none (by omega)] at hk
          simp at hk
        exact ⟨⟨k, hkd⟩, hk⟩
    simp only [hT, Matrix.of_apply, shiftCoeff]
    refine Finset.prod_eq_zero (Finset.mem_univ j) ?_
    rw [Nat.choose_eq_zero_of_lt hj]; simp
  have hTd : ∀ a, 0 < T a a := by
    intro a
    simp only [hT, Matrix.of_apply, shiftCoeff]
    refine Finset.prod_pos fun j _ => ?_
    simp only [Nat.choose_self, Nat.cast_one, Nat.sub_self, pow_zero, one_mul]
    exact pow_pos (inv_pos.2 (hspos j)) _
  -- moments as values of `L`
  have hof : ∀ (p : Fin d → MvPolynomial (Fin d) ℝ) (α : Fin d → ℕ), polyMoment L p (List.ofFn α) = L (∏ j, p j ^ α j) := by
    intro p α
    rw [polyMoment]
    congr 1
    exact Finset.prod_congr rfl fun j _ => by simp [List.getD_eq_getElem?_getD]
  have hGe : ∀ a b, G a b = L ((∏ j, (X j : MvPolynomial (Fin d) ℝ) ^ e a j) * ∏ j, (X j : MvPolynomial (Fin d) ℝ) ^ e b j) := by
    intro a b
    rw [D.G_eq, hof, ← Finset.prod_mul_distrib]
    simp only [rawCoord, Pi.add_apply, pow_add]
  have hHe : ∀ i a b, Hs i a b = L (X i * ((∏ j, (X j : MvPolynomial (Fin d) ℝ) ^ e a j) *
      ∏ j, (X j : MvPolynomial (Fin d) ℝ) ^ e b j)) := by
    intro i a b
    rw [D.H_eq, hof, ← Finset.prod_mul_distrib]
    simp only [rawCoord, Pi.add_apply, pow_add]
    rw [Finset.prod_mul_distrib, mul_comm]
    congr 2
    rw [Finset.prod_eq_single i]
    · simp
    · intro b _ hb; simp [hb]
    · simp
  have hexp := fun a => shift_expand e hinj m s a (hdown a)
  have hlin : ∀ (a b : Fin basis.length) (q : MvPolynomial (Fin d) ℝ) (M : Matrix (Fin basis.length) (Fin basis.length) ℝ),
      (∀ c c', M c c' = L (q * ((∏ j, (X j : MvPolynomial (Fin d) ℝ) ^ e c j) * ∏ j, (X j : MvPolynomial (Fin d) ℝ) ^ e c' j))) →
      L (q * ((∏ j, scaledCoord m s j ^ e a j) * ∏ j, scaledCoord m s j ^ e b j)) = (T * M * Tᵀ) a b := by
    intro a b q M hM
    rw [hexp a, hexp b, Finset.sum_mul_sum, Finset.mul_sum, map_sum, Matrix.mul_apply]
    simp only [Matrix.mul_apply, Finset.mul_sum, map_sum, Finset.sum_mul, Matrix.transpose_apply]
    rw [Finset.sum_comm]
    refine Finset.sum_congr rfl fun c' _ => Finset.sum_congr rfl fun c _ => ?_
    rw [hM]
    have : q * ((C (shiftCoeff m s (e a) (e c)) * ∏ j, (X j : MvPolynomial (Fin d) ℝ) ^ e c j) *
          (C (shiftCoeff m s (e b) (e c')) * ∏ j, (X j : MvPolynomial (Fin d) ℝ) ^ e c' j))
        = (shiftCoeff m s (e a) (e c) * shiftCoeff m s (e b) (e c')) •
          (q * ((∏ j, (X j : MvPolynomial (Fin d) ℝ) ^ e c j) * ∏ j, (X j : MvPolynomial (Fin d) ℝ) ^ e c' j)) := by
      rw [MvPolynomial.smul_eq_C_mul, map_mul]; ring
    rw [this, map_smul, smul_eq_mul]
    simp only [hT, Matrix.of_apply]
    ring
  -- Gram matrices and Cholesky factors
  have hzz : ∀ (μ : List ℕ → ℝ) a b, gramOn basis μ a b = μ (List.ofFn (e a + e b)) := by
    intro μ a b
    simp only [gramOn, Matrix.of_apply]
    congr 1
    apply List.ext_getElem
    · have h1 := hbl a; have h2 := hbl b
      simp only [Fin.getElem_fin] at h1 h2
      simp [h1, h2]
    · intro i h1 h2
      have h3 := hbl a; have h4 := hbl b
      simp only [Fin.getElem_fin] at h3 h4
      simp [he, List.getD_eq_getElem?_getD, h3, h4]
  have hG' : G' = T * G * Tᵀ := by
    ext a b
    rw [← hlin a b 1 G (fun c c' => by rw [one_mul]; exact hGe c c'), one_mul, hGdef', hzz, hof,
      ← Finset.prod_mul_distrib]
    simp only [Pi.add_apply, pow_add]
  have hchol' : IsChol G' (T * R) := by
    refine ⟨hTl.mul hR.lower, fun i => ?_, ?_⟩
    · rw [hTl.mul_diag hR.lower]
      exact mul_pos (hTd i) (hR.diag_pos i)
    · rw [hG', ← hR.mul_transpose, Matrix.transpose_mul]
      simp only [Matrix.mul_assoc]
  have hpd' : G'.PosDef := hchol'.posDef
  have hR' : codeR B G' ldl' = T * R := (codeR_isChol hB hpd' ldl').unique hchol'
  have D' := hD' _ hchol'
  have hH' : ∀ i, Hs' i = T * ((s.getD i 0)⁻¹ • (Hs i - m.getD i 0 • G)) * Tᵀ := by
    intro i
    ext a b
    rw [← hlin a b (scaledCoord m s i) _ ?_]
    · rw [D'.H_eq, hof]
      congr 1
      simp only [Pi.add_apply, pow_add]
      rw [Finset.prod_mul_distrib, Finset.prod_mul_distrib, mul_comm]
      congr 1
      rw [Finset.prod_eq_single i]
      · simp
      · intro b _ hb; simp [hb]
      · simp
    · intro c c'
      simp only [Matrix.smul_apply, Matrix.sub_apply, smul_eq_mul]
      rw [hHe, hGe, ← smul_eq_mul (m.getD i 0), ← map_smul, ← map_sub, ← smul_eq_mul, ← map_smul]
      congr 1
      rw [scaledCoord, MvPolynomial.smul_eq_C_mul, MvPolynomial.smul_eq_C_mul]
      ring
  -- multiplication matrices
  have hTu : IsUnit T.det := hTl.isUnit_det fun i => (hTd i).ne'
  have hK' : ∀ i, multMat (T * R) (Hs' i) = (s.getD i 0)⁻¹ • (multMat R (Hs i) - m.getD i 0 • (1 : Matrix _ _ ℝ)) := by
    intro i
    have h1 : ∀ M : Matrix (Fin basis.length) (Fin basis.length) ℝ, multMat (T * R) (T * M * Tᵀ) = multMat R M := by
      intro M
      simp only [multMat, Matrix.transpose_mul, Matrix.mul_inv_rev]
      have e1 : T⁻¹ * T = 1 := Matrix.nonsing_inv_mul _ hTu
      have e2 : Tᵀ * Tᵀ⁻¹ = 1 := Matrix.mul_nonsing_inv _ (by rw [Matrix.det_transpose]; exact hTu)
      calc R⁻¹ * T⁻¹ * (T * M * Tᵀ) * (Tᵀ⁻¹ * Rᵀ⁻¹) = R⁻¹ * ((T⁻¹ * T) * M * (Tᵀ * Tᵀ⁻¹)) * Rᵀ⁻¹ := by
            simp only [Matrix.mul_assoc]
        _ = R⁻¹ * M * Rᵀ⁻¹ := by rw [e1, e2, Matrix.one_mul, Matrix.mul_one]
    have h2 : multMat R G = 1 := by
      rw [multMat, ← hR.mul_transpose, ← Matrix.mul_assoc, Matrix.nonsing_inv_mul _ hR.isUnit_det, Matrix.one_mul,
        Matrix.mul_nonsing_inv _ (by rw [Matrix.det_transpose]; exact hR.isUnit_det)]
    rw [hH', h1, ← h2]
    simp only [multMat, Matrix.mul_smul, Matrix.smul_mul, Matrix.mul_sub, Matrix.sub_mul]
  -- compare on product functions
  refine integND_eq_of_prod (d := d)
    (momentQuadratureND_node_length B _ _ d hmlen _ _ (by simpa using hm) (by simpa using hs) _ _)
    (momentQuadratureND_node_length B _ _ d hmlen _ _ (by simp) (by simp) _ _) ?_ F
  intro fs hfs
  have hne : ∀ H : Fin d → Matrix (Fin basis.length) (Fin basis.length) ℝ, List.ofFn H ≠ [] := by
    intro H hc
    have := congrArg List.length hc
    simp at this; omega
  rw [hq, hq', quadCore_affine, quadCore_prod B hz _ _ (hne _) sort ldl fs (by simp [hfs])]
  have hprod : integND ((quadCore B basis.length (List.ofFn Hs').length G' (List.ofFn Hs') none none sort' ldl').map
        fun p => (p.1, affineNode (some m) (some s) p.2)) (prodFun fs)
      = integND (quadCore B basis.length (List.ofFn Hs').length G' (List.ofFn Hs') none none sort' ldl')
        (prodFun (List.ofFn fun j : Fin fs.length => fun t => fs[j] (t * s.getD j 0 + m.getD j 0))) := by
    rw [integND, integND, List.map_map]
    congr 1
    apply List.map_congr_left
    intro p hp
    simp only [Function.comp_def]
    rw [prodFun_affine fs m s p.2 (by omega) (by omega)]
    rw [nodes_length B _ _ sort' ldl' p hp]; simp [hfs]
  rw [hprod, quadCore_prod B hz' _ _ (hne _) sort' ldl' _ (by simp [hfs])]
  suffices hL : List.zipWith (fun e f => funMat e.1 e.2 f)
        ((List.ofFn Hs').map fun H => B.eigh sort' (symmetrize (Quad1.orthonormalise (codeR B G' ldl') H)))
        (List.ofFn fun j : Fin fs.length => fun t => fs[j] (t * s.getD j 0 + m.getD j 0))
      = List.zipWith (fun e f => funMat e.1 e.2 f)
        ((List.ofFn Hs).map fun H => B.eigh sort (symmetrize (Quad1.orthonormalise R H))) fs by rw [hL]
  rw [hR']
  apply List.ext_getElem
  · simp
  · intro i h1 h2
    have hi : i < d := by simp at h2; omega
    simp only [List.getElem_zipWith, List.getElem_map, List.getElem_ofFn]
    rw [Quad1.orthonormalise_eq (G := G') hchol'.lower, Quad1.orthonormalise_eq (G := G) hR.lower, hK']
    have hKs : (multMat R (Hs ⟨i, hi⟩)).IsSymm := D.symm _
    have hKs' : ((s.getD i 0)⁻¹ • (multMat R (Hs ⟨i, hi⟩) - m.getD i 0 • (1 : Matrix _ _ ℝ))).IsSymm := by
      have := D'.symm ⟨i, hi⟩
      rwa [hK'] at this
    rw [symmetrize_eq hKs, symmetrize_eq hKs']
    have E := hB.eigh sort _ hKs
    have E' := hB.eigh sort' _ hKs'
    rw [E'.funMat_eq (eigh_affine E (m.getD i 0) (s.getD i 0)⁻¹)]
    simp only [funMat]
    congr 3
    funext k
    have := (hspos ⟨i, hi⟩).ne'
    simp only at this
    simp only [Fin.getElem_fin]
    field_simp
    ring_nf

/-- **C85.** Let a law be given by a linear functional `L` on polynomials in `d` variables. The quadrature rules built from
its raw moments, from its central moments with `mean = m`, and from its scaled moments with `mean = m`, `scale = s`
(positive scales) agree on every function, if the raw Gram matrix is positive definite. Any `m`, `s` will do; options for
sorting and `ldl` are arbitrary. -/
theorem C85_nd_raw_central_scaled (B : Backend) (hB : B.Valid) (N : ℕ) (hN : 1 ≤ N) (hd : 1 ≤ d)
    (L : MvPolynomial (Fin d) ℝ →ₗ[ℝ] ℝ) (m s : List ℝ) (hm : m.length = d) (hs : s.length = d) (hs0 : ∀ t ∈ s, 0 < t)
    (basis full : List (List ℕ)) (mats : List (List (List ℤ)))
    (hbasis : generateMultiIndices d (N - 1) 0 = .ok basis) (hfull : generateMultiIndices d (2 * N - 1) 0 = .ok full)
    (hmats : gramAndHankelIndices N d = .ok mats) (hpd : (gramOn basis (polyMoment L rawCoord)).PosDef)
    (s₁ s₂ s₃ l₁ l₂ l₃ : Bool) (F : List ℝ → ℝ) :
    integND (momentQuadratureND B (full.map (polyMoment L (centralCoord m))) mats (some m) none s₂ l₂) F
      = integND (momentQuadratureND B (full.map (polyMoment L rawCoord)) mats none none s₁ l₁) F ∧
    integND (momentQuadratureND B (full.map (polyMoment L (scaledCoord m s))) mats (some m) (some s) s₃ l₃) F
      = integND (momentQuadratureND B (full.map (polyMoment L rawCoord)) mats none none s₁ l₁) F := by
  refine ⟨?_, scaled_rule B hB N hN hd L m s hm hs hs0 basis full mats hbasis hfull hmats hpd s₁ s₃ l₁ l₃ F⟩
  have hmlen : mats.length = d + 1 := by
    obtain ⟨_, h, _⟩ := momentData hN hd (polyMoment L rawCoord) hbasis hfull hmats
    exact h
  rw [← scaled_rule B hB N hN hd L m (List.replicate d 1) hm (by simp) (by simp [List.mem_replicate]) basis full mats hbasis hfull hmats hpd
    s₁ s₂ l₁ l₂ F]
  have hc : (centralCoord m : Fin d → MvPolynomial (Fin d) ℝ) = scaledCoord m (List.replicate d 1) := by
    funext j
    simp [centralCoord, scaledCoord, List.getD_eq_getElem?_getD]
  rw [hc]
  rw [momentQuadratureND, momentQuadratureND, quadCore_affine, quadCore_affine (mean := some m) (scale := some _)]
  rw [integND, integND, List.map_map, List.map_map]
  congr 1
  apply List.map_congr_left
  intro p hp
  simp only [Function.comp_def, affineNode]
  have hp : p.2.length = d := by
    have := momentQuadratureND_node_length B (full.map (polyMoment L (scaledCoord m (List.replicate d 1)))) mats d hmlen none none
      (by simp) (by simp) s₂ l₂ p hp
    exact this
  congr 3
  apply List.ext_getElem
  · simp [hp]
  · intro i h1 h2
    simp

/-- a law meeting the hypotheses: uniform on the four points `(±1, ±1)`; `N = 2`, `d = 2`. -/
noncomputable def fourPoints : MvPolynomial (Fin 2) ℝ →ₗ[ℝ] ℝ :=
  (1 / 4 : ℝ) • ((MvPolynomial.aeval ![1, 1]).toLinearMap + (MvPolynomial.aeval ![1, -1]).toLinearMap
    + (MvPolynomial.aeval ![-1, 1]).toLinearMap + (MvPolynomial.aeval ![-1, -1]).toLinearMap)

theorem fourPoints_one : fourPoints 1 = 1 := by simp [fourPoints]; norm_num

theorem fourPoints_posDef : (gramOn [[0, 0], [0, 1], [1, 0]] (polyMoment fourPoints rawCoord)).PosDef := by
  have : gramOn [[0, 0], [0, 1], [1, 0]] (polyMoment fourPoints rawCoord) = (1 : Matrix (Fin 3) (Fin 3) ℝ) := by
    ext i j
    fin_cases i <;> fin_cases j <;> simp [gramOn, polyMoment, fourPoints, rawCoord, Fin.prod_univ_two] <;> norm_num
  rw [this]
  exact Matrix.PosDef.one

example : generateMultiIndices 2 (2 - 1) 0 = .ok [[0, 0], [0, 1], [1, 0]] ∧
    (gramOn [[0, 0], [0, 1], [1, 0]] (polyMoment fourPoints rawCoord)).PosDef ∧ (∀ t ∈ ([2, 3] : List ℝ), 0 < t) :=
  ⟨by rfl, fourPoints_posDef, by simp⟩

end Mfs.Props

import Verif.Props.JvpND

/-!
# C173, continued: independent coordinates break forward mode in all dimensions and orders
-/

namespace Mfs.Props

open Matrix Mfs.Spec Mfs.Quad1 Mfs.QuadND Mfs.Jvp Mfs.MultiIndex

variable {N e : ℕ} {basis full : List (List ℕ)} {mats : List (List (List ℤ))} {B : Backend}

/-- moments of a first variable with moments `f` that is independent of the others, whose joint moments are `ν`. -/
def indepMoment (f : ℕ → ℝ) (ν : List ℕ → ℝ) (α : List ℕ) : ℝ := f (α.headD 0) * ν α.tail

/-- two polynomials with the same eigenvalue are parallel. -/
theorem pencil_parallel {z : ℕ} {G R H U : Matrix (Fin z) (Fin z) ℝ} {lam : Fin z → ℝ} (hR : IsChol G R) (h : IsEigh (multMat R H) U lam)
    (hinj : Function.Injective lam) {c : ℝ} {p q : Fin z → ℝ} (hp : (H - c • G) *ᵥ p = 0) (hq : (H - c • G) *ᵥ q = 0) (a b : Fin z) :
    p a * q b = p b * q a := by
  have hu := hR.isUnit_det
  have huT : IsUnit (Rᵀ).det := by rwa [Matrix.det_transpose]
  have ho : Uᵀ * U = 1 := mul_eq_one_comm.1 h.orth
  have hK : multMat R (H - c • G) = U * Matrix.diagonal (fun i => lam i - c) * Uᵀ := by
    have h1 : multMat R (H - c • G) = multMat R H - c • (1 : Matrix (Fin z) (Fin z) ℝ) := by
      rw [multMat, multMat, Matrix.mul_sub, Matrix.sub_mul, Matrix.mul_smul, Matrix.smul_mul, ← hR.mul_transpose, Matrix.nonsing_inv_mul_cancel_left _ _ hu,
        Matrix.mul_nonsing_inv _ huT]
    have h2 : Matrix.diagonal (fun i => lam i - c) = Matrix.diagonal lam - c • (1 : Matrix (Fin z) (Fin z) ℝ) := by
      ext i j
      by_cases hij : i = j
      · subst hij; simp
      · simp [hij]
    rw [h1, h2, h.spec, Matrix.mul_sub, Matrix.sub_mul, Matrix.mul_smul, Matrix.smul_mul, Matrix.mul_one, h.orth]
  exact kernel_parallel hR (U := U) (lam := fun i => lam i - c) ⟨h.orth, hK⟩ (fun i j hij => hinj (by simpa using hij)) hp hq a b

section Vec

variable {ι : Type} [Fintype ι]

/-- coefficients of the polynomial `(∑ rᵢ xⁱ) (∑ qⱼ y^bⱼ)`. -/
noncomputable def prodVec (basis : List (List ℕ)) (K : ℕ) (r : ℕ → ℝ) (qc : ι → ℝ) (qb : ι → List ℕ) (a : Fin basis.length) : ℝ :=
  ∑ i ∈ Finset.range K, ∑ j, if basis[a] = i :: qb j then r i * qc j else 0

theorem prodVec_sum (hnd : basis.Nodup) (K : ℕ) (r : ℕ → ℝ) (qc : ι → ℝ) (qb : ι → List ℕ) (hmem : ∀ i < K, ∀ j, i :: qb j ∈ basis) (h : List ℕ → ℝ) :
    ∑ a, h basis[a] * prodVec basis K r qc qb a = ∑ i ∈ Finset.range K, ∑ j, r i * qc j * h (i :: qb j) := by
  simp only [prodVec, Finset.mul_sum]
  rw [Finset.sum_comm]
  refine Finset.sum_congr rfl fun i hi => ?_
  rw [Finset.sum_comm]
  refine Finset.sum_congr rfl fun j _ => ?_
  obtain ⟨a, ha, hab⟩ := List.mem_iff_getElem.1 (hmem i (Finset.mem_range.1 hi) j)
  rw [Finset.sum_eq_single (⟨a, ha⟩ : Fin basis.length)]
  · simp only [Fin.getElem_fin, hab, if_true]
    ring
  · intro b _ hb
    rw [if_neg, mul_zero]
    intro hc
    apply hb
    ext
    exact (hnd.getElem_inj_iff (hi := b.2) (hj := ha)).1 (hc.trans hab.symm)
  · simp

theorem prodVec_lead {K : ℕ} {r : ℕ → ℝ} {qc : ι → ℝ} {qb : ι → List ℕ} {a : Fin basis.length} {i0 : ℕ} {j0 : ι} (hi : i0 < K) (ha : basis[a] = i0 :: qb j0)
    (hj : ∀ j, j ≠ j0 → qb j ≠ qb j0) : prodVec basis K r qc qb a = r i0 * qc j0 := by
  classical
  rw [prodVec, Finset.sum_eq_single i0, Finset.sum_eq_single j0, if_pos ha]
  · intro j _ h
    rw [if_neg]
    rw [ha]
    intro hc
    exact hj j h (List.cons.inj hc).2.symm
  · simp
  · intro i _ h
    refine Finset.sum_eq_zero fun j _ => if_neg ?_
    rw [ha]
    intro hc
    exact h (List.cons.inj hc).1.symm
  · intro h
    exact absurd (Finset.mem_range.2 hi) h

theorem prodVec_off {K : ℕ} {r : ℕ → ℝ} {qc : ι → ℝ} {qb : ι → List ℕ} {a : Fin basis.length} {i0 : ℕ} {b : List ℕ} (ha : basis[a] = i0 :: b)
    (hj : ∀ j, qb j ≠ b) : prodVec basis K r qc qb a = 0 := by
  refine Finset.sum_eq_zero fun i _ => Finset.sum_eq_zero fun j _ => if_neg ?_
  rw [ha]
  intro hc
  exact hj j (List.cons.inj hc).2.symm

end Vec

/-- exponents of total degree below `D`. -/
def lowIdx (e D : ℕ) : List (List ℕ) := (table e D 0).filter fun b => b.sum < D

theorem mem_lowIdx {D : ℕ} {b : List ℕ} : b ∈ lowIdx e D ↔ b.length = e ∧ b.sum < D := by
  rw [lowIdx, List.mem_filter, mem_table, IsMultiIndex]
  simp only [decide_eq_true_eq]
  constructor
  · rintro ⟨⟨h1, _, _⟩, h2⟩; exact ⟨h1, h2⟩
  · rintro ⟨h1, h2⟩; exact ⟨⟨h1, Nat.zero_le _, h2.le⟩, h2⟩

theorem nodup_lowIdx (D : ℕ) : (lowIdx e D).Nodup := (nodup_table e D 0).filter _

/-- exponents of the orthogonal polynomial with leading term `E`. -/
def orthIdx (e D : ℕ) (E : List ℕ) : Option (Fin (lowIdx e D).length) → List ℕ
  | none => E
  | some i => (lowIdx e D)[i]

/-- there is a polynomial in the other variables with leading term `E` of degree `D` that is orthogonal to all polynomials of lower degree. -/
theorem exists_orth (T : Tables N (e + 1) basis full mats) {f : ℕ → ℝ} {ν : List ℕ → ℝ} (hpd : (gramOn basis (indepMoment f ν)).PosDef) {D : ℕ} (hD : D ≤ N - 1)
    (E : List ℕ) : ∃ q : Option (Fin (lowIdx e D).length) → ℝ, q none = 1 ∧ ∀ b : List ℕ, b.length = e → b.sum < D →
      ∑ j, q j * ν (List.zipWith (· + ·) b (orthIdx e D E j)) = 0 := by
  have hidx : ∀ i : Fin (lowIdx e D).length, ∃ a : Fin basis.length, basis[a] = 0 :: (lowIdx e D)[i] := by
    intro i
    have h1 := mem_lowIdx.1 (List.getElem_mem (l := lowIdx e D) i.2)
    have h2 : (0 :: (lowIdx e D)[i]) ∈ basis := T.mem_basis.2 ⟨by simpa using h1.1, by simp, by have := h1.2; simp only [List.sum_cons, zero_add]; simp only [Fin.getElem_fin]; omega⟩
    obtain ⟨a, ha, hab⟩ := List.mem_iff_getElem.1 h2
    exact ⟨⟨a, ha⟩, hab⟩
  choose φ hφ using hidx
  have hinj : Function.Injective φ := by
    intro i j hij
    have h1 := hφ i
    rw [hij, hφ j] at h1
    have h2 := (List.cons.inj h1).2
    ext
    exact ((nodup_lowIdx D).getElem_inj_iff (hi := j.2) (hj := i.2)).1 h2 |>.symm
  have hsub := hpd.submatrix hinj
  have hM : (gramOn basis (indepMoment f ν)).submatrix φ φ = f 0 • Matrix.of fun i j : Fin (lowIdx e D).length => ν (List.zipWith (· + ·) (lowIdx e D)[i] (lowIdx e D)[j]) := by
    ext i j
    simp only [Matrix.submatrix_apply, gramOn, Matrix.of_apply, hφ, Matrix.smul_apply, smul_eq_mul, indepMoment, List.zipWith_cons_cons, List.headD_cons, List.tail_cons, add_zero]
  set M : Matrix (Fin (lowIdx e D).length) (Fin (lowIdx e D).length) ℝ := Matrix.of fun i j => ν (List.zipWith (· + ·) (lowIdx e D)[i] (lowIdx e D)[j]) with hMdef
  have hu : IsUnit M.det := by
    rw [hM] at hsub
    have h1 := hsub.det_pos.ne'
    rw [Matrix.det_smul] at h1
    exact isUnit_iff_ne_zero.2 (right_ne_zero_of_mul h1)
  refine ⟨fun j => match j with
    | none => 1
    | some i => (M⁻¹ *ᵥ fun i => -ν (List.zipWith (· + ·) (lowIdx e D)[i] E)) i, rfl, fun b hb hs => ?_⟩
  obtain ⟨k, hk, hkb⟩ := List.mem_iff_getElem.1 (mem_lowIdx.2 ⟨hb, hs⟩)
  rw [Fintype.sum_option]
  have h1 : M *ᵥ (M⁻¹ *ᵥ fun i => -ν (List.zipWith (· + ·) (lowIdx e D)[i] E)) = fun i => -ν (List.zipWith (· + ·) (lowIdx e D)[i] E) := by
    rw [Matrix.mulVec_mulVec, Matrix.mul_nonsing_inv _ hu, Matrix.one_mulVec]
  generalize (M⁻¹ *ᵥ fun i => -ν (List.zipWith (· + ·) (lowIdx e D)[i] E)) = c at h1 ⊢
  have h2 := congrFun h1 ⟨k, hk⟩
  rw [Matrix.mulVec, dotProduct] at h2
  simp only [hMdef, Matrix.of_apply, Fin.getElem_fin, hkb] at h2
  simp only [orthIdx, one_mul, Fin.getElem_fin]
  rw [Finset.sum_congr rfl fun i _ => mul_comm (c i) _, h2]
  ring

/-- the product of a polynomial `r` in the first variable and an orthogonal polynomial of the others is an eigenvector of multiplication by the first variable. -/
theorem prodVec_kernel (T : Tables N (e + 1) basis full mats) {f : ℕ → ℝ} {ν : List ℕ → ℝ} {c : ℝ} {H : Matrix (Fin basis.length) (Fin basis.length) ℝ}
    (hH : ∀ a b, H a b = indepMoment f ν (List.ofFn ((fun i : Fin (e + 1) => (basis[a]).getD i 0) + (fun i : Fin (e + 1) => (basis[b]).getD i 0) + Pi.single 0 1)))
    {D k : ℕ} (hDk : D + k = N - 1) {E : List ℕ} (hE : E.length = e) (hES : E.sum = D) {q : Option (Fin (lowIdx e D).length) → ℝ}
    (hq : ∀ b : List ℕ, b.length = e → b.sum < D → ∑ j, q j * ν (List.zipWith (· + ·) b (orthIdx e D E j)) = 0) {r : ℕ → ℝ}
    (hr : ∀ a ≤ k, ∑ i ∈ Finset.range (k + 1), r i * (f (a + i + 1) - c * f (a + i)) = 0) :
    (H - c • gramOn basis (indepMoment f ν)) *ᵥ prodVec basis (k + 1) r q (orthIdx e D E) = 0 := by
  have hnd : basis.Nodup := by
    obtain ⟨t, ht, hn, _⟩ := C01_generate_complete (e + 1) (N - 1) 0 T.hd (by omega)
    rw [T.basis_eq] at ht; cases ht; exact hn
  have hlen : ∀ j, (orthIdx e D E j).length = e ∧ (orthIdx e D E j).sum ≤ D := by
    intro j
    cases j with
    | none => exact ⟨hE, hES.le⟩
    | some i =>
      have := mem_lowIdx.1 (List.getElem_mem (l := lowIdx e D) i.2)
      exact ⟨this.1, this.2.le⟩
  have hmem : ∀ i < k + 1, ∀ j, i :: orthIdx e D E j ∈ basis := fun i hi j =>
    T.mem_basis.2 ⟨by simp [(hlen j).1], Nat.zero_le _, by have := (hlen j).2; simp only [List.sum_cons]; omega⟩
  ext a
  have hβ := T.mem_basis.1 (List.getElem_mem (l := basis) a.2)
  obtain ⟨β0, β', hβe⟩ : ∃ β0 β', basis[(a : ℕ)] = β0 :: β' := by
    cases h : basis[(a : ℕ)] with
    | nil => rw [h] at hβ; simp [IsMultiIndex] at hβ
    | cons x y => exact ⟨x, y, rfl⟩
  rw [hβe] at hβ
  have hβl : β'.length = e := by simpa using hβ.1
  have hβs : β0 + β'.sum ≤ N - 1 := by simpa using hβ.2.2
  have hof : ∀ x : List ℕ, x.length = e + 1 → List.ofFn ((fun i : Fin (e + 1) => (β0 :: β').getD i 0) + (fun i : Fin (e + 1) => x.getD i 0) + Pi.single 0 1)
      = (β0 + x.headD 0 + 1) :: List.zipWith (· + ·) β' x.tail := by
    intro x hx
    obtain ⟨x0, x', rfl⟩ : ∃ x0 x', x = x0 :: x' := by
      cases x with
      | nil => simp at hx
      | cons a b => exact ⟨a, b, rfl⟩
    have hx' : x'.length = e := by simpa using hx
    rw [List.ofFn_succ]
    congr 1
    apply List.ext_getElem
    · simp [hβl, hx']
    · intro n h1 h2
      have hn : n < e := by simpa using h1
      simp [hβl, hx', Fin.ext_iff]
  set h : List ℕ → ℝ := fun x => (f (β0 + x.headD 0 + 1) - c * f (β0 + x.headD 0)) * ν (List.zipWith (· + ·) β' x.tail) with hh
  have hrow : ∀ b : Fin basis.length, (H - c • gramOn basis (indepMoment f ν)) a b = h basis[b] := by
    intro b
    have hb := (T.mem_basis.1 (List.getElem_mem (l := basis) b.2)).1
    obtain ⟨x0, x', hx⟩ : ∃ x0 x', basis[(b : ℕ)] = x0 :: x' := by
      cases h : basis[(b : ℕ)] with
      | nil => rw [h] at hb; simp at hb
      | cons x y => exact ⟨x, y, rfl⟩
    rw [Matrix.sub_apply, Matrix.smul_apply, hH, gramOn, Matrix.of_apply]
    simp only [Fin.getElem_fin, hβe]
    rw [hof _ hb]
    simp only [hx, indepMoment, hh, List.headD_cons, List.tail_cons, List.zipWith_cons_cons, smul_eq_mul]
    ring
  rw [Matrix.mulVec, dotProduct, Finset.sum_congr rfl fun b _ => by rw [hrow b], prodVec_sum hnd _ _ _ _ hmem]
  have hfac : ∑ i ∈ Finset.range (k + 1), ∑ j, r i * q j * h (i :: orthIdx e D E j)
      = (∑ i ∈ Finset.range (k + 1), r i * (f (β0 + i + 1) - c * f (β0 + i))) * ∑ j, q j * ν (List.zipWith (· + ·) β' (orthIdx e D E j)) := by
    rw [Finset.sum_mul_sum]
    refine Finset.sum_congr rfl fun i _ => Finset.sum_congr rfl fun j _ => ?_
    simp only [hh, List.headD_cons, List.tail_cons]
    ring
  rw [hfac, Pi.zero_apply]
  by_cases hs : β'.sum < D
  · rw [hq β' hβl hs, mul_zero]
  · rw [hr β0 (by omega), zero_mul]

theorem low_ne_lead {D : ℕ} {E : List ℕ} (hE : D ≤ E.sum) (i : Fin (lowIdx e D).length) : (lowIdx e D)[i] ≠ E := by
  intro h
  have := (mem_lowIdx.1 (List.getElem_mem (l := lowIdx e D) i.2)).2
  simp only [Fin.getElem_fin] at h
  rw [h] at this
  omega

theorem lead_index (T : Tables N (e + 1) basis full mats) {α : List ℕ} (hl : α.length = e + 1) (hs : α.sum ≤ N - 1) : ∃ a : Fin basis.length, basis[a] = α := by
  obtain ⟨a, ha, hab⟩ := List.mem_iff_getElem.1 (T.mem_basis.2 ⟨hl, Nat.zero_le _, hs⟩)
  exact ⟨⟨a, ha⟩, hab⟩

/-- **C173 refuted, three or more dimensions.** Whenever the first coordinate is independent of the others, forward mode through the rule gives no
finite tangents, for every order `N ≥ 2`, every law of the coordinates, every direction: the mean of the first coordinate is an eigenvalue of
its multiplication matrix at least `d - 1 ≥ 2` times. -/
theorem C173_nd_jvp_refuted_three (hB : B.Valid) (he : 2 ≤ e) (T : Tables N (e + 1) basis full mats) (sort : Bool) (f : ℕ → ℝ) (ν : List ℕ → ℝ)
    (hpd : (gramOn basis (indepMoment f ν)).PosDef) (dms : List ℝ) (mean dmean scale dscale : Option (List ℝ)) :
    momentQuadratureNDJvp B (full.map (indepMoment f ν)) dms mats mean dmean scale dscale sort = none := by
  classical
  rw [ndJvp_eq T, if_neg]
  intro hinj
  have hN := T.hN
  obtain ⟨R, hR, hEig, hH⟩ := edN_data T hB sort _ hpd 0
  obtain ⟨a0, ha0⟩ := lead_index T (α := List.replicate (e + 1) 0) (by simp) (by simp)
  have hf0 : f 0 ≠ 0 := by
    have h := hpd.diag_pos (i := a0)
    intro h0
    rw [gramOn, Matrix.of_apply, ha0, List.replicate_succ] at h
    simp [indepMoment, h0] at h
  obtain ⟨g, rfl⟩ : ∃ g, e = g + 2 := ⟨e - 2, by omega⟩
  set E1 : List ℕ := (N - 1) :: 0 :: List.replicate g 0 with hE1
  set E2 : List ℕ := 0 :: (N - 1) :: List.replicate g 0 with hE2
  have hne : E1 ≠ E2 := by
    intro h
    have := (List.cons.inj h).1
    omega
  have hs1 : E1.sum = N - 1 := by simp [hE1]
  have hs2 : E2.sum = N - 1 := by simp [hE2]
  obtain ⟨q1, hq1, ho1⟩ := exists_orth T hpd (D := N - 1) le_rfl E1
  obtain ⟨q2, hq2, ho2⟩ := exists_orth T hpd (D := N - 1) le_rfl E2
  have hr : ∀ a ≤ 0, ∑ i ∈ Finset.range (0 + 1), (fun _ : ℕ => (1 : ℝ)) i * (f (a + i + 1) - f 1 / f 0 * f (a + i)) = 0 := by
    intro a ha
    obtain rfl : a = 0 := by omega
    simp [hf0]
  have k1 := prodVec_kernel T hH (D := N - 1) (k := 0) rfl (E := E1) (by simp [hE1]) hs1 ho1 hr
  have k2 := prodVec_kernel T hH (D := N - 1) (k := 0) rfl (E := E2) (by simp [hE2]) hs2 ho2 hr
  obtain ⟨a, ha⟩ := lead_index T (α := 0 :: E1) (by simp [hE1]) (by simp [hs1])
  obtain ⟨b, hb⟩ := lead_index T (α := 0 :: E2) (by simp [hE2]) (by simp [hs2])
  have h := pencil_parallel hR hEig (hinj 0) k1 k2 a b
  rw [prodVec_lead (i0 := 0) (j0 := none) (by norm_num) ha, prodVec_lead (i0 := 0) (j0 := none) (by norm_num) hb, prodVec_off (a := a) (b := E1) ha, hq1, hq2] at h
  · norm_num at h
  · intro j
    cases j with
    | none => exact hne.symm
    | some i => exact low_ne_lead hs1.ge i
  · intro j hj
    cases j with
    | none => exact absurd rfl hj
    | some i => exact low_ne_lead hs2.ge i
  · intro j hj
    cases j with
    | none => exact absurd rfl hj
    | some i => exact low_ne_lead hs1.ge i

/-- **C173 refuted, two or more dimensions.** Whenever the first coordinate is independent of the others and its odd moments up to the fifth vanish,
forward mode through the rule gives no finite tangents, for every order `N ≥ 3` and every law of the other coordinates. -/
theorem C173_nd_jvp_refuted_two (hB : B.Valid) (he : 1 ≤ e) (hN : 3 ≤ N) (T : Tables N (e + 1) basis full mats) (sort : Bool) (f : ℕ → ℝ) (ν : List ℕ → ℝ)
    (h1 : f 1 = 0) (h3 : f 3 = 0) (h5 : f 5 = 0) (hpd : (gramOn basis (indepMoment f ν)).PosDef) (dms : List ℝ) (mean dmean scale dscale : Option (List ℝ)) :
    momentQuadratureNDJvp B (full.map (indepMoment f ν)) dms mats mean dmean scale dscale sort = none := by
  classical
  rw [ndJvp_eq T, if_neg]
  intro hinj
  obtain ⟨R, hR, hEig, hH⟩ := edN_data T hB sort _ hpd 0
  obtain ⟨a0, ha0⟩ := lead_index T (α := 1 :: List.replicate e 0) (by simp) (by simp; omega)
  have hf2 : f 2 ≠ 0 := by
    have h := hpd.diag_pos (i := a0)
    intro h0
    rw [gramOn, Matrix.of_apply, ha0] at h
    simp [indepMoment, h0] at h
  obtain ⟨g, rfl⟩ : ∃ g, e = g + 1 := ⟨e - 1, by omega⟩
  set E1 : List ℕ := (N - 1) :: List.replicate g 0 with hE1
  set E2 : List ℕ := (N - 3) :: List.replicate g 0 with hE2
  have hs1 : E1.sum = N - 1 := by simp [hE1]
  have hs2 : E2.sum = N - 3 := by simp [hE2]
  obtain ⟨q1, hq1, ho1⟩ := exists_orth T hpd (D := N - 1) le_rfl E1
  obtain ⟨q2, hq2, ho2⟩ := exists_orth T hpd (D := N - 3) (by omega) E2
  have hr1 : ∀ a ≤ 0, ∑ i ∈ Finset.range (0 + 1), (fun _ : ℕ => (1 : ℝ)) i * (f (a + i + 1) - 0 * f (a + i)) = 0 := by
    intro a ha
    obtain rfl : a = 0 := by omega
    simp [h1]
  have hr2 : ∀ a ≤ 2, ∑ i ∈ Finset.range (2 + 1), (fun i : ℕ => if i = 0 then -(f 4 / f 2) else if i = 2 then (1 : ℝ) else 0) i * (f (a + i + 1) - 0 * f (a + i)) = 0 := by
    intro a ha
    interval_cases a
    · simp [Finset.sum_range_succ, h1, h3]
    · simp [Finset.sum_range_succ, hf2]
    · simp [Finset.sum_range_succ, h3, h5]
  have k1 := prodVec_kernel T hH (D := N - 1) (k := 0) rfl (E := E1) (by simp [hE1]) hs1 ho1 hr1
  have k2 := prodVec_kernel T hH (D := N - 3) (k := 2) (by omega) (E := E2) (by simp [hE2]) hs2 ho2 hr2
  obtain ⟨a, ha⟩ := lead_index T (α := 0 :: E1) (by simp [hE1]) (by simp [hs1])
  obtain ⟨b, hb⟩ := lead_index T (α := 2 :: E2) (by simp [hE2]) (by simp [hs2]; omega)
  have h := pencil_parallel hR hEig (hinj 0) k1 k2 a b
  rw [prodVec_lead (i0 := 0) (j0 := none) (by norm_num) ha, prodVec_lead (i0 := 2) (j0 := none) (by norm_num) hb, prodVec_off (a := a) (b := E1) ha, hq1, hq2] at h
  · norm_num at h
  · intro j hj
    have : (orthIdx (g + 1) (N - 3) E2 j).sum ≤ N - 3 := by
      cases j with
      | none => exact hs2.le
      | some i => exact (mem_lowIdx.1 (List.getElem_mem (l := lowIdx (g + 1) (N - 3)) i.2)).2.le
    rw [hj, hs1] at this
    omega
  · intro j hj
    cases j with
    | none => exact absurd rfl hj
    | some i => exact low_ne_lead hs2.ge i
  · intro j hj
    cases j with
    | none => exact absurd rfl hj
    | some i => exact low_ne_lead hs1.ge i

/-- three independent standard normal variables and `N = 2`. -/
example (hB : B.Valid) : ∃ full mats, Tables 2 3 [[0, 0, 0], [0, 0, 1], [0, 1, 0], [1, 0, 0]] full mats ∧ ∀ dms mean dmean scale dscale sort,
    momentQuadratureNDJvp B (full.map (indepMoment gaussMoment (prodMoment gaussMoment gaussMoment))) dms mats mean dmean scale dscale sort = none := by
  obtain ⟨bs, f, m, h1, h2, h3, _⟩ := C05_gram_hankel_indices 2 3 (by norm_num) (by norm_num)
  have hb : bs = [[0, 0, 0], [0, 0, 1], [0, 1, 0], [1, 0, 0]] := by
    have : generateMultiIndices 3 (2 - 1) 0 = .ok [[0, 0, 0], [0, 0, 1], [0, 1, 0], [1, 0, 0]] := by rfl
    rw [this] at h1; cases h1; rfl
  subst hb
  refine ⟨f, m, ⟨by norm_num, by norm_num, h1, h2, h3⟩, fun dms mean dmean scale dscale sort =>
    C173_nd_jvp_refuted_three (e := 2) hB le_rfl ⟨by norm_num, by norm_num, h1, h2, h3⟩ sort _ _ ?_ dms mean dmean scale dscale⟩
  have hG : gramOn [[0, 0, 0], [0, 0, 1], [0, 1, 0], [1, 0, 0]] (indepMoment gaussMoment (prodMoment gaussMoment gaussMoment)) = (1 : Matrix (Fin 4) (Fin 4) ℝ) := by
    ext a b
    simp only [gramOn, Matrix.of_apply, Matrix.one_apply]
    fin_cases a <;> fin_cases b <;> simp [indepMoment, prodMoment, gaussMoment]
  rw [hG]
  exact Matrix.PosDef.one

/-- two independent standard normal variables and `N = 3`: the hypotheses of the second refutation hold. -/
example : (gramOn [[0, 0], [0, 1], [1, 0], [0, 2], [1, 1], [2, 0]] (indepMoment gaussMoment fun b => gaussMoment (b.headD 0))).PosDef ∧
    gaussMoment 1 = 0 ∧ gaussMoment 3 = 0 ∧ gaussMoment 5 = 0 := by
  refine ⟨?_, by simp [gaussMoment], by simp [gaussMoment], by simp [gaussMoment]⟩
  have h : gramOn [[0, 0], [0, 1], [1, 0], [0, 2], [1, 1], [2, 0]] (indepMoment gaussMoment fun b => gaussMoment (b.headD 0))
      = gramOn [[0, 0], [0, 1], [1, 0], [0, 2], [1, 1], [2, 0]] (prodMoment gaussMoment gaussMoment) := by
    ext a b
    simp only [gramOn, Matrix.of_apply]
    fin_cases a <;> fin_cases b <;> simp [indepMoment, prodMoment, gaussMoment]
  rw [h]
  exact gauss_gram

end Mfs.Props

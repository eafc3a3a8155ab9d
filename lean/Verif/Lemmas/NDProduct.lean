import Verif.Lemmas.Words
import Verif.Lemmas.Quad1
import Mathlib.LinearAlgebra.Matrix.PosDef
import Mathlib.LinearAlgebra.Span.Basic

/-!
# Multiplication matrices of a law with independent coordinates
-/

namespace Mfs.Spec

open Matrix Polynomial

variable {z d N : ℕ} {ν : Fin d → ℕ → ℝ} {basis : Fin z → (Fin d → ℕ)} {z0 : Fin z}
  {G R : Matrix (Fin z) (Fin z) ℝ} {H : Fin d → Matrix (Fin z) (Fin z) ℝ}

/-- moments of independent coordinates. -/
def prodMom (ν : Fin d → ℕ → ℝ) (α : Fin d → ℕ) : ℝ := ∏ j, ν j (α j)

/-- the multi-index involves only coordinates in `J`. -/
def SuppIn (J : Set (Fin d)) (α : Fin d → ℕ) : Prop := ∀ j, j ∉ J → α j = 0

/-- vectors of the polynomials in the coordinates `J` only. -/
def coordSpan (R : Matrix (Fin z) (Fin z) ℝ) (basis : Fin z → (Fin d → ℕ)) (J : Set (Fin d)) : Submodule ℝ (Fin z → ℝ) :=
  Submodule.span ℝ {v | ∃ a, SuppIn J (basis a) ∧ v = rowVec R a}

theorem prodMom_split (hν : ∀ j, ν j 0 = 1) (J : Set (Fin d)) [DecidablePred (· ∈ J)] (α β : Fin d → ℕ) (hβ : SuppIn J β) :
    prodMom ν (α + β) = (∏ j, if j ∈ J then 1 else ν j (α j)) * prodMom ν ((fun j => if j ∈ J then α j else 0) + β) := by
  rw [prodMom, prodMom, ← Finset.prod_mul_distrib]
  refine Finset.prod_congr rfl fun j _ => ?_
  by_cases h : j ∈ J
  · simp [h]
  · simp [h, hβ j h, hν]

theorem prodMom_zero (hν : ∀ j, ν j 0 = 1) : prodMom ν 0 = 1 := by simp [prodMom, hν]

theorem rowVec_mulVec (a : Fin z) (v : Fin z → ℝ) : (R *ᵥ v) a = rowVec R a ⬝ᵥ v := rfl

theorem row_zero' {n : ℕ} {i0 : Fin n} {G R : Matrix (Fin n) (Fin n) ℝ} (h : IsChol G R) (hi : (i0 : ℕ) = 0)
    (hG : G i0 i0 = 1) : rowVec R i0 = Pi.single i0 1 := by
  have hlow : ∀ b, b ≠ i0 → R i0 b = 0 := fun b hb => h.lower i0 b (by
    rw [Fin.lt_def]
    have : (b : ℕ) ≠ i0 := fun h => hb (Fin.ext h)
    omega)
  have h00 : R i0 i0 = 1 := by
    have h1 := h.rowVec_dot i0 i0
    have h2 : rowVec R i0 ⬝ᵥ rowVec R i0 = R i0 i0 * R i0 i0 := by
      rw [dotProduct, Finset.sum_eq_single i0]
      · rfl
      · intro b _ hb
        simp [rowVec, hlow b hb]
      · simp
    rw [h2, hG] at h1
    have := h.diag_pos i0
    nlinarith
  ext b
  by_cases hb : b = i0
  · subst hb; simp [rowVec, h00]
  · rw [Pi.single_eq_of_ne hb]
    exact hlow b hb

section

variable (D : MomentData N (prodMom ν) basis z0 G R H) (hν : ∀ j, ν j 0 = 1) (hlt : ∀ a, ∑ j, basis a j < N)
include D hν

theorem row_zero : rowVec R z0 = Pi.single z0 1 :=
  row_zero' D.chol D.hz0 (by rw [D.G_eq, D.basis0, add_zero, prodMom_zero hν])

theorem single_mem (J : Set (Fin d)) : (Pi.single z0 1 : Fin z → ℝ) ∈ coordSpan R basis J := by
  rw [← row_zero D hν]
  exact Submodule.subset_span ⟨z0, by rw [D.basis0]; intro j _; rfl, rfl⟩

include hlt in
theorem coordSpan_inv (J : Set (Fin d)) {j : Fin d} (hj : j ∈ J) {v : Fin z → ℝ} (hv : v ∈ coordSpan R basis J)
    (hG : G.PosDef) : multMat R (H j) *ᵥ v ∈ coordSpan R basis J := by
  classical
  induction hv using Submodule.span_induction with
  | mem x hx =>
    obtain ⟨a, ha, rfl⟩ := hx
    let ι := {b : Fin z // SuppIn J (basis b)}
    let GJ : Matrix ι ι ℝ := G.submatrix (fun b => b.1) (fun b => b.1)
    have hGJ : GJ.PosDef := hG.submatrix Subtype.val_injective
    let c : ι → ℝ := GJ⁻¹ *ᵥ fun b => H j b.1 a
    have hc : GJ *ᵥ c = fun b => H j b.1 a := by
      rw [Matrix.mulVec_mulVec, Matrix.mul_nonsing_inv _ ((Matrix.isUnit_iff_isUnit_det _).1 hGJ.isUnit), Matrix.one_mulVec]
    have hw : multMat R (H j) *ᵥ rowVec R a = ∑ b, c b • rowVec R b.1 := by
      have hinj : Function.Injective (R.mulVec) := Matrix.mulVec_injective_iff_isUnit.2
        ((Matrix.isUnit_iff_isUnit_det R).2 D.chol.isUnit_det)
      apply hinj
      ext c'
      rw [rowVec_mulVec, D.chol.rowVec_dot_multMat, rowVec_mulVec, dotProduct_sum]
      simp only [dotProduct_smul, D.chol.rowVec_dot, smul_eq_mul]
      set β : Fin d → ℕ := fun i => if i ∈ J then basis c' i else 0 with hβ
      obtain ⟨c0, hc0⟩ := D.surj β (lt_of_le_of_lt (Finset.sum_le_sum fun i _ => by
        by_cases h : i ∈ J <;> simp [hβ, h]) (hlt c'))
      have hc0J : SuppIn J (basis c0) := by
        intro i hi
        rw [hc0]
        simp [hβ, hi]
      have hHs : H j c' a = (∏ i, if i ∈ J then 1 else ν i (basis c' i)) * H j c0 a := by
        have hs : SuppIn J (basis a + Pi.single j 1) := by
          intro i hi
          have : i ≠ j := by rintro rfl; exact hi hj
          simp [ha i hi, this]
        rw [D.H_eq, D.H_eq, add_assoc, prodMom_split hν J _ _ hs, add_assoc, hc0]
      have hGs : ∀ b : ι, G c' b.1 = (∏ i, if i ∈ J then 1 else ν i (basis c' i)) * G c0 b.1 := by
        intro b
        rw [D.G_eq, D.G_eq, prodMom_split hν J _ _ b.2, hc0]
      simp only [hHs, hGs]
      have := congrFun hc ⟨c0, hc0J⟩
      simp only [Matrix.mulVec, dotProduct] at this
      rw [← this, Finset.mul_sum]
      refine Finset.sum_congr rfl fun b _ => ?_
      have : GJ ⟨c0, hc0J⟩ b = G c0 b.1 := rfl
      rw [this]; ring
    rw [hw]
    exact Submodule.sum_mem _ fun b _ => Submodule.smul_mem _ _ (Submodule.subset_span ⟨b.1, b.2, rfl⟩)
  | zero => rw [Matrix.mulVec_zero]; exact Submodule.zero_mem _
  | add x y _ _ hx hy => rw [Matrix.mulVec_add]; exact Submodule.add_mem _ hx hy
  | smul t x _ hx => rw [Matrix.mulVec_smul]; exact Submodule.smul_mem _ _ hx

include hlt in
theorem coordSpan_aeval (J : Set (Fin d)) {j : Fin d} (hj : j ∈ J) {v : Fin z → ℝ} (hv : v ∈ coordSpan R basis J)
    (hG : G.PosDef) (p : ℝ[X]) : aeval (multMat R (H j)) p *ᵥ v ∈ coordSpan R basis J := by
  induction p using Polynomial.induction_on' with
  | add p q hp hq => rw [map_add, Matrix.add_mulVec]; exact Submodule.add_mem _ hp hq
  | monomial n c =>
    rw [aeval_monomial, Algebra.algebraMap_eq_smul_one, Matrix.smul_mul, Matrix.one_mul, Matrix.smul_mulVec]
    refine Submodule.smul_mem _ _ ?_
    clear c
    induction n with
    | zero => simpa using hv
    | succ n ih => rw [pow_succ', ← Matrix.mulVec_mulVec]; exact coordSpan_inv D hν hlt J hj ih hG

theorem coordSpan_indep {J J' : Set (Fin d)} (hJ : ∀ j ∈ J, j ∉ J') {u v : Fin z → ℝ} (hu : u ∈ coordSpan R basis J)
    (hv : v ∈ coordSpan R basis J') : u ⬝ᵥ v = u z0 * v z0 := by
  have hz : ∀ w : Fin z → ℝ, w z0 = rowVec R z0 ⬝ᵥ w := fun w => by rw [row_zero D hν]; simp
  induction hu using Submodule.span_induction with
  | mem x hx =>
    obtain ⟨a, ha, rfl⟩ := hx
    induction hv using Submodule.span_induction with
    | mem y hy =>
      obtain ⟨b, hb, rfl⟩ := hy
      rw [hz (rowVec R a), hz (rowVec R b), D.chol.rowVec_dot, D.chol.rowVec_dot, D.chol.rowVec_dot, D.G_eq, D.G_eq, D.G_eq, D.basis0, zero_add,
        zero_add, prodMom, prodMom, prodMom, ← Finset.prod_mul_distrib]
      refine Finset.prod_congr rfl fun j _ => ?_
      by_cases h : j ∈ J
      · simp [hb j (hJ j h), hν]
      · simp [ha j h, hν]
    | zero => simp
    | add x y _ _ hx hy => rw [dotProduct_add, hx, hy, Pi.add_apply]; ring
    | smul t x _ hx => rw [dotProduct_smul, hx, Pi.smul_apply, smul_eq_mul, smul_eq_mul]; ring
  | zero => simp
  | add x y _ _ hx hy => rw [add_dotProduct, hx, hy, Pi.add_apply]; ring
  | smul t x _ hx => rw [smul_dotProduct, hx, Pi.smul_apply, smul_eq_mul, smul_eq_mul]; ring

include hlt in
/-- products of polynomials in different multiplication matrices. -/
theorem prod_aeval (hG : G.PosDef) (p : Fin d → ℝ[X]) (l : List (Fin d)) (hl : l.Nodup) :
    (l.map fun j => aeval (multMat R (H j)) (p j)).prod *ᵥ Pi.single z0 1 ∈ coordSpan R basis {j | j ∈ l} ∧
    (l.map fun j => aeval (multMat R (H j)) (p j)).prod z0 z0 = (l.map fun j => aeval (multMat R (H j)) (p j) z0 z0).prod := by
  have hsym : ∀ j, (aeval (multMat R (H j)) (p j))ᵀ = aeval (multMat R (H j)) (p j) := by
    intro j
    have h1 := D.symm j
    rw [aeval_eq_sum_range, Matrix.transpose_sum]
    refine Finset.sum_congr rfl fun i _ => ?_
    rw [Matrix.transpose_smul, Matrix.transpose_pow, h1]
  induction l with
  | nil =>
    refine ⟨?_, by simp⟩
    rw [List.map_nil, List.prod_nil, Matrix.one_mulVec]
    exact single_mem D hν _
  | cons j l ih =>
    obtain ⟨hjl, hl⟩ := List.nodup_cons.1 hl
    obtain ⟨h1, h2⟩ := ih hl
    constructor
    · rw [List.map_cons, List.prod_cons, ← Matrix.mulVec_mulVec]
      refine coordSpan_aeval D hν hlt _ (by simp) ?_ hG _
      refine Submodule.span_mono ?_ h1
      rintro v ⟨a, ha, rfl⟩
      exact ⟨a, fun i hi => ha i fun h => hi (by simp_all), rfl⟩
    · rw [List.map_cons, List.prod_cons, List.map_cons, List.prod_cons, ← h2]
      set A := aeval (multMat R (H j)) (p j) with hA
      set M := (l.map fun j => aeval (multMat R (H j)) (p j)).prod with hM
      have e1 : (A * M) z0 z0 = (A *ᵥ Pi.single z0 1) ⬝ᵥ (M *ᵥ Pi.single z0 1) := by
        rw [Matrix.mulVec_single_one, Matrix.mulVec_single_one, Matrix.mul_apply]
        refine Finset.sum_congr rfl fun k _ => ?_
        have := congrFun (congrFun (hsym j) k) z0
        rw [Matrix.transpose_apply] at this
        exact congrArg (· * M k z0) this
      rw [e1, coordSpan_indep D hν (J := {j}) ?_ (coordSpan_aeval D hν hlt {j} rfl (single_mem D hν _) hG _) h1]
      · rw [Matrix.mulVec_single_one, Matrix.mulVec_single_one]; rfl
      · rintro i hi h
        simp only [Set.mem_singleton_iff] at hi
        subst hi
        exact hjl h

include hlt in
/-- one multiplication matrix acts on the constants as the one-dimensional one. -/
theorem aeval_marginal (hN : 0 < N) (j : Fin d) {R1 : Matrix (Fin N) (Fin N) ℝ}
    (h1 : IsChol (hankelMat N (ν j)) R1) (p : ℝ[X]) :
    aeval (multMat R (H j)) p z0 z0 = aeval (multMat R1 (hankelMat N fun k => ν j (k + 1))) p ⟨0, hN⟩ ⟨0, hN⟩ := by
  classical
  set K := multMat R (H j) with hK
  set H1 := hankelMat N fun k => ν j (k + 1) with hH1
  set K1 := multMat R1 H1 with hK1
  choose e he using fun i : Fin N => D.surj (Pi.single j (i : ℕ)) (by simp)
  have hRu : IsUnit R := (Matrix.isUnit_iff_isUnit_det R).2 D.chol.isUnit_det
  have hRinj : Function.Injective (R.mulVec) := Matrix.mulVec_injective_iff_isUnit.2 hRu
  have hR1d : IsUnit R1.det := h1.isUnit_det
  have hR1t : IsUnit R1ᵀ.det := by rwa [Matrix.det_transpose]
  let A : Matrix (Fin z) (Fin N) ℝ := Matrix.of fun k i => R (e i) k
  have hRA : ∀ c i, (R * A) c i = G c (e i) := by
    intro c i
    rw [← D.chol.rowVec_dot]; rfl
  -- the other coordinates factor out
  let m : Fin z → ℝ := fun c => ∏ i, if i ∈ ({j} : Set (Fin d)) then 1 else ν i (basis c i)
  have hcj : ∀ c, basis c j < N := fun c => lt_of_le_of_lt (Finset.single_le_sum (fun _ _ => Nat.zero_le _) (Finset.mem_univ j)) (hlt c)
  have hpt : ∀ c k, prodMom ν (basis c + Pi.single j k) = m c * ν j (basis c j + k) := by
    intro c k
    have hs : SuppIn {j} (Pi.single j k : Fin d → ℕ) := by
      intro i hi
      exact Pi.single_eq_of_ne hi _
    rw [prodMom_split hν {j} _ _ hs]
    congr 1
    rw [prodMom, Finset.prod_eq_single j]
    · simp
    · intro i _ hi
      simp [hi, hν]
    · simp
  have hG1 : ∀ c i, G c (e i) = m c * hankelMat N (ν j) ⟨basis c j, hcj c⟩ i := by
    intro c i
    rw [D.G_eq, he, hpt]
    simp [hankelMat]
  have hHe : ∀ c i, H j c (e i) = m c * H1 ⟨basis c j, hcj c⟩ i := by
    intro c i
    rw [D.H_eq, he, add_assoc, ← Pi.single_add, hpt]
    simp [hH1, hankelMat, add_assoc]
  set G1 := hankelMat N (ν j) with hG1d
  have hG1u : IsUnit G1.det := h1.isUnit_det_G
  have hKA : K * A = A * (G1⁻¹ * H1) := by
    suffices hRR : R * (K * A) = R * (A * (G1⁻¹ * H1)) by
      have := congrArg (fun M => R⁻¹ * M) hRR
      simpa only [← Matrix.mul_assoc, Matrix.nonsing_inv_mul _ D.chol.isUnit_det, Matrix.one_mul] using this
    ext c i
    rw [← Matrix.mul_assoc, ← Matrix.mul_assoc]
    have e1 : (R * (K * A)) c i = H j c (e i) := by
      rw [← D.chol.rowVec_dot_multMat (H := H j)]
      rfl
    rw [← Matrix.mul_assoc] at e1
    rw [e1, hHe]
    have e2 : ∀ X : Matrix (Fin N) (Fin N) ℝ, (R * A * X) c i = m c * (G1 * X) ⟨basis c j, hcj c⟩ i := by
      intro X
      rw [Matrix.mul_apply, Matrix.mul_apply, Finset.mul_sum]
      refine Finset.sum_congr rfl fun k _ => ?_
      rw [hRA, hG1]; ring
    rw [e2, ← Matrix.mul_assoc, Matrix.mul_nonsing_inv _ hG1u, Matrix.one_mul]
  let W : Matrix (Fin z) (Fin N) ℝ := A * R1ᵀ⁻¹
  have hKW : K * W = W * K1 := by
    have : G1⁻¹ = R1ᵀ⁻¹ * R1⁻¹ := by rw [← Matrix.mul_inv_rev, h1.mul_transpose]
    rw [← Matrix.mul_assoc, hKA, this, hK1, multMat]
    simp only [W, Matrix.mul_assoc]
  have hpW : ∀ p : ℝ[X], aeval K p * W = W * aeval K1 p := by
    intro p
    induction p using Polynomial.induction_on' with
    | add p q hp hq => rw [map_add, map_add, Matrix.add_mul, Matrix.mul_add, hp, hq]
    | monomial n c =>
      simp only [aeval_monomial, Algebra.algebraMap_eq_smul_one, Matrix.smul_mul, Matrix.one_mul, Matrix.mul_smul]
      congr 1
      clear c
      induction n with
      | zero => simp
      | succ n ih => rw [pow_succ, pow_succ, Matrix.mul_assoc, hKW, ← Matrix.mul_assoc, ih, Matrix.mul_assoc]
  have hWR : W * R1ᵀ = A := by rw [Matrix.mul_assoc, Matrix.nonsing_inv_mul _ hR1t, Matrix.mul_one]
  have hr1 : rowVec R1 ⟨0, hN⟩ = Pi.single ⟨0, hN⟩ 1 := row_zero' h1 rfl (by simp [hG1d, hankelMat, hν])
  have hWe : ∀ k, W k ⟨0, hN⟩ = (Pi.single z0 1 : Fin z → ℝ) k := by
    intro k
    have e1 : A k ⟨0, hN⟩ = W k ⟨0, hN⟩ := by
      rw [← hWR, Matrix.mul_apply, Finset.sum_eq_single ⟨0, hN⟩]
      · have := congrFun hr1 ⟨0, hN⟩
        simp only [rowVec, Pi.single_eq_same] at this
        rw [Matrix.transpose_apply, this, mul_one]
      · intro b _ hb
        have := congrFun hr1 b
        simp only [rowVec, Pi.single_eq_of_ne hb] at this
        rw [Matrix.transpose_apply, this, mul_zero]
      · simp
    rw [← e1]
    have e2 : rowVec R (e ⟨0, hN⟩) = rowVec R z0 := by
      apply hRinj
      ext c
      rw [rowVec_mulVec, rowVec_mulVec, D.chol.rowVec_dot, D.chol.rowVec_dot, D.G_eq, D.G_eq, he, D.basis0]
      simp
    rw [← row_zero D hν, ← e2]; rfl
  have heW : ∀ i, W z0 i = (Pi.single ⟨0, hN⟩ 1 : Fin N → ℝ) i := by
    have hA0 : ∀ i, A z0 i = R1 i ⟨0, hN⟩ := by
      intro i
      have e1 : A z0 i = rowVec R z0 ⬝ᵥ rowVec R (e i) := by rw [row_zero D hν]; simp [A, rowVec]
      have e2 : R1 i ⟨0, hN⟩ = rowVec R1 ⟨0, hN⟩ ⬝ᵥ rowVec R1 i := by rw [hr1]; simp [rowVec]
      rw [e1, e2, D.chol.rowVec_dot, h1.rowVec_dot, D.G_eq, D.basis0, he, zero_add, prodMom, Finset.prod_eq_single j]
      · simp [hG1d, hankelMat]
      · intro k _ hk
        simp [hk, hν]
      · simp
    have e3 : (fun i => W z0 i) ᵥ* R1ᵀ = (Pi.single ⟨0, hN⟩ 1) ᵥ* R1ᵀ := by
      ext i
      rw [Matrix.single_one_vecMul]
      have := congrFun (congrFun hWR z0) i
      rw [Matrix.mul_apply] at this
      simp only [Matrix.vecMul, dotProduct, Matrix.row_apply, Matrix.transpose_apply] at this ⊢
      rw [this, hA0]
    have hinj : Function.Injective (fun v => v ᵥ* R1ᵀ) :=
      Matrix.vecMul_injective_iff_isUnit.2 ((Matrix.isUnit_iff_isUnit_det _).2 hR1t)
    exact fun i => congrFun (hinj e3) i
  have l1 : (aeval K p * W) z0 ⟨0, hN⟩ = aeval K p z0 z0 := by
    rw [Matrix.mul_apply, Finset.sum_eq_single z0]
    · rw [hWe]; simp
    · intro b _ hb
      rw [hWe, Pi.single_eq_of_ne hb, mul_zero]
    · simp
  have l2 : (W * aeval K1 p) z0 ⟨0, hN⟩ = aeval K1 p ⟨0, hN⟩ ⟨0, hN⟩ := by
    rw [Matrix.mul_apply, Finset.sum_eq_single ⟨0, hN⟩]
    · rw [heW]; simp
    · intro b _ hb
      rw [heW, Pi.single_eq_of_ne hb, zero_mul]
    · simp
  rw [← l1, hpW, l2]

end

end Mfs.Spec

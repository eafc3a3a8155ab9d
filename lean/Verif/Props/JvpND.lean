import Verif.Lemmas.RuleJvpND2
import Verif.Props.SmoothND

/-!
# C173: forward-mode differentiation of the multidimensional rule
-/

namespace Mfs.Props

open Matrix Mfs.Spec Filter Topology Mfs.Quad1 Mfs.QuadND Mfs.Cont Mfs.Smooth Mfs.Spectral Mfs.Jvp Mfs.MultiIndex

variable {N d : ℕ} {basis full : List (List ℕ)} {mats : List (List (List ℤ))} {t : ℝ} {B : Backend}

/-! ### auxiliary: the change of variable -/

theorem jdn_shift {m : ℝ → List ℝ} {dm : List ℝ} (hm : SmD t d m dm) {F : ℝ → List ℝ → ℝ} {dF : List ℝ → List ℝ → ℝ} (hF : JDN t d F dF) :
    JDN t d (fun u x => F u (affineNode (some (m u)) none x))
      fun x dx => dF (affineNode (some (m t)) none x) (affineNodeJvp (some (m t)) (some dm) none none x dx) := by
  have key : ∀ m : List ℝ, m.length = d → ∀ v : Fin d → ℝ, affineNode (some m) none (List.ofFn v) = List.ofFn fun j : Fin d => v j + m.getD j 0 := by
    intro m hm v
    conv_lhs => rw [list_eq_ofFn m hm]
    simp only [affineNode, zip_ofFn]
  have key' : ∀ x dx : Fin d → ℝ, affineNodeJvp (some (m t)) (some dm) none none (List.ofFn x) (List.ofFn dx) = List.ofFn fun j : Fin d => dx j + dm.getD j 0 := by
    intro x dx
    conv_lhs => rw [list_eq_ofFn dm hm.2.1]
    simp only [affineNodeJvp, Option.getD_some, zip_ofFn]
  exact hF.comp (w := fun u x => affineNode (some (m u)) none x) (fun u x => key _ (hm.1.len u) x) key'
    (fun x j => (smooth_coord (r := 1) x j).add (smooth_par (r := 1) hm.1 x j)) fun x dx j => (hasDerivAt_line (x j) (dx j)).fun_add (hm.2.2 j j.2)

theorem jdn_affine {m c : ℝ → List ℝ} {dm dc : List ℝ} (hm : SmD t d m dm) (hc : SmD t d c dc) {F : ℝ → List ℝ → ℝ} {dF : List ℝ → List ℝ → ℝ}
    (hF : JDN t d F dF) : JDN t d (fun u x => F u (affineNode (some (m u)) (some (c u)) x))
      fun x dx => dF (affineNode (some (m t)) (some (c t)) x) (affineNodeJvp (some (m t)) (some dm) (some (c t)) (some dc) x dx) := by
  have key : ∀ m c : List ℝ, m.length = d → c.length = d → ∀ v : Fin d → ℝ, affineNode (some m) (some c) (List.ofFn v)
      = List.ofFn fun j : Fin d => v j * c.getD j 0 + m.getD j 0 := by
    intro m c hm hc v
    conv_lhs => rw [list_eq_ofFn m hm, list_eq_ofFn c hc]
    simp only [affineNode, zip_ofFn]
  have key' : ∀ x dx : Fin d → ℝ, affineNodeJvp (some (m t)) (some dm) (some (c t)) (some dc) (List.ofFn x) (List.ofFn dx)
      = List.ofFn fun j : Fin d => dx j * (c t).getD j 0 + x j * dc.getD j 0 + dm.getD j 0 := by
    intro x dx
    conv_lhs => rw [list_eq_ofFn dm hm.2.1, list_eq_ofFn dc hc.2.1, list_eq_ofFn (c t) (hc.1.len t)]
    simp only [affineNodeJvp, Option.getD_some, zip_ofFn]
  refine hF.comp (w := fun u x => affineNode (some (m u)) (some (c u)) x) (fun u x => key _ _ (hm.1.len u) (hc.1.len u) x) key'
    (fun x j => ((smooth_coord (r := 1) x j).mul (smooth_par (r := 1) hc.1 x j)).add (smooth_par (r := 1) hm.1 x j)) fun x dx j => ?_
  have h := ((hasDerivAt_line (t := t) (x j) (dx j)).fun_mul (hc.2.2 j j.2)).fun_add (hm.2.2 j j.2)
  simpa using h

/-! ### C173 -/

/-- the sum `∑ (dw F(x) + w dF(x; dx))` of a rule and its tangents, with the true derivative of `F` in its parameter and the node. -/
noncomputable def tangentSum (t : ℝ) (d : ℕ) (F : ℝ → List ℝ → ℝ) (r L : List (ℝ × List ℝ)) : ℝ :=
  (List.zipWith (fun p q => q.1 * F t p.2 + p.1 * fderiv ℝ (fun p : ℝ × (Fin d → ℝ) => F p.1 (List.ofFn p.2))
    (t, fun j : Fin d => p.2.getD j 0) (1, fun j : Fin d => q.2.getD j 0)) r L).sum

/-- **C173 (partial).** Wherever forward mode through the multidimensional rule gives finite tangents, these are right: along every
continuously differentiable curve of valid moment vectors (and means, and scales), the derivative of `∑ᵢ wᵢ F(t, xᵢ)` is the sum formed
with the tangents of weights and nodes, for every continuously differentiable `F`. Missing: finiteness, which fails when a multiplication
matrix has a repeated eigenvalue (`C173_nd_jvp_iff`, `C173_nd_jvp_refuted`). -/
theorem C173_nd_rule_jvp_partial (hB : B.Valid) (T : Tables N d basis full mats) (sort : Bool) (s : ℝ → List ℝ) (ds : List ℝ) (hs : SmD t full.length s ds)
    (hpd : (gramOn basis (momentAt full (s t))).PosDef) (m c : ℝ → List ℝ) (dm dc : List ℝ) (hm : SmD t d m dm) (hc : SmD t d c dc)
    (F : ℝ → List ℝ → ℝ) (hF : JointND 1 t d F) :
    (∀ L, momentQuadratureNDJvp B (s t) ds mats none none none none sort = some L →
      HasDerivAt (fun u => integND (momentQuadratureND B (s u) mats none none sort false) (F u))
        (tangentSum t d F (momentQuadratureND B (s t) mats none none sort false) L) t) ∧
    (∀ L, momentQuadratureNDJvp B (s t) ds mats (some (m t)) (some dm) none none sort = some L →
      HasDerivAt (fun u => integND (momentQuadratureND B (s u) mats (some (m u)) none sort false) (F u))
        (tangentSum t d F (momentQuadratureND B (s t) mats (some (m t)) none sort false) L) t) ∧
    ∀ L, momentQuadratureNDJvp B (s t) ds mats (some (m t)) (some dm) (some (c t)) (some dc) sort = some L →
      HasDerivAt (fun u => integND (momentQuadratureND B (s u) mats (some (m u)) (some (c u)) sort false) (F u))
        (tangentSum t d F (momentQuadratureND B (s t) mats (some (m t)) (some (c t)) sort false) L) t := by
  refine ⟨fun L hL => ?_, fun L hL => ?_, fun L hL => ?_⟩
  · exact ndRule_jvp T hB hs hpd (mean := fun _ => none) (scale := fun _ => none) (F := F)
      (dF := fun x dx => fderiv ℝ (fun p : ℝ × (Fin d → ℝ) => F p.1 (List.ofFn p.2)) (t, fun j : Fin d => x.getD j 0) (1, fun j : Fin d => dx.getD j 0)) hL (JDN.fderiv hF)
  · exact ndRule_jvp T hB hs hpd (mean := fun u => some (m u)) (scale := fun _ => none) hL (jdn_shift hm (JDN.fderiv hF))
  · exact ndRule_jvp T hB hs hpd (mean := fun u => some (m u)) (scale := fun u => some (c u)) hL (jdn_affine hm hc (JDN.fderiv hF))

/-- the coordinates of the nodes are the eigenvalues. -/
theorem coord_edN (T : Tables N d basis full mats) (ms : List ℝ) (sort : Bool) (j : Fin d) :
    ((momentQuadratureND B ms mats none none sort false).map fun p => p.2.getD j 0).toFinset = Finset.univ.image (edN B sort basis.length mats ms j).2 := by
  ext x
  rw [rule_edN T]
  simp only [affineNode, List.map_map, List.mem_toFinset, List.mem_map, Function.comp_def, coreRule, ndCartesianProdIndices,
    mem_cartesianProd_replicate, Finset.mem_image, Finset.mem_univ, true_and]
  have hval : ∀ idx : List (Fin basis.length), ∀ h : idx.length = d,
      (List.zipWith (fun (row : Fin basis.length → ℝ) i => row i) ((List.ofFn fun j : Fin d => edN B sort basis.length mats ms j).map fun e => e.2) idx).getD j 0
        = (edN B sort basis.length mats ms j).2 (idx[j]'(by rw [h]; exact j.2)) := by
    intro idx h
    rw [List.getD_eq_getElem _ _ (by simp [h]), List.getElem_zipWith]
    simp
  constructor
  · rintro ⟨idx, hidx, rfl⟩
    exact ⟨_, (hval idx hidx.1).symm⟩
  · rintro ⟨i, rfl⟩
    refine ⟨List.replicate d i, by simp, ?_⟩
    rw [hval _ (by simp)]
    simp

/-- **C173, when tangents are finite.** Forward mode through the multidimensional rule gives finite tangents exactly when every coordinate
of the nodes takes as many different values as there are basis polynomials. -/
theorem C173_nd_jvp_iff (T : Tables N d basis full mats) (ms dms : List ℝ) (mean dmean scale dscale : Option (List ℝ)) (sort : Bool) :
    (∃ L, momentQuadratureNDJvp B ms dms mats mean dmean scale dscale sort = some L) ↔
      ∀ j < d, ((momentQuadratureND B ms mats none none sort false).map fun p => p.2.getD j 0).toFinset.card = basis.length := by
  classical
  rw [ndJvp_eq T]
  have key : (∀ j < d, ((momentQuadratureND B ms mats none none sort false).map fun p => p.2.getD j 0).toFinset.card = basis.length)
      ↔ ∀ j : Fin d, Function.Injective (edN B sort basis.length mats ms j).2 := by
    constructor
    · intro h j
      have h1 := h j j.2
      rw [coord_edN T] at h1
      have h2 := Finset.card_image_iff.1 (h1.trans (by simp))
      simpa using h2
    · intro h j hj
      rw [coord_edN T ms sort ⟨j, hj⟩, Finset.card_image_of_injective _ (h ⟨j, hj⟩)]
      simp
  rw [key]
  by_cases h : ∀ j : Fin d, Function.Injective (edN B sort basis.length mats ms j).2
  · rw [if_pos h]
    exact ⟨fun _ => h, fun _ => ⟨_, rfl⟩⟩
  · rw [if_neg h]
    exact ⟨fun ⟨L, hL⟩ => (Option.some_ne_none L hL.symm).elim, fun h' => (h h').elim⟩

/-! ### the multiplication matrices of a table -/

theorem edN_data (T : Tables N d basis full mats) (hB : B.Valid) (sort : Bool) (μ : List ℕ → ℝ) (hpd : (gramOn basis μ).PosDef) (j : Fin d) :
    ∃ R, IsChol (gramOn basis μ) R ∧ IsEigh (multMat R (gatherL (full.map μ) basis.length (mats.getD (j + 1) [])))
      (edN B sort basis.length mats (full.map μ) j).1 (edN B sort basis.length mats (full.map μ) j).2 ∧
    (∀ a b, gatherL (full.map μ) basis.length (mats.getD (j + 1) []) a b
      = μ (List.ofFn ((fun i : Fin d => (basis[a]).getD i 0) + (fun i : Fin d => (basis[b]).getD i 0) + Pi.single j 1))) := by
  obtain ⟨h0, _, _, hg, hD⟩ := momentData (by have := T.hN; omega) T.hd μ T.basis_eq T.full_eq T.mats_eq
  have hR := hB.chol _ hpd
  have D := hD _ hR
  refine ⟨_, hR, ?_, D.H_eq j⟩
  have h := hB.eigh sort _ (D.symm j)
  rw [edN, hg, symmetrize_eq (gramOn_isSymm _ _), orthonormalise_eq (G := gramOn basis μ) hR.lower, symmetrize_eq (D.symm j)]
  exact h

/-- with distinct eigenvalues, eigenvectors of one value are parallel. -/
theorem eig_parallel {z : ℕ} {K U : Matrix (Fin z) (Fin z) ℝ} {lam : Fin z → ℝ} (h : IsEigh K U lam) (hinj : Function.Injective lam) {μ : ℝ} {v w : Fin z → ℝ}
    (hv : K *ᵥ v = μ • v) (hw : K *ᵥ w = μ • w) (a b : Fin z) : v a * w b = v b * w a := by
  have ho : Uᵀ * U = 1 := mul_eq_one_comm.1 h.orth
  have key : ∀ v : Fin z → ℝ, K *ᵥ v = μ • v → (∀ i, lam i ≠ μ → (Uᵀ *ᵥ v) i = 0) ∧ v = U *ᵥ (Uᵀ *ᵥ v) := by
    intro v hv
    refine ⟨fun i hi => ?_, by rw [Matrix.mulVec_mulVec, h.orth, Matrix.one_mulVec]⟩
    have h1 : Uᵀ *ᵥ (K *ᵥ v) = Matrix.diagonal lam *ᵥ (Uᵀ *ᵥ v) := by
      rw [h.spec, Matrix.mulVec_mulVec, Matrix.mulVec_mulVec, ← Matrix.mul_assoc, ← Matrix.mul_assoc, ho, Matrix.one_mul]
    rw [hv, Matrix.mulVec_smul] at h1
    have h2 := congrFun h1 i
    rw [Matrix.mulVec_diagonal, Pi.smul_apply, smul_eq_mul] at h2
    have h3 : (lam i - μ) * (Uᵀ *ᵥ v) i = 0 := by linear_combination -h2
    exact (mul_eq_zero.1 h3).resolve_left (sub_ne_zero.2 hi)
  obtain ⟨hv1, hv2⟩ := key v hv
  obtain ⟨hw1, hw2⟩ := key w hw
  by_cases hex : ∃ i, lam i = μ
  · obtain ⟨i, hi⟩ := hex
    have hs : ∀ p : Fin z → ℝ, (∀ k, lam k ≠ μ → p k = 0) → ∀ a, (U *ᵥ p) a = U a i * p i := by
      intro p hp a
      rw [Matrix.mulVec, dotProduct]
      refine Finset.sum_eq_single i (fun k _ hk => ?_) (by simp)
      rw [hp k fun h' => hk (hinj (h'.trans hi.symm)), mul_zero]
    rw [hv2, hw2, hs _ hv1, hs _ hv1, hs _ hw1, hs _ hw1]
    ring
  · have hz : Uᵀ *ᵥ v = 0 := funext fun i => hv1 i fun hi => hex ⟨i, hi⟩
    rw [hv2, hz]
    simp

/-- two polynomials that are annihilated are parallel. -/
theorem kernel_parallel {z : ℕ} {G R H U : Matrix (Fin z) (Fin z) ℝ} {lam : Fin z → ℝ} (hR : IsChol G R) (h : IsEigh (multMat R H) U lam)
    (hinj : Function.Injective lam) {p q : Fin z → ℝ} (hp : H *ᵥ p = 0) (hq : H *ᵥ q = 0) (a b : Fin z) : p a * q b = p b * q a := by
  have hu := hR.isUnit_det
  have huT : IsUnit (Rᵀ).det := by rwa [Matrix.det_transpose]
  have hk : ∀ p : Fin z → ℝ, H *ᵥ p = 0 → multMat R H *ᵥ (Rᵀ *ᵥ p) = (0 : ℝ) • (Rᵀ *ᵥ p) := by
    intro p hp
    rw [multMat, Matrix.mulVec_mulVec, Matrix.mul_assoc, Matrix.nonsing_inv_mul _ huT, Matrix.mul_one, ← Matrix.mulVec_mulVec, hp, Matrix.mulVec_zero, zero_smul]
  have h1 := eig_parallel h hinj (hk p hp) (hk q hq)
  have h2 : Rᵀ * (Matrix.vecMulVec p q - Matrix.vecMulVec q p) * R = 0 := by
    ext i j
    have : ∀ p q : Fin z → ℝ, Rᵀ * Matrix.vecMulVec p q * R = Matrix.vecMulVec (Rᵀ *ᵥ p) (Rᵀ *ᵥ q) := by
      intro p q
      rw [Matrix.mul_vecMulVec, Matrix.vecMulVec_mul, Matrix.mulVec_transpose R q]
    rw [Matrix.mul_sub, Matrix.sub_mul, this, this, Matrix.sub_apply, Matrix.vecMulVec_apply, Matrix.vecMulVec_apply, h1 i j, Matrix.zero_apply]
    ring
  have h3 : Matrix.vecMulVec p q - Matrix.vecMulVec q p = 0 := by
    have h4 : (Rᵀ)⁻¹ * (Rᵀ * (Matrix.vecMulVec p q - Matrix.vecMulVec q p) * R) * R⁻¹ = 0 := by rw [h2]; simp
    rw [Matrix.mul_assoc Rᵀ, Matrix.nonsing_inv_mul_cancel_left _ _ huT, Matrix.mul_nonsing_inv_cancel_right _ _ hu] at h4
    exact h4
  have h5 := congrFun (congrFun h3 a) b
  simp only [Matrix.sub_apply, Matrix.vecMulVec_apply, Matrix.zero_apply] at h5
  linarith

/-! ### the refutation -/

/-- moments of two independent variables with moments `a` and `b`. -/
def prodMoment (a b : ℕ → ℝ) (α : List ℕ) : ℝ := a (α.getD 0 0) * b (α.getD 1 0)

/-- **C173 refuted.** With polynomials of degree up to two (`N = 3`) in two variables, forward mode gives no finite tangents at the
moments of any two independent symmetric random variables, for any direction, although the value of the rule is differentiable there
(for every continuously differentiable function). The first multiplication matrix has the eigenvalue zero twice: `y² - E y²` and
`x² - E x⁴ / E x²` are both annihilated. -/
theorem C173_nd_jvp_refuted (hB : B.Valid) (T : Tables 3 2 [[0, 0], [0, 1], [1, 0], [0, 2], [1, 1], [2, 0]] full mats) (sort : Bool) (a b : ℕ → ℝ)
    (ha1 : a 1 = 0) (ha3 : a 3 = 0) (ha5 : a 5 = 0) (hb0 : b 0 = 1) (hb1 : b 1 = 0) (hb3 : b 3 = 0)
    (hpd : (gramOn [[0, 0], [0, 1], [1, 0], [0, 2], [1, 1], [2, 0]] (prodMoment a b)).PosDef) :
    (∀ dms mean dmean scale dscale, momentQuadratureNDJvp B (full.map (prodMoment a b)) dms mats mean dmean scale dscale sort = none) ∧
    ∀ F : List ℝ → ℝ, ContDiff ℝ 1 (fun v : Fin 2 → ℝ => F (List.ofFn v)) →
      DifferentiableAt ℝ (fun ms : Fin full.length → ℝ => integND (momentQuadratureND B (List.ofFn ms) mats none none sort false) F)
        fun i => prodMoment a b full[i] := by
  constructor
  · intro dms mean dmean scale dscale
    classical
    rw [ndJvp_eq T, if_neg]
    intro hinj
    obtain ⟨R, hR, hE, hH⟩ := edN_data T hB sort _ hpd 0
    have ha2 : a 2 ≠ 0 := by
      have h := hpd.diag_pos (i := (2 : Fin 6))
      have h' : gramOn [[0, 0], [0, 1], [1, 0], [0, 2], [1, 1], [2, 0]] (prodMoment a b) 2 2 = a 2 := by
        simp [gramOn, prodMoment, hb0]
      rw [h'] at h
      exact h.ne'
    set H := gatherL (full.map (prodMoment a b)) [[0, 0], [0, 1], [1, 0], [0, 2], [1, 1], [2, 0]].length (mats.getD ((0 : Fin 2) + 1) []) with hHdef
    have hp : H *ᵥ (![-b 2, 0, 0, 1, 0, 0] : Fin 6 → ℝ) = 0 := by
      ext i
      simp only [Matrix.mulVec, dotProduct, hH]
      fin_cases i <;> simp [Fin.sum_univ_succ, prodMoment, ha1, ha3, hb0, hb1, hb3, List.ofFn_succ]
    have hq : H *ᵥ (![-(a 4 / a 2), 0, 0, 0, 0, 1] : Fin 6 → ℝ) = 0 := by
      ext i
      simp only [Matrix.mulVec, dotProduct, hH]
      fin_cases i <;> simp [Fin.sum_univ_succ, prodMoment, ha1, ha3, ha5, hb0, List.ofFn_succ] <;> field_simp <;> ring
    have h := kernel_parallel hR hE (hinj 0) hp hq (3 : Fin 6) (5 : Fin 6)
    simp at h
  · intro F hF
    have hl : (List.ofFn fun i : Fin full.length => prodMoment a b full[i]) = full.map (prodMoment a b) := by
      apply List.ext_getElem <;> simp
    have hmem : (fun i : Fin full.length => prodMoment a b full[i]) ∈ {ms : Fin full.length → ℝ | (gramOn [[0, 0], [0, 1], [1, 0], [0, 2], [1, 1], [2, 0]] (momentAt full (List.ofFn ms))).PosDef} := by
      rw [Set.mem_ofPred_eq, hl, T.gram]
      exact hpd
    have h1 := smooth_rule_raw (r := 1) T B hB (Sm.ofFn contDiffAt_id) hmem sort false (JointND.const hF)
    exact h1.differentiableAt one_ne_zero

/-- moments of the standard normal law. -/
def gaussMoment (k : ℕ) : ℝ := [1, 0, 1, 0, 3, 0].getD k 0

theorem gauss_gram : (gramOn [[0, 0], [0, 1], [1, 0], [0, 2], [1, 1], [2, 0]] (prodMoment gaussMoment gaussMoment)).PosDef := by
  refine Matrix.PosDef.of_dotProduct_mulVec_pos ?_ fun {x} hx => ?_
  · rw [Matrix.IsHermitian, Matrix.conjTranspose_eq_transpose_of_trivial]
    exact gramOn_isSymm _ _
  · have h1 : star x ⬝ᵥ gramOn [[0, 0], [0, 1], [1, 0], [0, 2], [1, 1], [2, 0]] (prodMoment gaussMoment gaussMoment) *ᵥ x
        = (x 0 + x 3 + x 5) ^ 2 + x 1 ^ 2 + x 2 ^ 2 + 2 * x 3 ^ 2 + x 4 ^ 2 + 2 * x 5 ^ 2 := by
      simp only [star_trivial, dotProduct, Matrix.mulVec, gramOn, Matrix.of_apply]
      simp [Fin.sum_univ_succ, prodMoment, gaussMoment]
      ring
    rw [h1]
    by_contra hc
    apply hx
    have q0 := sq_nonneg (x 0 + x 3 + x 5)
    have q1 := sq_nonneg (x 1)
    have q2 := sq_nonneg (x 2)
    have q3 := sq_nonneg (x 3)
    have q4 := sq_nonneg (x 4)
    have q5 := sq_nonneg (x 5)
    have e1 : x 1 = 0 := pow_eq_zero_iff two_ne_zero |>.1 (by linarith)
    have e2 : x 2 = 0 := pow_eq_zero_iff two_ne_zero |>.1 (by linarith)
    have e3 : x 3 = 0 := pow_eq_zero_iff two_ne_zero |>.1 (by linarith)
    have e4 : x 4 = 0 := pow_eq_zero_iff two_ne_zero |>.1 (by linarith)
    have e5 : x 5 = 0 := pow_eq_zero_iff two_ne_zero |>.1 (by linarith)
    have e0 : x 0 + x 3 + x 5 = 0 := pow_eq_zero_iff two_ne_zero |>.1 (by linarith)
    rw [e3, e5, add_zero, add_zero] at e0
    funext i
    fin_cases i <;> assumption

/-- two independent standard normal variables. -/
example (hB : B.Valid) : ∃ full mats, Tables 3 2 [[0, 0], [0, 1], [1, 0], [0, 2], [1, 1], [2, 0]] full mats ∧ ∀ dms mean dmean scale dscale sort,
    momentQuadratureNDJvp B (full.map (prodMoment gaussMoment gaussMoment)) dms mats mean dmean scale dscale sort = none := by
  obtain ⟨bs, f, m, h1, h2, h3, _⟩ := C05_gram_hankel_indices 3 2 (by norm_num) (by norm_num)
  have hb : bs = [[0, 0], [0, 1], [1, 0], [0, 2], [1, 1], [2, 0]] := by
    have : generateMultiIndices 2 (3 - 1) 0 = .ok [[0, 0], [0, 1], [1, 0], [0, 2], [1, 1], [2, 0]] := by rfl
    rw [this] at h1; cases h1; rfl
  subst hb
  have T : Tables 3 2 [[0, 0], [0, 1], [1, 0], [0, 2], [1, 1], [2, 0]] f m := ⟨by norm_num, by norm_num, h1, h2, h3⟩
  exact ⟨f, m, T, fun dms mean dmean scale dscale sort => (C173_nd_jvp_refuted hB T sort gaussMoment gaussMoment rfl rfl rfl rfl rfl rfl gauss_gram).1 _ _ _ _ _⟩

/-- two independent fair signs and `N = 2`: the eigenvalues are `-1, 0, 1`, so that forward mode is finite and right. -/
example (hB : B.Valid) (T : Tables 2 2 [[0, 0], [0, 1], [1, 0]] full mats) (sort : Bool) (dms : List ℝ) (mean dmean scale dscale : Option (List ℝ)) :
    ∃ L, momentQuadratureNDJvp B (full.map signMoment) dms mats mean dmean scale dscale sort = some L := by
  classical
  rw [ndJvp_eq T]
  refine ⟨_, if_pos fun j => ?_⟩
  obtain ⟨R, hR, hE, hH⟩ := edN_data T hB sort _ sign_gram j
  have hG : gramOn [[0, 0], [0, 1], [1, 0]] signMoment = 1 := by
    ext a b
    simp only [gramOn, Matrix.of_apply, Matrix.one_apply]
    fin_cases a <;> fin_cases b <;> simp [signMoment]
  rw [hG] at hR
  have hR1 : R = 1 := hR.unique ⟨fun i j hij => Matrix.one_apply_ne (ne_of_lt hij), by simp, by simp⟩
  rw [hR1, multMat] at hE
  simp only [inv_one, Matrix.one_mul, Matrix.transpose_one, Matrix.mul_one] at hE
  generalize edN B sort [[0, 0], [0, 1], [1, 0]].length mats (full.map signMoment) j = e at hE ⊢
  generalize hHd : gatherL (full.map signMoment) [[0, 0], [0, 1], [1, 0]].length (mats.getD ((j : ℕ) + 1) []) = H at hE hH
  have ho : e.1ᵀ * e.1 = 1 := mul_eq_one_comm.1 hE.orth
  have h3 : H * H * H = H := by
    ext a b
    simp only [Matrix.mul_apply, hH]
    fin_cases j <;> fin_cases a <;> fin_cases b <;> simp [Fin.sum_univ_succ, signMoment, List.ofFn_succ]
  have ht : H.trace = 0 := by
    refine Finset.sum_eq_zero fun a _ => ?_
    rw [Matrix.diag_apply, hH]
    fin_cases j <;> fin_cases a <;> simp [signMoment, List.ofFn_succ]
  have ht2 : (H * H).trace = 2 := by
    simp only [Matrix.trace, Matrix.diag_apply, Matrix.mul_apply, hH]
    fin_cases j <;> simp [Fin.sum_univ_succ, signMoment, List.ofFn_succ] <;> norm_num
  have hD : e.1ᵀ * H * e.1 = Matrix.diagonal e.2 := by
    rw [hE.spec, ← Matrix.mul_assoc, ← Matrix.mul_assoc, ho, Matrix.one_mul, Matrix.mul_assoc, ho, Matrix.mul_one]
  have hD2 : e.1ᵀ * (H * H) * e.1 = Matrix.diagonal fun i => e.2 i * e.2 i := by
    rw [← Matrix.diagonal_mul_diagonal, ← hD]
    simp only [Matrix.mul_assoc]
    rw [← Matrix.mul_assoc e.1 e.1ᵀ, hE.orth, Matrix.one_mul]
  have hD3 : e.1ᵀ * (H * H * H) * e.1 = Matrix.diagonal fun i => e.2 i * e.2 i * e.2 i := by
    rw [← Matrix.diagonal_mul_diagonal, ← hD2, ← hD]
    simp only [Matrix.mul_assoc]
    rw [← Matrix.mul_assoc e.1 e.1ᵀ, hE.orth, Matrix.one_mul]
  have hl : ∀ i, e.2 i * e.2 i * e.2 i = e.2 i := by
    intro i
    rw [h3, hD] at hD3
    have := congrFun (congrFun hD3 i) i
    simpa using this.symm
  have s1 : ∑ i, e.2 i = 0 := by
    rw [← ht, ← Matrix.trace_diagonal, ← hD, Matrix.trace_mul_comm, ← Matrix.mul_assoc, hE.orth, Matrix.one_mul]
  have s2 : ∑ i, e.2 i * e.2 i = 2 := by
    rw [← ht2, ← Matrix.trace_diagonal, ← hD2, Matrix.trace_mul_comm, ← Matrix.mul_assoc, hE.orth, Matrix.one_mul]
  have hc : ∀ i, e.2 i = 0 ∨ e.2 i = 1 ∨ e.2 i = -1 := by
    intro i
    have h := hl i
    have h' : e.2 i * ((e.2 i - 1) * (e.2 i + 1)) = 0 := by linear_combination h
    rcases mul_eq_zero.1 h' with h | h
    · exact Or.inl h
    · rcases mul_eq_zero.1 h with h | h
      · exact Or.inr (Or.inl (by linarith))
      · exact Or.inr (Or.inr (by linarith))
  change (∑ i : Fin 3, e.2 i) = 0 at s1
  change (∑ i : Fin 3, e.2 i * e.2 i) = 2 at s2
  rw [Fin.sum_univ_three] at s1 s2
  change ∀ ⦃a b : Fin 3⦄, e.2 a = e.2 b → a = b
  have c0 := hc (0 : Fin 3)
  have c1 := hc (1 : Fin 3)
  have c2 := hc (2 : Fin 3)
  have n01 : e.2 (0 : Fin 3) ≠ e.2 (1 : Fin 3) := fun hh => by
    rcases c0 with h0 | h0 | h0 <;> rcases c1 with h1 | h1 | h1 <;> rcases c2 with h2 | h2 | h2 <;> rw [h0, h1, h2] at s1 s2 <;> rw [h0, h1] at hh <;> linarith
  have n02 : e.2 (0 : Fin 3) ≠ e.2 (2 : Fin 3) := fun hh => by
    rcases c0 with h0 | h0 | h0 <;> rcases c1 with h1 | h1 | h1 <;> rcases c2 with h2 | h2 | h2 <;> rw [h0, h1, h2] at s1 s2 <;> rw [h0, h2] at hh <;> linarith
  have n12 : e.2 (1 : Fin 3) ≠ e.2 (2 : Fin 3) := fun hh => by
    rcases c0 with h0 | h0 | h0 <;> rcases c1 with h1 | h1 | h1 <;> rcases c2 with h2 | h2 | h2 <;> rw [h0, h1, h2] at s1 s2 <;> rw [h1, h2] at hh <;> linarith
  intro a b hab
  fin_cases a <;> fin_cases b <;> first | rfl | exact (n01 hab).elim | exact (n01 hab.symm).elim | exact (n02 hab).elim | exact (n02 hab.symm).elim | exact (n12 hab).elim | exact (n12 hab.symm).elim

end Mfs.Props

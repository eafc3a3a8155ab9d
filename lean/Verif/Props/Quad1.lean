import Verif.Lemmas.Functional
import Verif.Lemmas.GolubWelsch
import Mathlib.Topology.Algebra.Polynomial
import Mathlib.MeasureTheory.Integral.IntegrableOn
import Mathlib.MeasureTheory.Integral.Bochner.Basic
import Mathlib.MeasureTheory.Function.LocallyIntegrable

/-!
# Properties C08–C18: one-dimensional moment quadrature

All theorems quantify over every valid linear-algebra backend `B` (see `Verif/Model/Backend.lean`); one exists
(`theBackend_valid`). `ms.getD k 0` is the `k`-th entry of the moment vector.
-/

namespace Mfs.Props

open Matrix Mfs.Spec Mfs.Quad1 Polynomial

/-- Gram matrix of a moment vector: the top left `n × n` Hankel block, `n = len(ms) // 2`. -/
noncomputable abbrev gramOf (ms : List ℝ) : Matrix (Fin (ms.length / 2)) (Fin (ms.length / 2)) ℝ :=
  hankelMat (ms.length / 2) fun k => ms.getD k 0

/-- the value of a quadrature rule on a function. -/
noncomputable def integ {ι : Type*} [Fintype ι] (r : (ι → ℝ) × (ι → ℝ)) (f : ℝ → ℝ) : ℝ := ∑ i, r.1 i * f (r.2 i)

/-- the moments of the uniform law on `{-1, 1}` have a positive definite Gram matrix; used for the examples below. -/
theorem gramOf_example : (gramOf [1, 0, 1, 0]).PosDef := by
  have : gramOf [1, 0, 1, 0] = (1 : Matrix (Fin 2) (Fin 2) ℝ) := by
    ext i j
    fin_cases i <;> fin_cases j <;> simp [gramOf, hankelMat]
  rw [this]
  exact Matrix.PosDef.one

/-! ## C08 -/

/-- **C08.** The rule reproduces all `2n` moments (divided by the zeroth). -/
theorem C08_reproduces_moments (B : Backend) (hB : B.Valid) (ms : List ℝ) (hpd : (gramOf ms).PosDef)
    (sort ldl : Bool) (k : ℕ) (hk : k < 2 * (ms.length / 2)) :
    integ (momentQuadrature B ms 0 1 sort ldl) (fun x => x ^ k) = ms.getD k 0 / ms.getD 0 0 :=
  momentQuadrature_reproduces B hB ms hpd sort ldl k hk

example : theBackend.Valid ∧ (gramOf [1, 0, 1, 0]).PosDef ∧ 3 < 2 * (([1, 0, 1, 0] : List ℝ).length / 2) :=
  ⟨theBackend_valid, gramOf_example, by norm_num⟩

/-! ## C09 -/

/-- **C09.** Weights are non-negative and sum to one for every moment vector of length at least two, valid or not. -/
theorem C09_weights_probability (B : Backend) (hB : B.Valid) (ms : List ℝ) (hl : 2 ≤ ms.length) (mean scale : ℝ)
    (sort ldl : Bool) :
    (∀ i, 0 ≤ (momentQuadrature B ms mean scale sort ldl).1 i) ∧
    ∑ i, (momentQuadrature B ms mean scale sort ldl).1 i = 1 := by
  constructor
  · intro i
    exact sq_nonneg _
  · simp only [momentQuadrature]
    set K := symmetrize (orthonormalise _ _) with hK
    have hE := hB.eigh sort K (symmetrize_isSymm _)
    have hn : 0 < ms.length / 2 := by omega
    have := congrFun (congrFun hE.orth ⟨0, hn⟩) ⟨0, hn⟩
    rw [Matrix.mul_apply, Matrix.one_apply_eq] at this
    rw [← this]
    exact Finset.sum_congr rfl (fun i _ => by rw [Matrix.transpose_apply, sq])

/-- an *invalid* moment vector (negative variance) of length at least two. -/
example : 2 ≤ ([1, 0, -1, 5] : List ℝ).length := by norm_num

/-! ## C10 -/

/-- **C10.** `mean` and `scale` act as the affine change of variable `x ↦ scale x + mean` on the nodes only; hence the
standardised moments are reproduced. -/
theorem C10_affine (B : Backend) (hB : B.Valid) (ms : List ℝ) (mean scale : ℝ) (sort ldl : Bool) :
    (∀ f : ℝ → ℝ, integ (momentQuadrature B ms mean scale sort ldl) f
        = integ (momentQuadrature B ms 0 1 sort ldl) (fun x => f (scale * x + mean))) ∧
    ((gramOf ms).PosDef → scale ≠ 0 → ∀ k < 2 * (ms.length / 2),
      integ (momentQuadrature B ms mean scale sort ldl) (fun x => ((x - mean) / scale) ^ k)
        = ms.getD k 0 / ms.getD 0 0) := by
  obtain ⟨h1, h2⟩ := momentQuadrature_affine B ms mean scale sort ldl
  have key : ∀ f : ℝ → ℝ, integ (momentQuadrature B ms mean scale sort ldl) f
        = integ (momentQuadrature B ms 0 1 sort ldl) (fun x => f (scale * x + mean)) := by
    intro f
    simp only [integ, h1, h2]
  refine ⟨key, ?_⟩
  intro hpd hs k hk
  rw [key, ← C08_reproduces_moments B hB ms hpd sort ldl k hk]
  congr 1
  ext x
  congr 1
  field_simp
  ring

example : theBackend.Valid ∧ (gramOf [1, 0, 1, 0]).PosDef ∧ (2 : ℝ) ≠ 0 := ⟨theBackend_valid, gramOf_example, by norm_num⟩

/-! ## C11 -/

/-- auxiliary: the rule computed from the moments of `(X - μ)/s` and pushed back reproduces the raw moments. -/
theorem affine_reproduces (B : Backend) (hB : B.Valid) (L : ℝ[X] →ₗ[ℝ] ℝ) (hL : L 1 = 1) (rms sms : List ℝ) (μ s : ℝ)
    (hs : s ≠ 0) (hlen : sms.length = rms.length)
    (hr : ∀ k < rms.length, rms.getD k 0 = L (X ^ k))
    (hsm : ∀ k < rms.length, sms.getD k 0 = L ((C s⁻¹ * (X - C μ)) ^ k))
    (hpd : (gramOf rms).PosDef) (sort ldl : Bool) :
    Reproduces (2 * (rms.length / 2)) (fun k => rms.getD k 0 / rms.getD 0 0)
      (momentQuadrature B sms μ s sort ldl).1 (momentQuadrature B sms μ s sort ldl).2 := by
  set n := rms.length / 2 with hn
  have hn' : sms.length / 2 = n := by rw [hlen]
  -- the functional of the standardised variable
  set M := affineFun L s⁻¹ (-μ * s⁻¹) with hM
  have hcomp : ∀ k, L ((C s⁻¹ * (X - C μ)) ^ k) = M (X ^ k) := by
    intro k
    rw [hM, affineFun_apply]
    congr 1
    rw [X_pow_comp]
    congr 1
    rw [C_mul, C_neg]; ring
  have hpdS : (hankelMat (sms.length / 2) (fun k => sms.getD k 0)).PosDef := by
    rw [hn', posDef_hankel_iff M n _ (fun k hk => by rw [hsm k (by omega), hcomp])]
    intro q hq hd
    rw [hM, affineFun_apply, pow_comp]
    have hc := comp_affine_ne_zero (b := -μ * s⁻¹) (inv_ne_zero hs) hq
    have h0 := (posDef_hankel_iff L n (fun k => rms.getD k 0) (fun k hk => hr k (by omega))).1 hpd
    exact h0 _ hc.1 (by rw [hc.2]; exact hd)
  have hrep := momentQuadrature_reproduces B hB sms hpdS sort ldl
  rw [show 2 * (sms.length / 2) = 2 * n by rw [hn']] at hrep
  intro k hk
  have hk1 : k < rms.length := by omega
  have h0len : 0 < rms.length := by omega
  have hr0 : rms.getD 0 0 = 1 := by rw [hr 0 h0len, pow_zero, hL]
  have hs0 : sms.getD 0 0 = 1 := by rw [hsm 0 h0len, pow_zero, hL]
  simp only [hs0, div_one] at hrep
  have hp := hrep.poly ((C s * X + C μ) ^ k) (by
    refine lt_of_le_of_lt natDegree_pow_le ?_
    rw [natDegree_linear hs, mul_one]; exact hk)
  rw [momFun_functional M _ (2 * n) (fun k hk => by rw [hsm k (by omega), hcomp]) _ (by
    refine lt_of_le_of_lt natDegree_pow_le ?_
    rw [natDegree_linear hs, mul_one]; exact hk)] at hp
  simp only [hr0, div_one]
  rw [hr k hk1]
  obtain ⟨h1, h2⟩ := momentQuadrature_affine B sms μ s sort ldl
  rw [h1, h2]
  have e : M ((C s * X + C μ) ^ k) = L (X ^ k) := by
    rw [hM, affineFun_apply, pow_comp]
    congr 2
    simp only [add_comp, mul_comp, C_comp, X_comp]
    rw [mul_add, ← mul_assoc, ← C_mul, ← C_mul, mul_inv_cancel₀ hs, C_1, one_mul, add_assoc, ← C_add]
    have : s * (-μ * s⁻¹) + μ = 0 := by field_simp; ring
    rw [this, C_0, add_zero]
  rw [← e, ← hp]
  simp

/-- **C11.** Let `L` be the expectation of a law (any linear functional on polynomials with `L 1 = 1`), and let `rms`,
`cms`, `sms` hold its raw, central and scaled central moments. If the raw Gram matrix is positive definite, then the
three calls integrate every function to the same value (for all combinations of the options). -/
theorem C11_raw_central_scaled (B : Backend) (hB : B.Valid) (L : ℝ[X] →ₗ[ℝ] ℝ) (hL : L 1 = 1)
    (rms cms sms : List ℝ) (μ s : ℝ) (hs : s ≠ 0)
    (hc : cms.length = rms.length) (hl : sms.length = rms.length)
    (hr : ∀ k < rms.length, rms.getD k 0 = L (X ^ k))
    (hcm : ∀ k < rms.length, cms.getD k 0 = L ((X - C μ) ^ k))
    (hsm : ∀ k < rms.length, sms.getD k 0 = L ((C s⁻¹ * (X - C μ)) ^ k))
    (hpd : (gramOf rms).PosDef) (so₁ so₂ so₃ l₁ l₂ l₃ : Bool) (f : ℝ → ℝ) :
    integ (momentQuadrature B rms 0 1 so₁ l₁) f = integ (momentQuadrature B cms μ 1 so₂ l₂) f ∧
    integ (momentQuadrature B rms 0 1 so₁ l₁) f = integ (momentQuadrature B sms μ s so₃ l₃) f := by
  have hpd' := posDef_normalised _ hpd
  have h0 := momentQuadrature_reproduces B hB rms hpd so₁ l₁
  have h1 := affine_reproduces B hB L hL rms cms μ 1 one_ne_zero hc hr
    (fun k hk => by rw [hcm k hk]; simp) hpd so₂ l₂
  have h2 := affine_reproduces B hB L hL rms sms μ s hs hl hr hsm hpd so₃ l₃
  exact ⟨Reproduces_unique' (by rw [hc]) hpd' h0 h1 f, Reproduces_unique' (by rw [hl]) hpd' h0 h2 f⟩

/-- a functional meeting the hypotheses: the fair coin on `{0, 2}`, mean `1`, scale `1/2`. -/
example : ∃ L : ℝ[X] →ₗ[ℝ] ℝ, L 1 = 1 ∧ (∀ k < 4, ([1, 1, 2, 4] : List ℝ).getD k 0 = L (X ^ k)) ∧
    (∀ k < 4, ([1, 0, 1, 0] : List ℝ).getD k 0 = L ((X - C 1) ^ k)) ∧
    (∀ k < 4, ([1, 0, 4, 0] : List ℝ).getD k 0 = L ((C (1 / 2 : ℝ)⁻¹ * (X - C 1)) ^ k)) ∧
    (gramOf [1, 1, 2, 4]).PosDef := by
  refine ⟨(1 / 2 : ℝ) • (Polynomial.leval 0 + Polynomial.leval 2), ?_, ?_, ?_, ?_, ?_⟩
  · simp; norm_num
  · intro k hk; interval_cases k <;> simp <;> norm_num
  · intro k hk; interval_cases k <;> simp <;> norm_num
  · intro k hk; interval_cases k <;> simp <;> norm_num
  · refine Matrix.PosDef.of_dotProduct_mulVec_pos ?_ ?_
    · ext i j; fin_cases i <;> fin_cases j <;> simp [gramOf, hankelMat]
    · intro x hx
      change Fin 2 → ℝ at x
      have e : star x ⬝ᵥ ((gramOf [1, 1, 2, 4] : Matrix (Fin 2) (Fin 2) ℝ) *ᵥ x) = (x 0 + x 1) ^ 2 + x 1 ^ 2 := by
        simp only [star_trivial, dotProduct, Matrix.mulVec, gramOf, hankelMat]
        simp [Fin.sum_univ_succ]; ring
      rw [e]
      by_contra h
      have h1 : x 1 = 0 := by nlinarith [sq_nonneg (x 0 + x 1), sq_nonneg (x 1)]
      have h0 : x 0 = 0 := by rw [h1] at h; nlinarith [sq_nonneg (x 0)]
      exact hx (by ext i; fin_cases i; exacts [h0, h1])

/-! ## C12 -/

/-- **C12.** On valid moments the rule, as a functional, is the same for all valid backends and for both values of
`sort_nodes`; and sorting indeed returns ascending nodes (for a non-negative `scale`). -/
theorem C12_backend_independent (B B' : Backend) (hB : B.Valid) (hB' : B'.Valid) (ms : List ℝ)
    (hpd : (gramOf ms).PosDef) (mean scale : ℝ) (sort sort' ldl : Bool) (f : ℝ → ℝ) :
    integ (momentQuadrature B ms mean scale sort ldl) f = integ (momentQuadrature B' ms mean scale sort' ldl) f ∧
    (0 ≤ scale → Monotone (momentQuadrature B ms mean scale true ldl).2) := by
  constructor
  · rw [(C10_affine B hB ms mean scale sort ldl).1, (C10_affine B' hB' ms mean scale sort' ldl).1]
    exact (momentQuadrature_reproduces B hB ms hpd sort ldl).unique (posDef_normalised _ hpd)
      (momentQuadrature_reproduces B' hB' ms hpd sort' ldl) (fun x => f (scale * x + mean))
  · intro hs i j hij
    simp only [momentQuadrature]
    have h1 := fun K : Matrix (Fin (ms.length / 2)) (Fin (ms.length / 2)) ℝ =>
      hB.sorted (symmetrize K) (symmetrize_isSymm K) hij
    gcongr
    exact h1 _

example : theBackend.Valid ∧ (gramOf [1, 0, 1, 0]).PosDef := ⟨theBackend_valid, gramOf_example⟩

/-! ## C13 -/

/-- **C13.** On valid moments the `ldl` option changes nothing: not even the individual weights and nodes. -/
theorem C13_ldl_option (B : Backend) (hB : B.Valid) (ms : List ℝ) (hpd : (gramOf ms).PosDef) (mean scale : ℝ)
    (sort : Bool) :
    momentQuadrature B ms mean scale sort true = momentQuadrature B ms mean scale sort false := by
  obtain ⟨hG, _⟩ := gather_eq (n := ms.length / 2) ms (by omega)
  have hsym : symmetrize (gather ms (hankelIndices (ms.length / 2)).1) = hankelMat (ms.length / 2) (fun k => ms.getD k 0) := by
    rw [hG, symmetrize_eq (hankelMat_isSymm _ _)]
  have h : Ldl.ldlChol (gather ms (hankelIndices (ms.length / 2)).1)
      = B.chol (symmetrize (gather ms (hankelIndices (ms.length / 2)).1)) := by
    rw [hsym, hG]
    exact (Ldl.ldlChol_isChol _ hpd none).unique (hB.chol _ hpd)
  simp only [momentQuadrature, if_true, Bool.false_eq_true, if_false, h]

example : (gramOf [1, 0, 1, 0]).PosDef := gramOf_example

/-! ## C14 -/

theorem golubWelsch_core (B : Backend) (hB : B.Valid) (n : ℕ) (hn : 2 ≤ n) (m : ℕ → ℝ) (hpd : (hankelMat n m).PosDef)
    (sort : Bool) :
    Reproduces (2 * (n - 1)) (fun k => m k / m 0)
      (fun i : Fin (n - 1) => (B.eigh sort (symmetrize (golubWelschK (B.chol (hankelMat n m))))).1 ⟨0, i.pos⟩ i ^ 2)
      (fun i : Fin (n - 1) => 1 * (B.eigh sort (symmetrize (golubWelschK (B.chol (hankelMat n m))))).2 i + 0) := by
  obtain ⟨p, rfl⟩ : ∃ p, n = p + 1 := ⟨n - 1, by omega⟩
  have hp0 : 0 < p := by omega
  have hR := hB.chol _ hpd
  have hgw := golubWelschK_eq hR
  have hK : (multMat (lead (B.chol (hankelMat (p + 1) m))) (hankelMat p fun k => m (k + 1))).IsSymm :=
    multMat_isSymm (hankelMat_isSymm _ _)
  have := core (m := m) (lead_isChol hR) hp0 (hB.eigh sort _ hK)
  rw [hgw, symmetrize_eq hK]
  simpa using this

theorem golubWelsch_reproduces (B : Backend) (hB : B.Valid) (sms : List ℝ) (hl : 4 ≤ sms.length)
    (hpd : (gramOf sms).PosDef) (sort : Bool) :
    Reproduces (2 * (sms.length / 2 - 1)) (fun k => sms.getD k 0 / sms.getD 0 0) (golubWelsch B sms 0 1 sort).1
      (golubWelsch B sms 0 1 sort).2 := by
  obtain ⟨hG, _⟩ := gather_eq (n := sms.length / 2) sms (by omega)
  simp only [golubWelsch]
  rw [hG, symmetrize_eq (hankelMat_isSymm _ _)]
  exact golubWelsch_core B hB _ (by omega) _ hpd sort

/-- **C14.** For valid moments (at least four), Golub–Welsch integrates every function to the same value as
`moment_quadrature` on the first `2 n - 2` moments, `n = len(sms) // 2`, for all `mean` and `scale`. -/
theorem C14_golub_welsch (B : Backend) (hB : B.Valid) (sms : List ℝ) (hl : 4 ≤ sms.length)
    (hpd : (gramOf sms).PosDef) (mean scale : ℝ) (sort sort' ldl : Bool) (f : ℝ → ℝ) :
    integ (golubWelsch B sms mean scale sort) f
      = integ (momentQuadrature B (sms.take (2 * (sms.length / 2) - 2)) mean scale sort' ldl) f := by
  obtain ⟨n, hn⟩ : ∃ n, n = sms.length / 2 := ⟨_, rfl⟩
  set ms := sms.take (2 * (sms.length / 2) - 2) with hms
  have hlen : ms.length = 2 * n - 2 := by rw [hms, List.length_take]; omega
  have hlen2 : ms.length / 2 = n - 1 := by omega
  have hget : ∀ k < 2 * n - 2, ms.getD k 0 = sms.getD k 0 := by
    intro k hk
    simp only [List.getD_eq_getElem?_getD, hms, List.getElem?_take_of_lt (show k < 2 * (sms.length / 2) - 2 by omega)]
  -- the smaller Gram matrix is positive definite
  have hpd1 : (hankelMat (n - 1) fun k => sms.getD k 0).PosDef := by
    have := hpd.submatrix (e := fun i : Fin (n - 1) => (⟨i, by omega⟩ : Fin (sms.length / 2)))
      (fun a b hab => Fin.ext (by simpa using hab))
    exact this
  have hpd2 : (gramOf ms).PosDef := by
    have : gramOf ms = hankelMat (ms.length / 2) fun k => sms.getD k 0 := by
      ext i j
      simp only [gramOf, hankelMat, Matrix.of_apply]
      exact hget _ (by omega)
    rw [this, hlen2]
    exact hpd1
  rw [(C10_affine B hB ms mean scale sort' ldl).1]
  have hgw := golubWelsch_reproduces B hB sms hl hpd sort
  have hmq := momentQuadrature_reproduces B hB ms hpd2 sort' ldl
  have hgwa : integ (golubWelsch B sms mean scale sort) f
      = integ (golubWelsch B sms 0 1 sort) (fun x => f (scale * x + mean)) := by
    simp [integ, golubWelsch]
  rw [hgwa]
  refine Reproduces_unique' (n := sms.length / 2 - 1) (n' := ms.length / 2) (by omega) (m := fun k => sms.getD k 0 / sms.getD 0 0)
    ?_ hgw ?_ (fun x => f (scale * x + mean))
  · rw [← hn]; exact posDef_normalised _ hpd1
  · intro k hk
    have := hmq k (by omega)
    beta_reduce at this
    rw [hget k (by omega), hget 0 (by omega)] at this
    exact this

example : 4 ≤ ([1, 0, 1, 0] : List ℝ).length ∧ (gramOf [1, 0, 1, 0]).PosDef := ⟨by norm_num, gramOf_example⟩

/-! ## C15 -/

/-- **C15.** If the moments are those of a finite measure concentrated on `[a, b]`, every node lies in `[a, b]`. -/
theorem C15_nodes_in_support (B : Backend) (hB : B.Valid) (μ : MeasureTheory.Measure ℝ)
    [MeasureTheory.IsFiniteMeasure μ] (a b : ℝ) (hsupp : μ (Set.Icc a b)ᶜ = 0) (ms : List ℝ)
    (hms : ∀ k < ms.length, ms.getD k 0 = ∫ x, x ^ k ∂μ) (hpd : (gramOf ms).PosDef) (sort ldl : Bool)
    (i : Fin (ms.length / 2)) : (momentQuadrature B ms 0 1 sort ldl).2 i ∈ Set.Icc a b := by
  have hres : μ.restrict (Set.Icc a b) = μ := MeasureTheory.Measure.restrict_eq_self_of_ae_mem (by
    rw [MeasureTheory.ae_iff]; exact hsupp)
  have hint : ∀ p : ℝ[X], MeasureTheory.Integrable (fun x => p.eval x) μ := by
    intro p
    have := (p.continuous.continuousOn (s := Set.Icc a b)).integrableOn_compact (μ := μ) isCompact_Icc
    rwa [MeasureTheory.IntegrableOn, hres] at this
  let L : ℝ[X] →ₗ[ℝ] ℝ :=
    { toFun := fun p => ∫ x, p.eval x ∂μ
      map_add' := fun p q => by
        simp only [eval_add]
        exact MeasureTheory.integral_add (hint p) (hint q)
      map_smul' := fun c p => by
        simp only [eval_smul, RingHom.id_apply]
        exact MeasureTheory.integral_smul c _ }
  have hLX : ∀ k < ms.length, ms.getD k 0 = L (X ^ k) := by
    intro k hk
    rw [hms k hk]
    show _ = ∫ x, (X ^ k : ℝ[X]).eval x ∂μ
    simp
  obtain ⟨n, hn⟩ : ∃ n, n = ms.length / 2 := ⟨_, rfl⟩
  have hn0 : 0 < n := by have := i.pos; omega
  have hm0 := moment_zero_pos (fun k => ms.getD k 0) i.pos hpd
  have hrep := momentQuadrature_reproduces B hB ms hpd sort ldl
  have hpd' := posDef_normalised _ hpd
  set w := (momentQuadrature B ms 0 1 sort ldl).1
  set x := (momentQuadrature B ms 0 1 sort ldl).2
  -- `Σ w p(x) = L p / m0`
  have hpoly : ∀ p : ℝ[X], p.natDegree < 2 * n → ms.getD 0 0 * ∑ j, w j * p.eval (x j) = L p := by
    intro p hp
    rw [hrep.poly p (by omega), ← momFun_functional L (fun k => ms.getD k 0) (2 * n) (fun k hk => hLX k (by omega)) p hp]
    simp only [momFun, Finset.mul_sum]
    apply Finset.sum_congr rfl
    intro k _
    field_simp
  set q := nodePolyErase x i with hq
  have hqd : q.natDegree = n - 1 := by rw [hn]; exact natDegree_nodePolyErase x i
  have hnonneg : ∀ g : ℝ[X], (∀ y ∈ Set.Icc a b, 0 ≤ g.eval y) → 0 ≤ L g := by
    intro g hg
    show 0 ≤ ∫ y, g.eval y ∂μ
    apply MeasureTheory.integral_nonneg_of_ae
    have : ∀ᵐ y ∂μ, y ∈ Set.Icc a b := by rw [MeasureTheory.ae_iff]; exact hsupp
    filter_upwards [this] with y hy
    exact hg y hy
  have hw := hrep.sq_pos hpd' i
  have hlin : ∀ c d : ℝ, (∀ y ∈ Set.Icc a b, 0 ≤ c * y + d) → 0 ≤ c * x i + d := by
    intro c d hcd
    have hdeg : ((C c * X + C d) * q ^ 2).natDegree < 2 * n := by
      have h1 : (C c * X + C d : ℝ[X]).natDegree ≤ 1 := natDegree_linear_le
      have h2 : (q ^ 2).natDegree ≤ 2 * (n - 1) := (natDegree_pow_le).trans (by rw [hqd])
      have := natDegree_mul_le (p := (C c * X + C d : ℝ[X])) (q := q ^ 2)
      omega
    have h1 := hpoly _ hdeg
    have h2 : 0 ≤ L ((C c * X + C d) * q ^ 2) := by
      apply hnonneg
      intro y hy
      simp only [eval_mul, eval_add, eval_C, eval_X, eval_pow]
      exact mul_nonneg (hcd y hy) (sq_nonneg _)
    have key := sum_erase_eval w x i (fun y => ((C c * X + C d) * q ^ 2).eval y) (fun y hy => by
      simp only [eval_mul, eval_pow]; rw [hy]; simp)
    beta_reduce at key
    rw [key] at h1
    rw [← h1] at h2
    simp only [eval_mul, eval_add, eval_C, eval_X, eval_pow] at h2
    have h3 : ms.getD 0 0 * (w i * ((c * x i + d) * eval (x i) q ^ 2))
        = (ms.getD 0 0 * (w i * eval (x i) q ^ 2)) * (c * x i + d) := by ring
    rw [h3] at h2
    exact nonneg_of_mul_nonneg_right h2 (mul_pos hm0 hw)
  constructor
  · have := hlin 1 (-a) (fun y hy => by have := hy.1; linarith)
    linarith
  · have := hlin (-1) b (fun y hy => by have := hy.2; linarith)
    linarith

/-- hypotheses of C15 are met by the two-point law on `{-1, 1}` and `[a, b] = [-1, 1]`. -/
example : ∃ μ : MeasureTheory.Measure ℝ, MeasureTheory.IsFiniteMeasure μ ∧ μ (Set.Icc (-1) 1)ᶜ = 0 ∧
    (∀ k < 4, ([1, 0, 1, 0] : List ℝ).getD k 0 = ∫ x, x ^ k ∂μ) ∧ (gramOf [1, 0, 1, 0]).PosDef := by
  refine ⟨(1 / 2 : NNReal) • (MeasureTheory.Measure.dirac (-1)) + (1 / 2 : NNReal) • (MeasureTheory.Measure.dirac 1),
    inferInstance, ?_, ?_, gramOf_example⟩
  · simp
  · intro k hk
    have hi : ∀ (y : ℝ), MeasureTheory.Integrable (fun x : ℝ => x ^ k) (MeasureTheory.Measure.dirac y) := fun y =>
      MeasureTheory.integrable_dirac (by simp)
    rw [MeasureTheory.integral_add_measure ((hi _).smul_measure_nnreal) ((hi _).smul_measure_nnreal)]
    rw [MeasureTheory.integral_smul_nnreal_measure, MeasureTheory.integral_smul_nnreal_measure]
    simp only [MeasureTheory.integral_dirac]
    interval_cases k <;> simp [NNReal.smul_def] <;> norm_num

/-! ## C16 -/

/-- **C16.** Moments of a discrete law with `n` distinct atoms of positive mass: the rule integrates every function
exactly as that law (normalised by its total mass). Validity of the moments is a conclusion, not a hypothesis. -/
theorem C16_discrete_recovery (B : Backend) (hB : B.Valid) (ms : List ℝ) (p y : Fin (ms.length / 2) → ℝ)
    (hp : ∀ i, 0 < p i) (hy : Function.Injective y) (hms : ∀ k < ms.length, ms.getD k 0 = ∑ i, p i * y i ^ k)
    (sort ldl : Bool) :
    (gramOf ms).PosDef ∧
    ∀ f : ℝ → ℝ, integ (momentQuadrature B ms 0 1 sort ldl) f = (∑ i, p i * f (y i)) / ∑ i, p i := by
  let L : ℝ[X] →ₗ[ℝ] ℝ := ∑ i, p i • Polynomial.leval (y i)
  have hL : ∀ q : ℝ[X], L q = ∑ i, p i * q.eval (y i) := by
    intro q; simp [L]
  have hm : ∀ k < 2 * (ms.length / 2), ms.getD k 0 = L (X ^ k) := by
    intro k hk
    rw [hms k (by omega), hL]; simp
  have hpd : (gramOf ms).PosDef := by
    refine (posDef_hankel_iff L _ _ hm).2 ?_
    intro q hq hd
    rw [hL]
    have hex : ∃ i, q.eval (y i) ≠ 0 := by
      by_contra hall
      push Not at hall
      exact hq (Polynomial.eq_zero_of_natDegree_lt_card_of_eval_eq_zero q hy hall (by simpa using hd))
    obtain ⟨i, hi⟩ := hex
    refine Finset.sum_pos' (fun j _ => ?_) ⟨i, Finset.mem_univ _, ?_⟩
    · rw [eval_pow]; exact mul_nonneg (hp j).le (sq_nonneg _)
    · rw [eval_pow]; exact mul_pos (hp i) (by positivity)
  refine ⟨hpd, ?_⟩
  intro f
  rcases Nat.eq_zero_or_pos (ms.length / 2) with h0 | h0
  · have : IsEmpty (Fin (ms.length / 2)) := by rw [h0]; infer_instance
    simp [integ]
  have hm0 : ms.getD 0 0 = ∑ i, p i := by rw [hms 0 (by omega)]; simp
  have hrep := momentQuadrature_reproduces B hB ms hpd sort ldl
  have hrep' : Reproduces (2 * (ms.length / 2)) (fun k => ms.getD k 0 / ms.getD 0 0) (fun i => p i / ∑ j, p j) y := by
    intro k hk
    simp only [hm0]
    rw [hms k (by omega), Finset.sum_div]
    exact Finset.sum_congr rfl (fun i _ => by ring)
  have := hrep.unique (posDef_normalised _ hpd) hrep' f
  rw [integ, this, Finset.sum_div]
  exact Finset.sum_congr rfl (fun i _ => by ring)

/-- hypotheses of C16: atoms `-1, 1` with masses `1/2`. -/
example : (∀ i, 0 < (![1 / 2, 1 / 2] : Fin 2 → ℝ) i) ∧ Function.Injective (![-1, 1] : Fin 2 → ℝ) ∧
    ∀ k < 4, ([1, 0, 1, 0] : List ℝ).getD k 0 = ∑ i, (![1 / 2, 1 / 2] : Fin 2 → ℝ) i * (![-1, 1] : Fin 2 → ℝ) i ^ k := by
  refine ⟨?_, ?_, ?_⟩
  · intro i; fin_cases i <;> simp
  · intro i j h
    fin_cases i <;> fin_cases j <;> simp_all <;> norm_num at h
  · intro k hk
    interval_cases k <;> simp <;> norm_num

/-! ## C17 -/

/-- the rule as a list of (weight, node) pairs. -/
noncomputable def ruleList (B : Backend) (ms : List ℝ) (mean scale : ℝ) (sort ldl : Bool) : List (ℝ × ℝ) :=
  List.ofFn fun i => ((momentQuadrature B ms mean scale sort ldl).1 i, (momentQuadrature B ms mean scale sort ldl).2 i)

/-- **C17.** Appending one more moment to an even number of moments changes neither weights nor nodes (for every input
and backend). -/
theorem C17_surplus_moment (B : Backend) (ms : List ℝ) (hev : ms.length % 2 = 0) (y mean scale : ℝ) (sort ldl : Bool) :
    ruleList B (ms ++ [y]) mean scale sort ldl = ruleList B ms mean scale sort ldl := by
  let quadOf (n : ℕ) (G H : Matrix (Fin n) (Fin n) ℝ) : List (ℝ × ℝ) :=
    let R := if ldl then Ldl.ldlChol G else B.chol (symmetrize G)
    let e := B.eigh sort (symmetrize (orthonormalise R H))
    List.ofFn fun i : Fin n => (e.1 ⟨0, i.pos⟩ i ^ 2, scale * e.2 i + mean)
  have hq : ∀ l : List ℝ, ruleList B l mean scale sort ldl
      = quadOf (l.length / 2) (gather l (hankelIndices (l.length / 2)).1) (gather l (hankelIndices (l.length / 2)).2) :=
    fun l => rfl
  rw [hq, hq]
  have hlen : (ms ++ [y]).length / 2 = ms.length / 2 := by simp; omega
  rw [hlen]
  have hget : ∀ k < ms.length, jget (ms ++ [y]) k = jget ms k := by
    intro k hk
    rw [jget_eq hk, jget_eq (by simp; omega)]
    simp only [List.getD_eq_getElem?_getD, List.getElem?_append_left hk]
  have e1 : gather (ms ++ [y]) (hankelIndices (ms.length / 2)).1 = gather ms (hankelIndices (ms.length / 2)).1 := by
    ext i j
    exact hget _ (by simp only [hankelIndices]; omega)
  have e2 : gather (ms ++ [y]) (hankelIndices (ms.length / 2)).2 = gather ms (hankelIndices (ms.length / 2)).2 := by
    ext i j
    exact hget _ (by simp only [hankelIndices]; omega)
  rw [e1, e2]

example : ([1, 0, 1, 0] : List ℝ).length % 2 = 0 := by norm_num

/-! ## C18 -/

theorem _root_.Finset.sum_list_map_range_eq (n : ℕ) (f : ℕ → ℝ) :
    ∑ i ∈ Finset.range n, f i = ((List.range n).map f).sum := by
  induction n with
  | zero => simp
  | succ n ih => rw [Finset.sum_range_succ, ih, List.range_succ, List.map_append, List.sum_append]; simp

theorem getD_makeDerivatives (f : ℝ → ℝ) (order r : ℕ) (hr : r ≤ order) :
    (makeDerivatives f order).getD r 0 = deriv^[r] f := by
  have : ∀ (n : ℕ) (g : ℝ → ℝ) (r : ℕ), r < n → (List.iterate deriv g n).getD r 0 = deriv^[r] g := by
    intro n
    induction n with
    | zero => intro g r hr; omega
    | succ n ih =>
      intro g r hr
      cases r with
      | zero => simp [List.iterate]
      | succ r =>
        rw [List.iterate, List.getD_cons_succ, ih _ r (by omega), Function.iterate_succ_apply]
  exact this (order + 1) f r (by omega)

theorem iterate_deriv_poly (p : ℝ[X]) (r : ℕ) : deriv^[r] (fun x => p.eval x) = fun x => (derivative^[r] p).eval x := by
  induction r generalizing p with
  | zero => rfl
  | succ r ih =>
    rw [Function.iterate_succ_apply, Function.iterate_succ_apply, ← ih]
    congr 1
    ext x
    exact Polynomial.deriv p

/-- **C18.** Let `E` be an expectation (linear functional on polynomials with `E 1 = 1`) and `cms` its central moments
about `mean`, up to `order`. Then `taylor_quadrature` returns `E f` for every polynomial `f` of degree `≤ order`. -/
theorem C18_taylor_exact (E : ℝ[X] →ₗ[ℝ] ℝ) (hE : E 1 = 1) (cms : List ℝ) (mean : ℝ) (order : ℕ)
    (hl : order < cms.length) (hc : ∀ r ≤ order, cms.getD r 0 = E ((X - C mean) ^ r)) (f : ℝ[X])
    (hf : f.natDegree ≤ order) :
    taylorQuadrature (fun x => f.eval x) cms mean order = E f := by
  have hfold : ∀ (l : List ℕ) (g : ℕ → ℝ) (a : ℝ), l.foldl (fun res r => res + g r) a = a + (l.map g).sum := by
    intro l g
    induction l with
    | nil => simp
    | cons b l ih => intro a; simp [ih, add_assoc]
  unfold taylorQuadrature
  simp only
  rw [hfold (List.range' 1 order) (fun r => (makeDerivatives (fun x => f.eval x) order).getD r 0 mean * jget cms r / (r.factorial : ℝ))]
  have hterm : ∀ r ≤ order, (makeDerivatives (fun x => f.eval x) order).getD r 0 mean * jget cms r / (r.factorial : ℝ)
      = (taylor mean f).coeff r * E ((X - C mean) ^ r) := by
    intro r hr
    rw [getD_makeDerivatives _ _ _ hr, iterate_deriv_poly, jget_eq (by omega), hc r hr, taylor_coeff]
    beta_reduce
    have := congrArg (fun g => (g f).eval mean) (factorial_smul_hasseDeriv (R := ℝ) r)
    simp only [LinearMap.smul_apply] at this
    rw [← this, eval_smul, nsmul_eq_mul]
    have hne : (r.factorial : ℝ) ≠ 0 := by positivity
    field_simp
  have hsum : f = ∑ r ∈ Finset.range (order + 1), C ((taylor mean f).coeff r) * (X - C mean) ^ r := by
    conv_lhs => rw [← sum_taylor_eq f mean]
    rw [Polynomial.sum_over_range' _ _ (order + 1) (by rw [natDegree_taylor]; omega)]
    intro n; simp
  have hEf : E f = ∑ r ∈ Finset.range (order + 1), (taylor mean f).coeff r * E ((X - C mean) ^ r) := by
    conv_lhs => rw [hsum]
    rw [map_sum]
    exact Finset.sum_congr rfl (fun r _ => by rw [← smul_eq_C_mul, map_smul, smul_eq_mul])
  rw [hEf, Finset.sum_range_succ']
  have h0 : (makeDerivatives (fun x => f.eval x) order).getD 0 0 mean
      = (taylor mean f).coeff 0 * E ((X - C mean) ^ 0) := by
    rw [getD_makeDerivatives _ _ _ (Nat.zero_le _), pow_zero, hE, taylor_coeff_zero]; simp
  rw [h0, add_comm]
  congr 1
  have : List.range' 1 order = (List.range order).map (· + 1) := by
    rw [List.range'_eq_map_range]; exact List.map_congr_left (fun i _ => by omega)
  rw [this, List.map_map, ← Finset.sum_list_map_range_eq order]
  apply Finset.sum_congr rfl
  intro r hr
  rw [Finset.mem_range] at hr
  exact hterm (r + 1) (by omega)

/-- hypotheses of C18: the fair coin on `{0, 2}`, mean `1`, third order. -/
example : ∃ E : ℝ[X] →ₗ[ℝ] ℝ, E 1 = 1 ∧ 3 < ([1, 0, 1, 0] : List ℝ).length ∧
    ∀ k ≤ 3, ([1, 0, 1, 0] : List ℝ).getD k 0 = E ((X - C 1) ^ k) := by
  refine ⟨(1 / 2 : ℝ) • (Polynomial.leval 0 + Polynomial.leval 2), ?_, by norm_num, ?_⟩
  · simp; norm_num
  · intro k hk; interval_cases k <;> simp <;> norm_num

end Mfs.Props

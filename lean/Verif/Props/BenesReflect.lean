import Verif.Props.BenesEkf
import Verif.Props.SigmaPoints
import Verif.Lemmas.GaussHermite

/-!
# C190, continued: the Gauss–Hermite filter of the Beneš–Bernoulli model
-/

namespace Mfs.Props

open Matrix Mfs.Classical Mfs.SsModels Mfs.Experiments Mfs.Spec

variable {dx dy : ℕ}

/-- a set of sigma points that is symmetric about the origin. -/
def SymmPoints (sg : SigmaPoints dx) : Prop :=
  ∃ σ : Equiv.Perm (Fin sg.nPoints), ∀ i, sg.w (σ i) = sg.w i ∧ sg.xi (σ i) = -sg.xi i

theorem he_eval_neg (n : ℕ) (x : ℝ) : (he n).eval (-x) = (-1) ^ n * (he n).eval x := by
  induction n using Nat.twoStepInduction with
  | zero => simp [he_zero]
  | one => simp [he_succ, he_zero]
  | more n h0 h1 =>
    rw [he_rec]
    simp only [Polynomial.eval_sub, Polynomial.eval_mul, Polynomial.eval_X, Polynomial.eval_C, h0, h1]
    ring

/-- the Gauss–Hermite points are symmetric. -/
theorem gaussHermite_symm (d order : ℕ) (roots : ℕ → ℝ) (hinj : ∀ i j, i < order → j < order → roots i = roots j → i = j)
    (hroot : ∀ j, j < order → polyval ((genHermitePolyCoeff order).getLastD []) (roots j) = 0) :
    SymmPoints (SigmaPoints.gaussHermite d order roots) := by
  have hσ : ∃ τ : Equiv.Perm (Fin order), ∀ j, roots (τ j) = -roots j ∧ ghWeight1d order (roots (τ j)) = ghWeight1d order (roots j) := by
    rcases Nat.eq_zero_or_pos order with rfl | ho
    · exact ⟨Equiv.refl _, fun j => j.elim0⟩
    obtain ⟨n, rfl⟩ : ∃ n, order = n + 1 := ⟨order - 1, by omega⟩
    have h2 : (√(2 : ℝ)) ≠ 0 := (Real.sqrt_pos.2 (by norm_num)).ne'
    have hlast : (genHermitePolyCoeff (n + 1)).getLastD [] = (genHermitePolyCoeff (n + 1)).getD (n + 1) [] := by
      have hl := (genHermite_spec n).1
      rw [List.getLastD_eq_getLast?, List.getLast?_eq_getElem?, hl, List.getD_eq_getElem?_getD]
      rfl
    have hz : Function.Injective fun j : Fin (n + 1) => √2 * roots j := by
      intro i j hij
      exact Fin.ext (hinj i j i.2 j.2 (mul_left_cancel₀ h2 hij))
    have hr : ∀ j : Fin (n + 1), (he (n + 1)).eval (√2 * roots j) = 0 := by
      intro j
      have := hroot j j.2
      rw [hlast, ((genHermite_spec n).2 (n + 1) le_rfl).2, hphys] at this
      exact (mul_eq_zero.1 this).resolve_left (pow_ne_zero _ h2)
    have hall : ∀ x, (he (n + 1)).eval x = 0 → ∃ j : Fin (n + 1), √2 * roots j = x := by
      intro x hx
      by_contra hne
      push Not at hne
      have hinj' : Function.Injective (Fin.cons x (fun j : Fin (n + 1) => √2 * roots j) : Fin (n + 2) → ℝ) :=
        Fin.cons_injective_iff.2 ⟨fun ⟨j, hj⟩ => hne j hj, hz⟩
      have : he (n + 1) = 0 := by
        refine Polynomial.eq_zero_of_natDegree_lt_card_of_eval_eq_zero (he (n + 1)) hinj' (fun i => ?_) (by
          rw [natDegree_he, Fintype.card_fin]; omega)
        refine Fin.cases ?_ (fun j => ?_) i
        · simpa using hx
        · simpa using hr j
      exact (he_monic (n + 1)).ne_zero this
    have hex : ∀ j : Fin (n + 1), ∃ i : Fin (n + 1), roots i = -roots j := by
      intro j
      obtain ⟨i, hi⟩ := hall (-(√2 * roots j)) (by rw [he_eval_neg, hr, mul_zero])
      refine ⟨i, mul_left_cancel₀ h2 ?_⟩
      rw [hi]; ring
    choose τ hτ using hex
    have hτi : Function.Injective τ := by
      intro i j hij
      have := hτ i
      rw [hij, hτ j] at this
      exact Fin.ext (hinj i j i.2 j.2 (neg_injective this).symm)
    refine ⟨Equiv.ofBijective τ (Finite.injective_iff_bijective.1 hτi), fun j => ?_⟩
    rw [Equiv.ofBijective_apply]
    refine ⟨hτ j, ?_⟩
    have hp : (√Real.pi : ℝ) ≠ 0 := (Real.sqrt_pos.2 Real.pi_pos).ne'
    refine (div_left_inj' hp).1 ?_
    rw [ghWeight1d_eq, ghWeight1d_eq, hτ j, mul_neg, he_eval_neg, mul_pow, ← pow_mul, mul_comm n 2, pow_mul]
    simp
  obtain ⟨τ, hτ⟩ := hσ
  obtain ⟨ρ, hρ⟩ : ∃ ρ : Equiv.Perm (Fin (order ^ d)), ∀ c, ∀ r : Fin d,
      rollTable d order r (ρ c) = (τ (finFunctionFinEquiv.symm c r) : Fin order) := by
    refine ⟨(finFunctionFinEquiv.symm.trans (Equiv.arrowCongr (Equiv.refl (Fin d)) τ)).trans finFunctionFinEquiv, fun c r => ?_⟩
    rw [rollTable_equiv, Equiv.trans_apply, Equiv.symm_apply_apply]
    rfl
  have h1 : ∀ c : Fin (order ^ d), 1 / √Real.pi ^ d * ∏ r : Fin d, ghWeight1d order (roots (rollTable d order r (ρ c)))
      = 1 / √Real.pi ^ d * ∏ r : Fin d, ghWeight1d order (roots (rollTable d order r c)) := by
    intro c
    congr 1
    refine Finset.prod_congr rfl fun r _ => ?_
    rw [hρ c r, (hτ _).2, rollTable_equiv]
  have h2 : ∀ (c : Fin (order ^ d)) (r : Fin d), √2 * roots (rollTable d order r (ρ c)) = -(√2 * roots (rollTable d order r c)) := by
    intro c r
    rw [hρ c r, (hτ _).1, rollTable_equiv]
    ring
  exact ⟨ρ, fun c => ⟨h1 c, funext fun r => h2 c r⟩⟩

/-- the Gauss–Hermite weights are positive. -/
theorem gaussHermite_w_pos (d order : ℕ) (roots : ℕ → ℝ) (hinj : ∀ i j, i < order → j < order → roots i = roots j → i = j)
    (hroot : ∀ j, j < order → polyval ((genHermitePolyCoeff order).getLastD []) (roots j) = 0) (c) :
    0 < (SigmaPoints.gaussHermite d order roots).w c := by
  have h1 : ∀ c : Fin (order ^ d), 0 < 1 / √Real.pi ^ d * ∏ r : Fin d, ghWeight1d order (roots (rollTable d order r c)) := by
    intro c
    have hpi : 0 < √Real.pi := Real.sqrt_pos.2 Real.pi_pos
    refine mul_pos (by positivity) (Finset.prod_pos fun r _ => ?_)
    rw [rollTable_equiv]
    generalize finFunctionFinEquiv.symm c r = j
    obtain ⟨n, rfl⟩ : ∃ n, order = n + 1 := ⟨order - 1, by have := j.pos; omega⟩
    have h2 : (√(2 : ℝ)) ≠ 0 := (Real.sqrt_pos.2 (by norm_num)).ne'
    have hlast : (genHermitePolyCoeff (n + 1)).getLastD [] = (genHermitePolyCoeff (n + 1)).getD (n + 1) [] := by
      have hl := (genHermite_spec n).1
      rw [List.getLastD_eq_getLast?, List.getLast?_eq_getElem?, hl, List.getD_eq_getElem?_getD]
      rfl
    have hz : Function.Injective fun j : Fin (n + 1) => √2 * roots j := by
      intro i j hij
      exact Fin.ext (hinj i j i.2 j.2 (mul_left_cancel₀ h2 hij))
    have hr : ∀ j : Fin (n + 1), (he (n + 1)).eval (√2 * roots j) = 0 := by
      intro j
      have := hroot j j.2
      rw [hlast, ((genHermite_spec n).2 (n + 1) le_rfl).2, hphys] at this
      exact (mul_eq_zero.1 this).resolve_left (pow_ne_zero _ h2)
    have hne : (he n).eval (√2 * roots j) ≠ 0 := he_pred_ne_zero hz hr j
    have : 0 < ghWeight1d (n + 1) (roots j) / √Real.pi := by
      rw [ghWeight1d_eq]
      have := Nat.factorial_pos (n + 1)
      positivity
    exact (div_pos_iff_of_pos_right hpi).1 this
  exact h1 c

theorem expectation_perm (sg : SigmaPoints dx) {σ : Equiv.Perm (Fin sg.nPoints)} (hσ : ∀ i, sg.w (σ i) = sg.w i)
    {V : Type} [AddCommMonoid V] [Module ℝ V] (e : Fin sg.nPoints → V) :
    sg.expectation (fun i => e (σ i)) = sg.expectation e := by
  rw [SigmaPoints.expectation, SigmaPoints.expectation]
  refine Fintype.sum_equiv σ _ _ fun i => ?_
  rw [hσ]

/-- reflection of a belief. -/
def negBelief (b : Belief dx) : Belief dx := (-b.1, b.2)

theorem chi_neg (sg : SigmaPoints dx) {σ : Equiv.Perm (Fin sg.nPoints)} (hσ : ∀ i, sg.xi (σ i) = -sg.xi i) (m : Fin dx → ℝ)
    (L : Matrix (Fin dx) (Fin dx) ℝ) (i) : sg.genSigmaPoints (-m) L i = -sg.genSigmaPoints m L (σ i) := by
  simp only [SigmaPoints.genSigmaPoints, hσ, mulVec_neg]
  abel

theorem expectation_neg' (sg : SigmaPoints dx) {V : Type} [AddCommGroup V] [Module ℝ V] (e : Fin sg.nPoints → V) :
    sg.expectation (fun i => -e i) = -sg.expectation e := by
  simp only [SigmaPoints.expectation, smul_neg, Finset.sum_neg_distrib]

theorem sgpPrediction_neg (B : Backend) (sg : SigmaPoints dx) (hsym : SymmPoints sg) (state : (Fin dx → ℝ) → ℝ → Belief dx) (dt : ℝ)
    (hs : ∀ x, state (-x) dt = negBelief (state x dt)) (f : Belief dx) :
    (sgpPrediction B sg state dt (negBelief f)).1 = negBelief (sgpPrediction B sg state dt f).1 := by
  obtain ⟨σ, hσ⟩ := hsym
  have hc := chi_neg sg (fun i => (hσ i).2) f.1 (B.chol (symmetrize f.2))
  have hw := fun i => (hσ i).1
  simp only [sgpPrediction, negBelief, hc, hs]
  have h1 : sg.expectation (fun i => -(state (sg.genSigmaPoints f.1 (B.chol (symmetrize f.2)) (σ i)) dt).1)
      = -sg.expectation fun i => (state (sg.genSigmaPoints f.1 (B.chol (symmetrize f.2)) i) dt).1 := by
    rw [expectation_neg', expectation_perm sg hw fun i => (state (sg.genSigmaPoints f.1 (B.chol (symmetrize f.2)) i) dt).1]
  refine Prod.ext h1 ?_
  simp only [h1, neg_vecMulVec, vecMulVec_neg, neg_neg]
  congr 1
  exact expectation_perm sg hw fun i => vecMulVec (state (sg.genSigmaPoints f.1 (B.chol (symmetrize f.2)) i) dt).1
    (state (sg.genSigmaPoints f.1 (B.chol (symmetrize f.2)) i) dt).1 + (state (sg.genSigmaPoints f.1 (B.chol (symmetrize f.2)) i) dt).2

theorem sgpUpdate_neg (B : Backend) (sg : SigmaPoints dx) (hsym : SymmPoints sg) (hw1 : ∑ i, sg.w i = 1)
    (meas : (Fin dx → ℝ) → (Fin dy → ℝ) × Matrix (Fin dy) (Fin dy) ℝ) (c : Fin dy → ℝ) (hm : ∀ x, (meas (-x)).1 = c - (meas x).1)
    (hm2 : ∀ x, (meas (-x)).2 = (meas x).2) (p : Belief dx) (y : Fin dy → ℝ) :
    sgpUpdate B sg meas (negBelief p) (c - y) false = (negBelief (sgpUpdate B sg meas p y false).1, (sgpUpdate B sg meas p y false).2) := by
  obtain ⟨σ, hσ⟩ := hsym
  have hw := fun i => (hσ i).1
  have hxi : sg.expectation sg.xi = 0 := by
    have h1 : sg.expectation (fun i => sg.xi (σ i)) = sg.expectation sg.xi := expectation_perm sg hw sg.xi
    simp only [(hσ _).2] at h1
    rw [expectation_neg'] at h1
    have h2 : (2 : ℝ) • sg.expectation sg.xi = 0 := by
      rw [two_smul]
      nth_rewrite 1 [← h1]
      exact neg_add_cancel _
    exact (smul_eq_zero.1 h2).resolve_left two_ne_zero
  have hc := chi_neg sg (fun i => (hσ i).2) p.1 (B.chol (symmetrize p.2))
  have hchi : sg.expectation (sg.genSigmaPoints p.1 (B.chol (symmetrize p.2))) = p.1 := by
    have : sg.genSigmaPoints p.1 (B.chol (symmetrize p.2)) = fun i => p.1 + B.chol (symmetrize p.2) *ᵥ sg.xi i := rfl
    rw [this, expectation_add, Mfs.Classical.expectation_const sg hw1, expectation_mulVec]
    have h0 : sg.expectation (fun i => sg.xi i) = 0 := hxi
    rw [h0, mulVec_zero, add_zero]
  generalize hX : sg.genSigmaPoints p.1 (B.chol (symmetrize p.2)) = chi at hc hchi
  have hpred : sg.expectation (fun i => c - (meas (chi (σ i))).1) = c - sg.expectation fun i => (meas (chi i)).1 := by
    have := expectation_perm sg hw fun i => c - (meas (chi i)).1
    rw [this]
    simp only [SigmaPoints.expectation, smul_sub, Finset.sum_sub_distrib, ← Finset.sum_smul, hw1, one_smul]
  have hS : sg.expectation (fun i => vecMulVec (c - (meas (chi (σ i))).1) (c - (meas (chi (σ i))).1) + (meas (chi (σ i))).2)
        - vecMulVec (c - sg.expectation fun i => (meas (chi i)).1) (c - sg.expectation fun i => (meas (chi i)).1)
      = sg.expectation (fun i => vecMulVec (meas (chi i)).1 (meas (chi i)).1 + (meas (chi i)).2)
        - vecMulVec (sg.expectation fun i => (meas (chi i)).1) (sg.expectation fun i => (meas (chi i)).1) := by
    rw [expectation_perm sg hw fun i => vecMulVec (c - (meas (chi i)).1) (c - (meas (chi i)).1) + (meas (chi i)).2]
    ext a b
    have e1 : ∀ i, sg.w i * ((c a - (meas (chi i)).1 a) * (c b - (meas (chi i)).1 b) + (meas (chi i)).2 a b)
        = sg.w i * (c a * c b) - c a * (sg.w i * (meas (chi i)).1 b) - c b * (sg.w i * (meas (chi i)).1 a)
          + sg.w i * ((meas (chi i)).1 a * (meas (chi i)).1 b + (meas (chi i)).2 a b) := fun i => by ring
    simp only [SigmaPoints.expectation, Matrix.sub_apply, Matrix.sum_apply, Matrix.smul_apply, Matrix.add_apply, vecMulVec_apply, Pi.sub_apply,
      Finset.sum_apply, Pi.smul_apply, smul_eq_mul, e1, Finset.sum_add_distrib, Finset.sum_sub_distrib, ← Finset.sum_mul, ← Finset.mul_sum, hw1]
    ring
  have hC : sg.expectation (fun i => vecMulVec (-chi (σ i)) (c - (meas (chi (σ i))).1))
        - vecMulVec (-p.1) (c - sg.expectation fun i => (meas (chi i)).1)
      = sg.expectation (fun i => vecMulVec (chi i) (meas (chi i)).1)
        - vecMulVec p.1 (sg.expectation fun i => (meas (chi i)).1) := by
    rw [expectation_perm sg hw fun i => vecMulVec (-chi i) (c - (meas (chi i)).1)]
    ext a b
    have e1 : ∀ i, sg.w i * (-chi i a * (c b - (meas (chi i)).1 b))
        = -(sg.w i * chi i a * c b) + sg.w i * (chi i a * (meas (chi i)).1 b) := fun i => by ring
    have e2 : ∑ i, sg.w i * chi i a = p.1 a := by
      have := congrFun hchi a
      simpa [SigmaPoints.expectation, Finset.sum_apply] using this
    simp only [SigmaPoints.expectation, Matrix.sub_apply, Matrix.sum_apply, Matrix.smul_apply, vecMulVec_apply, Pi.sub_apply, Pi.neg_apply,
      Finset.sum_apply, Pi.smul_apply, smul_eq_mul, e1, Finset.sum_add_distrib, Finset.sum_neg_distrib, ← Finset.sum_mul, e2]
    ring
  have hn : ∀ (mu : Fin dy → ℝ) (L : Matrix (Fin dy) (Fin dy) ℝ), logMvnPdf (c - y) (c - mu) L = logMvnPdf y mu L := by
    intro mu L
    have : (c - y) - (c - mu) = -(y - mu) := by abel
    simp only [logMvnPdf, triSolveDefaultVec, this, neg_vecMul, neg_dotProduct, dotProduct_neg, neg_neg]
  simp only [sgpUpdate, negBelief, hX, hc, hm, hm2, hpred, hS, hC, hn, Bool.false_eq_true, if_false]
  refine Prod.ext (Prod.ext ?_ rfl) rfl
  simp only
  rw [show (c - y) - (c - sg.expectation fun i => (meas (chi i)).1) = -(y - sg.expectation fun i => (meas (chi i)).1) by abel, mulVec_neg,
    neg_add]

theorem scan_neg {Y : Type} (fl : Y → Y) (pr : Belief dx → Belief dx) (up : Belief dx → Y → Belief dx × ℝ)
    (hp : ∀ b, pr (negBelief b) = negBelief (pr b)) (hu : ∀ b y, up (negBelief b) (fl y) = (negBelief (up b y).1, (up b y).2))
    (s : Belief dx × ℝ) (ys : List Y) :
    (scan (filterBody pr up) (negBelief s.1, s.2) (ys.map fl)).2 = (scan (filterBody pr up) s ys).2.map fun o => (negBelief o.1, o.2) := by
  induction ys generalizing s with
  | nil => rfl
  | cons y ys ih =>
    have hs : filterBody pr up (negBelief s.1, s.2) (fl y)
        = ((negBelief (filterBody pr up s y).1.1, (filterBody pr up s y).1.2), (negBelief (filterBody pr up s y).2.1, (filterBody pr up s y).2.2)) := by
      simp only [filterBody, hp, hu]
    simp only [List.map_cons, scan, hs, ih]

/-- **C190 (reflection, sigma-point filters).** Let the transition be odd in the mean and even in the covariance, and let the conditional mean
of the measurement satisfy `h(-x) = c - h(x)`, with even covariance. With symmetric sigma points, reflecting the initial mean and replacing
every measurement `y` by `c - y` reflects the means of `sgp_filter` and changes neither covariances nor likelihoods. -/
theorem C190_sgp_reflection (B : Backend) (sg : SigmaPoints dx) (hsym : SymmPoints sg) (hw1 : ∑ i, sg.w i = 1)
    (state : (Fin dx → ℝ) → ℝ → Belief dx) (dt : ℝ) (hs : ∀ x, state (-x) dt = (-(state x dt).1, (state x dt).2))
    (meas : (Fin dx → ℝ) → (Fin dy → ℝ) × Matrix (Fin dy) (Fin dy) ℝ) (c : Fin dy → ℝ)
    (hm : ∀ x, meas (-x) = (c - (meas x).1, (meas x).2)) (m0 : Fin dx → ℝ) (v0 : Matrix (Fin dx) (Fin dx) ℝ) (ys : List (Fin dy → ℝ)) :
    sgpFilter B state meas sg (-m0) v0 dt (ys.map fun y => c - y)
      = (sgpFilter B state meas sg m0 v0 dt ys).map fun o => ((-o.1.1, o.1.2), o.2) :=
  scan_neg (fun y => c - y) _ _ (fun b => sgpPrediction_neg B sg hsym state dt hs b)
    (fun b y => sgpUpdate_neg B sg hsym hw1 meas c (fun x => by rw [hm]) (fun x => by rw [hm]) b y) ((m0, v0), 0) ys

theorem ghfState_neg (order : ℕ) (ho : 1 ≤ order) (dt : ℝ) (hdt : 0 < dt) (x : Fin 1 → ℝ) :
    ghfState order (-x) dt = (-(ghfState order x dt).1, (ghfState order x dt).2) := by
  rw [ghfState, ghfState, (C153_benes_mean_cov dt hdt order ho _).1, (C153_benes_mean_cov dt hdt order ho _).1]
  refine Prod.ext (funext fun i => ?_) ?_
  · simp; ring
  · simp

theorem ghfMeas_neg (x : Fin 1 → ℝ) : ghfMeas (-x) = ((fun _ => 1) - (ghfMeas x).1, (ghfMeas x).2) := by
  rw [ghfMeas, ghfMeas]
  have h : logistic ((-x) 0) = 1 - logistic (x 0) := logistic_neg (x 0)
  simp only [h]
  refine Prod.ext rfl ?_
  ext i j
  simp only [Matrix.of_apply]
  ring

/-- **C190 (reflection, Gauss–Hermite filter).** Flipping every measurement of the Beneš–Bernoulli experiment reflects the means of the
Gauss–Hermite filter and leaves variances and likelihoods. -/
theorem C190_ghf_reflection (B : Backend) (gh : ℕ) (hgh : 2 ≤ gh) (roots : ℕ → ℝ)
    (hinj : ∀ i j, i < gh → j < gh → roots i = roots j → i = j)
    (hroot : ∀ j, j < gh → polyval ((genHermitePolyCoeff gh).getLastD []) (roots j) = 0)
    (order : ℕ) (ho : 1 ≤ order) (dt : ℝ) (hdt : 0 < dt) (v0 : Matrix (Fin 1) (Fin 1) ℝ) (ys : List Bool) :
    sgpFilter B (ghfState order) ghfMeas (SigmaPoints.gaussHermite 1 gh roots) 0 v0 dt (ghfYs (ys.map not))
      = (sgpFilter B (ghfState order) ghfMeas (SigmaPoints.gaussHermite 1 gh roots) 0 v0 dt (ghfYs ys)).map
          fun o => ((-o.1.1, o.1.2), o.2) := by
  have := C190_sgp_reflection B (SigmaPoints.gaussHermite 1 gh roots) (gaussHermite_symm 1 gh roots hinj hroot)
    (C74_second_order 1 gh hgh roots hinj hroot).total (ghfState order) dt (ghfState_neg order ho dt hdt) ghfMeas _ ghfMeas_neg 0 v0 (ghfYs ys)
  rw [neg_zero] at this
  rw [← this]
  congr 1
  rw [ghfYs, ghfYs, List.map_map, List.map_map]
  refine List.map_congr_left fun y _ => ?_
  funext i
  cases y <;> simp

theorem logistic_gt {x : ℝ} (hx : x ≠ 0) : 0 < x * (logistic x - 1 / 2) := by
  have key : ∀ z : ℝ, 0 < z → 1 / 2 < logistic z := by
    intro z hz
    have h3 : 0 < z ^ 3 := by positivity
    have h1 : Real.exp (-z ^ 3 / 5) < 1 := by
      rw [← Real.exp_zero]
      exact Real.exp_lt_exp.2 (by linarith)
    rw [logistic, div_lt_div_iff₀ two_pos (by positivity)]
    linarith
  rcases lt_or_gt_of_ne hx with h | h
  · have h1 := key (-x) (by linarith)
    rw [logistic_neg] at h1
    nlinarith
  · have h1 := key x h
    nlinarith

/-- one update of the sigma-point filter from a belief that is centred at the origin. -/
theorem sgpUpdate_centred (B : Backend) (hB : B.Valid) (sg : SigmaPoints 1) (hsym : SymmPoints sg) (h2 : SecondOrder sg.w sg.xi)
    (hw : ∀ i, 0 < sg.w i) (vp : ℝ) (hvp : 0 < vp) (C : ℝ)
    (hC : C = ∑ i, sg.w i * (√vp * sg.xi i 0 * logistic (√vp * sg.xi i 0))) (y : ℝ) :
    0 < C ∧ 4 * C ^ 2 < vp ∧
    (sgpUpdate B sg ghfMeas (0, Matrix.of fun _ _ => vp) (fun _ => y) false).1
      = (fun _ => 4 * C * (y - 1 / 2), Matrix.of fun _ _ => vp - 4 * C ^ 2) := by
  obtain ⟨σ, hσ⟩ := hsym
  have hsv : 0 < √vp := Real.sqrt_pos.2 hvp
  have hhalf : ∑ i, sg.w i * logistic (√vp * sg.xi i 0) = 1 / 2 := by
    have h1 : ∑ i, sg.w i * logistic (√vp * sg.xi i 0) = ∑ i, sg.w i * (1 - logistic (√vp * sg.xi i 0)) := by
      rw [← Equiv.sum_comp σ]
      refine Finset.sum_congr rfl fun i _ => ?_
      rw [(hσ i).1, (hσ i).2, Pi.neg_apply, mul_neg, logistic_neg]
    simp only [mul_sub, Finset.sum_sub_distrib, mul_one, h2.total] at h1
    linarith
  have hx0 : ∑ i, sg.w i * (√vp * sg.xi i 0) = 0 := by
    have : ∀ i, sg.w i * (√vp * sg.xi i 0) = √vp * (sg.w i * sg.xi i 0) := fun i => by ring
    simp only [this, ← Finset.mul_sum, h2.mean, mul_zero]
  have hx2 : ∑ i, sg.w i * (√vp * sg.xi i 0) ^ 2 = vp := by
    have : ∀ i, sg.w i * (√vp * sg.xi i 0) ^ 2 = √vp ^ 2 * (sg.w i * (sg.xi i 0 * sg.xi i 0)) := fun i => by ring
    simp only [this, ← Finset.mul_sum, h2.cov, if_true, mul_one]
    exact Real.sq_sqrt hvp.le
  have hC2 : C = ∑ i, sg.w i * (√vp * sg.xi i 0 * (logistic (√vp * sg.xi i 0) - 1 / 2)) := by
    have : ∀ i, sg.w i * (√vp * sg.xi i 0 * (logistic (√vp * sg.xi i 0) - 1 / 2))
        = sg.w i * (√vp * sg.xi i 0 * logistic (√vp * sg.xi i 0)) - 1 / 2 * (sg.w i * (√vp * sg.xi i 0)) := fun i => by ring
    simp only [this, Finset.sum_sub_distrib, ← Finset.mul_sum, hx0, mul_zero, sub_zero]
    exact hC
  have hne : ∃ i, sg.xi i 0 ≠ 0 := by
    by_contra h
    push Not at h
    simp [h] at hx2
    linarith
  have hCpos : 0 < C := by
    rw [hC2]
    refine Finset.sum_pos' (fun i _ => ?_) ?_
    · rcases eq_or_ne (√vp * sg.xi i 0) 0 with h | h
      · simp [h]
      · exact (mul_pos (hw i) (logistic_gt h)).le
    · obtain ⟨i, hi⟩ := hne
      exact ⟨i, Finset.mem_univ i, mul_pos (hw i) (logistic_gt (mul_ne_zero hsv.ne' hi))⟩
  have hquart : ∑ i, sg.w i * (logistic (√vp * sg.xi i 0) - 1 / 2) ^ 2 < 1 / 4 := by
    have hn : (Finset.univ : Finset (Fin sg.nPoints)).Nonempty := by
      obtain ⟨i, _⟩ := hne
      exact ⟨i, Finset.mem_univ i⟩
    have : ∑ i, sg.w i * (logistic (√vp * sg.xi i 0) - 1 / 2) ^ 2 < ∑ i, sg.w i * (1 / 4) := by
      refine Finset.sum_lt_sum_of_nonempty hn fun i _ => mul_lt_mul_of_pos_left ?_ (hw i)
      obtain ⟨h0, h1⟩ := logistic_pos (√vp * sg.xi i 0)
      nlinarith
    rwa [← Finset.sum_mul, h2.total, one_mul] at this
  have hCv : 4 * C ^ 2 < vp := by
    have h0 : 0 ≤ ∑ i, sg.w i * (√vp * sg.xi i 0 - 4 * C * (logistic (√vp * sg.xi i 0) - 1 / 2)) ^ 2 :=
      Finset.sum_nonneg fun i _ => mul_nonneg (hw i).le (sq_nonneg _)
    have e : ∀ i, sg.w i * (√vp * sg.xi i 0 - 4 * C * (logistic (√vp * sg.xi i 0) - 1 / 2)) ^ 2
        = sg.w i * (√vp * sg.xi i 0) ^ 2 - 8 * C * (sg.w i * (√vp * sg.xi i 0 * (logistic (√vp * sg.xi i 0) - 1 / 2)))
          + 16 * C ^ 2 * (sg.w i * (logistic (√vp * sg.xi i 0) - 1 / 2) ^ 2) := fun i => by ring
    simp only [e, Finset.sum_add_distrib, Finset.sum_sub_distrib, ← Finset.mul_sum, hx2, ← hC2] at h0
    nlinarith [sq_pos_of_pos hCpos]
  refine ⟨hCpos, hCv, ?_⟩
  have hpdv : (Matrix.of fun _ _ : Fin 1 => vp).PosDef := by
    have : (Matrix.of fun _ _ : Fin 1 => vp) = Matrix.diagonal fun _ => vp := by
      ext i j; rw [Subsingleton.elim i 0, Subsingleton.elim j 0]; simp
    rw [this]
    exact Matrix.PosDef.diagonal fun _ => hvp
  have hpds : (Matrix.of fun _ _ : Fin 1 => (1 / 4 : ℝ)).PosDef := by
    have : (Matrix.of fun _ _ : Fin 1 => (1 / 4 : ℝ)) = Matrix.diagonal fun _ => (1 / 4 : ℝ) := by
      ext i j; rw [Subsingleton.elim i 0, Subsingleton.elim j 0]; simp
    rw [this]
    exact Matrix.PosDef.diagonal fun _ => by norm_num
  have hL : B.chol (symmetrize (Matrix.of fun _ _ : Fin 1 => vp)) 0 0 = √vp := by
    have h := chol_symm hB hpdv
    have h1 := congrFun (congrFun h.mul_transpose 0) 0
    rw [Matrix.mul_apply, Fin.sum_univ_one, Matrix.transpose_apply, Matrix.of_apply] at h1
    have h3 := Real.sqrt_mul_self (h.diag_pos 0).le
    rw [h1] at h3
    exact h3.symm
  have hchi : ∀ i, sg.genSigmaPoints 0 (B.chol (symmetrize (Matrix.of fun _ _ : Fin 1 => vp))) i = fun _ => √vp * sg.xi i 0 := by
    intro i
    funext j
    rw [Subsingleton.elim j 0, SigmaPoints.genSigmaPoints, zero_add, Matrix.mulVec, dotProduct, Fin.sum_univ_one, hL]
  have hpred : sg.expectation (fun i => (ghfMeas fun _ => √vp * sg.xi i 0).1) = fun _ => 1 / 2 := by
    funext j
    simp only [SigmaPoints.expectation, Finset.sum_apply, Pi.smul_apply, smul_eq_mul, ghfMeas]
    exact hhalf
  have hS : sg.expectation (fun i => vecMulVec (ghfMeas fun _ => √vp * sg.xi i 0).1 (ghfMeas fun _ => √vp * sg.xi i 0).1
        + (ghfMeas fun _ => √vp * sg.xi i 0).2) - vecMulVec (fun _ => 1 / 2) (fun _ => 1 / 2) = Matrix.of fun _ _ : Fin 1 => (1 / 4 : ℝ) := by
    ext a b
    have e : ∀ i, sg.w i * (logistic (√vp * sg.xi i 0) * logistic (√vp * sg.xi i 0)
        + logistic (√vp * sg.xi i 0) * (1 - logistic (√vp * sg.xi i 0))) = sg.w i * logistic (√vp * sg.xi i 0) := fun i => by ring
    simp only [SigmaPoints.expectation, Matrix.sub_apply, Matrix.sum_apply, Matrix.smul_apply, Matrix.add_apply, vecMulVec_apply,
      smul_eq_mul, ghfMeas, Matrix.of_apply, e, hhalf]
    norm_num
  have hCm : sg.expectation (fun i => vecMulVec (fun _ : Fin 1 => √vp * sg.xi i 0) (ghfMeas fun _ => √vp * sg.xi i 0).1)
      - vecMulVec (0 : Fin 1 → ℝ) (fun _ : Fin 1 => (1 / 2 : ℝ)) = Matrix.of fun _ _ : Fin 1 => C := by
    ext a b
    simp only [SigmaPoints.expectation, Matrix.sub_apply, Matrix.sum_apply, Matrix.smul_apply, vecMulVec_apply,
      smul_eq_mul, ghfMeas, Matrix.of_apply, Pi.zero_apply, zero_mul, sub_zero]
    exact hC.symm
  have hinv : (Matrix.of fun _ _ : Fin 1 => (1 / 4 : ℝ))⁻¹ = Matrix.of fun _ _ : Fin 1 => (4 : ℝ) := by
    apply Matrix.inv_eq_right_inv
    ext i j
    rw [Subsingleton.elim i 0, Subsingleton.elim j 0]
    simp [Matrix.mul_apply]
  simp only [sgpUpdate, hchi, hpred, hS, hCm, Bool.false_eq_true, if_false, choSolve_eq (chol_symm hB hpds), hinv]
  refine Prod.ext ?_ ?_
  · funext j
    rw [Subsingleton.elim j 0]
    simp only [Pi.add_apply, Pi.zero_apply, Matrix.mulVec, dotProduct, Fin.sum_univ_one, Matrix.transpose_apply, Matrix.mul_apply,
      Matrix.of_apply, Pi.sub_apply]
    ring
  · ext i j
    rw [Subsingleton.elim i 0, Subsingleton.elim j 0]
    simp only [Matrix.sub_apply, Fin.sum_univ_one, Matrix.transpose_apply, Matrix.mul_apply, Matrix.of_apply]
    ring

theorem sgpPrediction_centred (B : Backend) (hB : B.Valid) (sg : SigmaPoints 1) (hsym : SymmPoints sg) (h2 : SecondOrder sg.w sg.xi)
    (hw : ∀ i, 0 < sg.w i) (order : ℕ) (ho : 2 ≤ order) (dt : ℝ) (hdt : 0 < dt) (v0 : ℝ) (hv0 : 0 < v0) :
    ∃ vp : ℝ, 0 < vp ∧ vp = ∑ i, sg.w i * ((√v0 * sg.xi i 0 + Real.tanh (√v0 * sg.xi i 0) * dt) ^ 2
        + (dt + (1 - Real.tanh (√v0 * sg.xi i 0) ^ 2) * dt ^ 2)) ∧
      (sgpPrediction B sg (ghfState order) dt (0, Matrix.of fun _ _ => v0)).1 = (0, Matrix.of fun _ _ => vp) := by
  have hneg := sgpPrediction_neg B sg hsym (ghfState order) dt (ghfState_neg order (by omega) dt hdt) (0, Matrix.of fun _ _ => v0)
  have hpdv : (Matrix.of fun _ _ : Fin 1 => v0).PosDef := by
    have : (Matrix.of fun _ _ : Fin 1 => v0) = Matrix.diagonal fun _ => v0 := by
      ext i j; rw [Subsingleton.elim i 0, Subsingleton.elim j 0]; simp
    rw [this]
    exact Matrix.PosDef.diagonal fun _ => hv0
  have hL : B.chol (symmetrize (Matrix.of fun _ _ : Fin 1 => v0)) 0 0 = √v0 := by
    have h := chol_symm hB hpdv
    have h1 := congrFun (congrFun h.mul_transpose 0) 0
    rw [Matrix.mul_apply, Fin.sum_univ_one, Matrix.transpose_apply, Matrix.of_apply] at h1
    have h3 := Real.sqrt_mul_self (h.diag_pos 0).le
    rw [h1] at h3
    exact h3.symm
  have hchi : ∀ i, sg.genSigmaPoints 0 (B.chol (symmetrize (Matrix.of fun _ _ : Fin 1 => v0))) i = fun _ => √v0 * sg.xi i 0 := by
    intro i
    funext j
    rw [Subsingleton.elim j 0, SigmaPoints.genSigmaPoints, zero_add, Matrix.mulVec, dotProduct, Fin.sum_univ_one, hL]
  have hm : (sgpPrediction B sg (ghfState order) dt (0, Matrix.of fun _ _ => v0)).1.1 = 0 := by
    have h := congrArg Prod.fst hneg
    simp only [negBelief, neg_zero] at h
    funext j
    have := congrFun h j
    rw [Pi.neg_apply] at this
    rw [Pi.zero_apply]
    linarith
  have hst : ∀ x : Fin 1 → ℝ, ghfState order x dt = (fun _ => x 0 + Real.tanh (x 0) * dt, Matrix.of fun _ _ => dt + (1 - Real.tanh (x 0) ^ 2) * dt ^ 2) := by
    intro x
    rw [ghfState, (C153_benes_mean_cov dt hdt order (by omega) (x 0)).1, if_neg (by omega)]
  refine ⟨_, ?_, rfl, Prod.ext hm ?_⟩
  · have hn : (Finset.univ : Finset (Fin sg.nPoints)).Nonempty := by
      by_contra h
      rw [Finset.not_nonempty_iff_eq_empty] at h
      have := h2.total
      rw [h, Finset.sum_empty] at this
      exact zero_ne_one this
    refine Finset.sum_pos (fun i _ => mul_pos (hw i) ?_) hn
    have : Real.tanh (√v0 * sg.xi i 0) ^ 2 < 1 := Real.tanh_sq_lt_one _
    have h3 : 0 < (1 - Real.tanh (√v0 * sg.xi i 0) ^ 2) * dt ^ 2 := mul_pos (by linarith) (by positivity)
    positivity
  · have hm' := hm
    simp only [sgpPrediction, hchi, hst] at hm' ⊢
    rw [hm']
    ext a b
    simp only [SigmaPoints.expectation, Matrix.sub_apply, Matrix.sum_apply, Matrix.smul_apply, Matrix.add_apply, vecMulVec_apply,
      smul_eq_mul, Matrix.of_apply, Pi.zero_apply, zero_mul, sub_zero]
    exact Finset.sum_congr rfl fun i _ => by ring

/-- **C190 (Gauss–Hermite filter).** The Gauss–Hermite filter of the script does not ignore the data: for every initial variance there is
`c > 0` such that its first filtering mean is `c` after a measurement `1` and `-c` after a measurement `0`, and the filtering variance is
positive and smaller than the predicted one. -/
theorem C190_ghf_responds (B : Backend) (hB : B.Valid) (gh : ℕ) (hgh : 2 ≤ gh) (roots : ℕ → ℝ)
    (hinj : ∀ i j, i < gh → j < gh → roots i = roots j → i = j)
    (hroot : ∀ j, j < gh → polyval ((genHermitePolyCoeff gh).getLastD []) (roots j) = 0)
    (order : ℕ) (ho : 2 ≤ order) (dt : ℝ) (hdt : 0 < dt) (v0 : ℝ) (hv0 : 0 < v0) :
    ∃ vp c : ℝ, 0 < c ∧ c ^ 2 < vp ∧ ∀ (y : Bool) (ys : List Bool), ∃ n : ℝ,
      (sgpFilter B (ghfState order) ghfMeas (SigmaPoints.gaussHermite 1 gh roots) 0 (Matrix.of fun _ _ => v0) dt (ghfYs (y :: ys))).head?
        = some ((fun _ => if y then c else -c, Matrix.of fun _ _ => vp - c ^ 2), n) := by
  have h2 := C74_second_order 1 gh hgh roots hinj hroot
  have hsym := gaussHermite_symm 1 gh roots hinj hroot
  have hw : ∀ i, 0 < (SigmaPoints.gaussHermite 1 gh roots).w i := gaussHermite_w_pos 1 gh roots hinj hroot
  generalize SigmaPoints.gaussHermite 1 gh roots = sg at h2 hsym hw ⊢
  obtain ⟨vp, hvp, -, hpr⟩ := sgpPrediction_centred B hB sg hsym h2 hw order ho dt hdt v0 hv0
  have hu := sgpUpdate_centred B hB sg hsym h2 hw vp hvp _ rfl
  set C := ∑ i, sg.w i * (√vp * sg.xi i 0 * logistic (√vp * sg.xi i 0))
  refine ⟨vp, 2 * C, by linarith [(hu 0).1], by nlinarith [(hu 0).2.1], fun y ys => ?_⟩
  have hy : ghfYs (y :: ys) = (fun _ => if y then 1 else 0) :: ghfYs ys := rfl
  refine ⟨0 + (sgpUpdate B sg ghfMeas (0, Matrix.of fun _ _ => vp) (fun _ => if y then 1 else 0) false).2, ?_⟩
  rw [hy, sgpFilter]
  simp only [scan, filterBody, List.head?_cons, hpr, (hu _).2.2]
  refine congrArg some (Prod.ext (Prod.ext (funext fun i => ?_) ?_) rfl)
  · cases y <;> simp <;> ring
  · ext i j
    simp only [Matrix.of_apply]
    ring

/-- the hypotheses at the default order 11 of the script. -/
example : ∃ roots : ℕ → ℝ, (∀ i j, i < 11 → j < 11 → roots i = roots j → i = j) ∧
    (∀ j, j < 11 → polyval ((genHermitePolyCoeff 11).getLastD []) (roots j) = 0) ∧ ∃ B : Backend, B.Valid := by
  obtain ⟨roots, h1, h2⟩ := C74_roots_exist 11
  exact ⟨roots, h1, h2, _, theBackend_valid⟩

end Mfs.Props

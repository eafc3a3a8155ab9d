import Verif.Model.Gaussian
import Verif.Lemmas.Kalman
import Verif.Lemmas.Tri
import Verif.Lemmas.Backend
import Mathlib.Analysis.Calculus.FDeriv.Linear
import Mathlib.Analysis.Calculus.FDeriv.Pi
import Mathlib.Analysis.Normed.Module.FiniteDimension
import Mathlib.Tactic.LinearCombination
import Mathlib.Tactic.FieldSimp

/-!
# Lemmas on the Gaussian filters
-/

namespace Mfs.Classical

open Matrix Mfs.Spec

variable {dx dy n : ℕ}

theorem symmetrize_psd {P : Matrix (Fin n) (Fin n) ℝ} (h : P.PosSemidef) : symmetrize P = P := symmetrize_eq h.symm

theorem chol_symm {B : Backend} (hB : B.Valid) {P : Matrix (Fin n) (Fin n) ℝ} (h : P.PosDef) : IsChol P (B.chol (symmetrize P)) := by
  rw [symmetrize_psd h.posSemidef]; exact hB.chol P h

theorem choSolve_eq {k : ℕ} {S L : Matrix (Fin n) (Fin n) ℝ} (h : IsChol S L) (b : Matrix (Fin n) (Fin k) ℝ) :
    choSolve L b = S⁻¹ * b := by
  rw [choSolve, lowerPart_eq h.lower, ← h.mul_transpose, Matrix.mul_inv_rev, Matrix.mul_assoc]

theorem upperPart_lower {L : Matrix (Fin n) (Fin n) ℝ} (h : IsLower L) : upperPart L = Matrix.diagonal fun i => L i i := by
  ext i j
  rw [upperPart, Matrix.of_apply]
  by_cases e : i = j
  · subst e; simp
  · rw [Matrix.diagonal_apply_ne _ e]
    by_cases hle : i ≤ j
    · rw [if_pos hle, h i j (lt_of_le_of_ne hle e)]
    · rw [if_neg hle]

theorem diagonal_inv {v : Fin n → ℝ} (h : ∀ i, v i ≠ 0) : (Matrix.diagonal v)⁻¹ = Matrix.diagonal fun i => (v i)⁻¹ := by
  apply Matrix.inv_eq_right_inv
  rw [Matrix.diagonal_mul_diagonal, ← Matrix.diagonal_one]
  congr 1; ext i; exact mul_inv_cancel₀ (h i)

/-- what `_log_mvn_pdf` computes: only the diagonal of the Cholesky factor matters. -/
theorem exp_logMvnPdf (x mu : Fin n → ℝ) {L : Matrix (Fin n) (Fin n) ℝ} (h : IsLower L) (hd : ∀ i, 0 < L i i) :
    Real.exp (logMvnPdf x mu L) = mvnPdf mu (Matrix.diagonal fun i => L i i ^ 2) x := by
  have hz : triSolveDefaultVec L (x - mu) = fun i => (x i - mu i) / L i i := by
    rw [triSolveDefaultVec, upperPart_lower h, diagonal_inv (fun i => (hd i).ne')]
    ext i
    rw [Matrix.vecMul_diagonal, Pi.sub_apply, div_eq_mul_inv]
  rw [mvnPdf, Matrix.det_diagonal, diagonal_inv (fun i => pow_ne_zero 2 (hd i).ne')]
  have hq : (x - mu) ⬝ᵥ (Matrix.diagonal fun i => (L i i ^ 2)⁻¹) *ᵥ (x - mu) = ∑ i, ((x i - mu i) / L i i) ^ 2 := by
    rw [dotProduct]
    refine Finset.sum_congr rfl fun i _ => ?_
    rw [Matrix.mulVec_diagonal, Pi.sub_apply, div_pow]; field_simp
  have hn : Real.sqrt ((2 * Real.pi) ^ n * ∏ i, L i i ^ 2) = ∏ i, (Real.sqrt (2 * Real.pi) * L i i) := by
    have e : (2 * Real.pi) ^ n * ∏ i, L i i ^ 2 = (∏ i, (Real.sqrt (2 * Real.pi) * L i i)) ^ 2 := by
      rw [Finset.prod_mul_distrib, Finset.prod_const, Finset.card_univ, Fintype.card_fin, mul_pow (Real.sqrt (2 * Real.pi) ^ n),
        ← pow_mul, mul_comm n 2, pow_mul, Real.sq_sqrt (by positivity), Finset.prod_pow]
    rw [e, Real.sqrt_sq]
    exact Finset.prod_nonneg fun i _ => by have := hd i; positivity
  rw [hq, hn, logMvnPdf]
  simp only [hz]
  rw [← Real.log_prod (fun i _ => by have := hd i; positivity)]
  have hp : 0 < ∏ i, (Real.sqrt (2 * Real.pi) * L i i) := Finset.prod_pos fun i _ => by have := hd i; positivity
  have hdp : (fun i => (x i - mu i) / L i i) ⬝ᵥ (fun i => (x i - mu i) / L i i) = ∑ i, ((x i - mu i) / L i i) ^ 2 := by
    rw [dotProduct]; exact Finset.sum_congr rfl fun i _ => (sq _).symm
  rw [hdp, show -0.5 * (∑ i, ((x i - mu i) / L i i) ^ 2 + 2 * Real.log (∏ i, (Real.sqrt (2 * Real.pi) * L i i)))
    = -(∑ i, ((x i - mu i) / L i i) ^ 2) / 2 - Real.log (∏ i, (Real.sqrt (2 * Real.pi) * L i i)) by ring, Real.exp_sub, Real.exp_log hp]

/-- scalar case of the normal density. -/
theorem exp_logNormalPdf (x mu v : ℝ) (hv : 0 < v) : Real.exp (logNormalPdf x mu v)
    = mvnPdf (n := 1) (fun _ => mu) (Matrix.of fun _ _ => v) (fun _ => x) := by
  have hd : (Matrix.of fun (_ _ : Fin 1) => v) = Matrix.diagonal fun _ => v := by
    ext i j; rw [Subsingleton.elim i j]; simp
  rw [mvnPdf, hd, diagonal_inv (fun _ => hv.ne'), Matrix.det_diagonal, logNormalPdf, Real.sq_sqrt hv.le]
  have h2 : 0 < 2 * Real.pi * v := by positivity
  rw [show -((x - mu) ^ 2 / v + Real.log (2 * Real.pi * v)) / 2 = -((x - mu) ^ 2 / v) / 2 - Real.log (2 * Real.pi * v) / 2 by ring,
    Real.exp_sub, ← Real.log_sqrt h2.le, Real.exp_log (Real.sqrt_pos.2 h2)]
  simp [dotProduct, Matrix.mulVec_diagonal]
  congr 2
  field_simp

section scalar

variable (B : Backend) (ok : UpdateShapeOk dx 1) (p : Belief dx) (H : Matrix (Fin 1) (Fin dx) ℝ) (predY : Fin 1 → ℝ)
  (Xi : Matrix (Fin 1) (Fin 1) ℝ) (y : Fin 1 → ℝ)

theorem inv_one_one (S : Matrix (Fin 1) (Fin 1) ℝ) (h : S 0 0 ≠ 0) : S⁻¹ = Matrix.of fun _ _ => (S 0 0)⁻¹ := by
  apply Matrix.inv_eq_right_inv
  ext i j
  rw [Subsingleton.elim i 0, Subsingleton.elim j 0]
  simp [Matrix.mul_apply, mul_inv_cancel₀ h]

theorem linearGain_scalar {P : Matrix (Fin dx) (Fin dx) ℝ} (hP : P.PosSemidef) (hXi : Xi.PosDef) :
    linearGain B ok P H (innov P H Xi) = kgain P H Xi := by
  have hS : innov P H Xi 0 0 ≠ 0 := (innov_posDef H hP hXi).diag_pos.ne'
  rw [linearGain, dif_pos rfl, kgain, inv_one_one _ hS]
  ext i j
  rw [Matrix.mul_apply, Fin.sum_univ_one, Subsingleton.elim j 0]
  rfl

theorem linearUpdate_scalar (hP : p.2.PosSemidef) (hXi : Xi.PosDef) :
    linearUpdate B ok p H predY Xi y
      = ((p.1 + kgain p.2 H Xi *ᵥ (y - predY), kcov p.2 H Xi), linearNell B predY (innov p.2 H Xi) y) := by
  have h := linearGain_scalar B ok H Xi hP hXi
  simp only [linearUpdate]
  rw [show H * p.2 * Hᵀ + Xi = innov p.2 H Xi from rfl, h]
  rfl

theorem linearNell_scalar {S : Matrix (Fin 1) (Fin 1) ℝ} (hS : S.PosDef) :
    Real.exp (-linearNell B predY S y) = mvnPdf predY S y := by
  rw [linearNell, dif_pos rfl, neg_neg]
  have := exp_logNormalPdf (y 0) (predY 0) (S 0 0) hS.diag_pos
  have e1 : (Matrix.of fun _ _ => S 0 0) = S := by ext i j; rw [Subsingleton.elim i 0, Subsingleton.elim j 0]; rfl
  have e2 : (fun _ => predY 0) = predY := by ext i; rw [Subsingleton.elim i 0]
  have e3 : (fun _ => y 0) = y := by ext i; rw [Subsingleton.elim i 0]
  rw [e1, e2, e3] at this
  exact this

end scalar

/-! ### scans -/

/-- one filter step on the carry. -/
noncomputable def stepOf {Y : Type} (predict : Belief dx → Belief dx) (update : Belief dx → Y → Belief dx × ℝ) (c : Belief dx × ℝ)
    (y : Y) : Belief dx × ℝ :=
  ((update (predict c.1) y).1, c.2 + (update (predict c.1) y).2)

theorem scan_filterBody_nil {Y : Type} (predict : Belief dx → Belief dx) (update : Belief dx → Y → Belief dx × ℝ) (c : Belief dx × ℝ) :
    (scan (filterBody predict update) c []).2 = [] := rfl

theorem scan_filterBody_cons {Y : Type} (predict : Belief dx → Belief dx) (update : Belief dx → Y → Belief dx × ℝ) (c : Belief dx × ℝ)
    (y : Y) (ys : List Y) :
    (scan (filterBody predict update) c (y :: ys)).2
      = stepOf predict update c y :: (scan (filterBody predict update) (stepOf predict update c y) ys).2 := rfl

theorem scan_filterBody_length {Y : Type} (predict : Belief dx → Belief dx) (update : Belief dx → Y → Belief dx × ℝ) (c : Belief dx × ℝ)
    (ys : List Y) : (scan (filterBody predict update) c ys).2.length = ys.length := by
  induction ys generalizing c with
  | nil => rfl
  | cons y ys ih => rw [scan_filterBody_cons, List.length_cons, ih, List.length_cons]

/-- every output is one step from the previous carry. -/
theorem scan_filterBody_get {Y : Type} (predict : Belief dx → Belief dx) (update : Belief dx → Y → Belief dx × ℝ) (c : Belief dx × ℝ)
    (ys : List Y) (k : ℕ) (prev : Belief dx × ℝ) (y : Y) (o : Belief dx × ℝ)
    (hp : (c :: (scan (filterBody predict update) c ys).2)[k]? = some prev) (hy : ys[k]? = some y)
    (ho : (scan (filterBody predict update) c ys).2[k]? = some o) : o = stepOf predict update prev y := by
  induction ys generalizing c k with
  | nil => simp at hy
  | cons z ys ih =>
    rw [scan_filterBody_cons] at hp ho
    cases k with
    | zero =>
      simp only [List.getElem?_cons_zero, Option.some.injEq] at hp hy ho
      rw [← hp, ← hy, ho]
    | succ k =>
      simp only [List.getElem?_cons_succ] at hp hy ho
      exact ih _ _ hp hy ho

theorem scan_filterBody_inv {Y : Type} (predict : Belief dx → Belief dx) (update : Belief dx → Y → Belief dx × ℝ)
    (I : Belief dx → Prop) (hI : ∀ c y, I c → I (update (predict c) y).1) (c : Belief dx × ℝ) (hc : I c.1)
    (ys : List Y) : ∀ o ∈ c :: (scan (filterBody predict update) c ys).2, I o.1 := by
  induction ys generalizing c with
  | nil => intro o ho; rw [scan_filterBody_nil, List.mem_singleton] at ho; rw [ho]; exact hc
  | cons y ys ih =>
    intro o ho
    rw [scan_filterBody_cons] at ho
    rcases List.mem_cons.1 ho with rfl | ho
    · exact hc
    · exact ih (stepOf predict update c y) (hI _ _ hc) o ho

theorem scan_filterBody_congr {Y : Type} (predict predict' : Belief dx → Belief dx) (update update' : Belief dx → Y → Belief dx × ℝ)
    (I : Belief dx → Prop) (hI : ∀ c y, I c → I (update (predict c) y).1)
    (h : ∀ c y, I c → update (predict c) y = update' (predict' c) y) (c : Belief dx × ℝ) (hc : I c.1) (ys : List Y) :
    (scan (filterBody predict update) c ys).2 = (scan (filterBody predict' update') c ys).2 := by
  induction ys generalizing c with
  | nil => rfl
  | cons y ys ih =>
    have hs : stepOf predict update c y = stepOf predict' update' c y := by
      unfold stepOf
      rw [h _ _ hc]
    rw [scan_filterBody_cons, scan_filterBody_cons, hs, ← ih _ (by rw [← hs]; exact hI _ _ hc)]

/-! ### smoothing recursion -/

/-- backward recursion on the list of filtering beliefs. -/
def smoothRec (step : Belief dx → Belief dx → Belief dx) : List (Belief dx) → List (Belief dx)
  | [] => []
  | f :: fs =>
    match smoothRec step fs with
    | [] => [f]
    | s :: ss => step f s :: s :: ss

theorem scan_append_snd {C Y O : Type} (f : C → Y → C × O) (c : C) (xs ys : List Y) :
    (scan f c (xs ++ ys)).2 = (scan f c xs).2 ++ (scan f (scan f c xs).1 ys).2 := by
  induction xs generalizing c with
  | nil => rfl
  | cons x xs ih => simp only [List.cons_append, scan, ih]

theorem scan_last {C Y : Type} (g : C → Y → C) (c : C) (ys : List Y) :
    (scan (fun s y => (g s y, g s y)) c ys).1 = ((scan (fun s y => (g s y, g s y)) c ys).2.reverse ++ [c]).headD c := by
  induction ys generalizing c with
  | nil => rfl
  | cons y ys ih =>
    simp only [scan]
    rw [ih]
    simp only [List.reverse_cons, List.append_assoc, List.singleton_append]
    cases (scan (fun s y => (g s y, g s y)) (g c y) ys).2.reverse with
    | nil => rfl
    | cons a l => rfl

theorem smoothWith_concat (step : Belief dx → Belief dx → Belief dx) (gs : List (Belief dx)) (last : Belief dx) :
    (scan (fun s f => (step f s, step f s)) last gs.reverse).2.reverse ++ [last] = smoothRec step (gs ++ [last]) := by
  induction gs with
  | nil => rfl
  | cons g gs ih =>
    rw [List.reverse_cons, scan_append_snd, List.reverse_append, List.append_assoc, ih, List.cons_append, smoothRec]
    have hl := scan_last (fun s f => step f s) last gs.reverse
    rw [ih] at hl
    cases hs : smoothRec step (gs ++ [last]) with
    | nil =>
      have := congrArg List.length ih
      rw [hs] at this
      simp at this
    | cons s ss =>
      rw [hs] at hl
      simp only [scan, hl, List.headD_cons]
      rfl

theorem smoothWith_eq (step : Belief dx → Belief dx → Belief dx) (fs : List (Belief dx)) :
    smoothWith step fs = if fs = [] then none else some (smoothRec step fs) := by
  rcases List.eq_nil_or_concat' fs with rfl | ⟨gs, last, rfl⟩
  · rfl
  · rw [smoothWith, if_neg (by simp)]
    simp only [List.getLast?_append, List.getLast?_singleton, Option.some_or, List.dropLast_concat]
    rw [smoothWith_concat]

theorem smoothRec_length (step : Belief dx → Belief dx → Belief dx) (fs : List (Belief dx)) :
    (smoothRec step fs).length = fs.length := by
  induction fs with
  | nil => rfl
  | cons f fs ih =>
    rw [smoothRec]
    cases h : smoothRec step fs with
    | nil => rw [h] at ih; simp at ih; simp [ih]
    | cons s ss => rw [h] at ih; simp only [List.length_cons] at ih ⊢; omega

theorem smoothRec_last (step : Belief dx → Belief dx → Belief dx) (fs : List (Belief dx)) :
    (smoothRec step fs).getLast? = fs.getLast? := by
  induction fs with
  | nil => rfl
  | cons f fs ih =>
    rw [smoothRec]
    have hl := smoothRec_length step fs
    cases h : smoothRec step fs with
    | nil => rw [h] at hl; simp at hl; rw [List.eq_nil_of_length_eq_zero hl.symm]
    | cons s ss =>
      rw [h] at ih hl
      cases fs with
      | nil => simp at hl
      | cons f' fs' => simp only [List.getLast?_cons_cons]; exact ih

/-- the recursion: entry `k` is a step from filtering entry `k` and smoothed entry `k + 1`. -/
theorem smoothRec_get (step : Belief dx → Belief dx → Belief dx) (fs : List (Belief dx)) (k : ℕ) (f s o : Belief dx)
    (hf : fs[k]? = some f) (hs : (smoothRec step fs)[k + 1]? = some s) (ho : (smoothRec step fs)[k]? = some o) : o = step f s := by
  induction fs generalizing k with
  | nil => simp at hf
  | cons g fs ih =>
    rw [smoothRec] at hs ho
    cases h : smoothRec step fs with
    | nil => rw [h] at hs; simp at hs
    | cons t ts =>
      rw [h] at hs ho
      cases k with
      | zero =>
        simp only [List.getElem?_cons_zero, Option.some.injEq, List.getElem?_cons_succ] at hf hs ho
        rw [← hf, ← hs, ho]
      | succ k =>
        simp only [List.getElem?_cons_succ] at hf hs ho
        exact ih k hf (by rw [h]; simpa using hs) (by rw [h]; exact ho)

theorem smoothRec_congr (step step' : Belief dx → Belief dx → Belief dx) (fs : List (Belief dx))
    (h : ∀ f ∈ fs, ∀ s, step f s = step' f s) : smoothRec step fs = smoothRec step' fs := by
  induction fs with
  | nil => rfl
  | cons f fs ih =>
    rw [smoothRec, smoothRec, ih fun g hg => h g (List.mem_cons_of_mem _ hg)]
    cases smoothRec step' fs with
    | nil => rfl
    | cons s ss => simp only [h f List.mem_cons_self]

/-! ### derivative of a linear map -/

theorem jac_linear {a b : ℕ} (A : Matrix (Fin b) (Fin a) ℝ) (x : Fin a → ℝ) : jac (fun u => A *ᵥ u) x = A := by
  have : (fun u => A *ᵥ u) = (LinearMap.toContinuousLinearMap A.mulVecLin : (Fin a → ℝ) →L[ℝ] (Fin b → ℝ)) := rfl
  ext i j
  rw [jac, this, ContinuousLinearMap.fderiv]
  simp

end Mfs.Classical

import Verif.Model.Pcrlb
import Verif.Lemmas.Kalman
import Mathlib.Analysis.Calculus.FDeriv.Symmetric
import Mathlib.Analysis.Calculus.ContDiff.Basic
import Mathlib.Analysis.Calculus.Deriv.Add
import Mathlib.Analysis.Calculus.Deriv.Mul
import Mathlib.Analysis.Calculus.Deriv.Pow
import Mathlib.Analysis.Calculus.Deriv.Comp
import Mathlib.Analysis.Calculus.FDeriv.Pi
import Mathlib.Analysis.Calculus.FDeriv.Mul

/-!
# Derivatives of quadratic log-densities and the information recursion
-/

namespace Mfs.Pcrlb

open Matrix

variable {dx dy N : ℕ}

/-- a partial derivative from an expansion along a coordinate line. -/
theorem pd_of_line {d : ℕ} {f : (Fin d → ℝ) → ℝ} {x : Fin d → ℝ} {i : Fin d} {c : ℝ} (hf : DifferentiableAt ℝ f x)
    (h : HasDerivAt (fun t : ℝ => f (x + t • Pi.single i 1)) c 0) : pd f x i = c := by
  have h1 : HasDerivAt (fun t : ℝ => x + t • (Pi.single i 1 : Fin d → ℝ)) (Pi.single i 1) 0 := by
    simpa using ((hasDerivAt_id (0 : ℝ)).smul_const (Pi.single i 1 : Fin d → ℝ)).const_add x
  have hf' : HasFDerivAt f (fderiv ℝ f x) (x + (0 : ℝ) • (Pi.single i 1 : Fin d → ℝ)) := by
    rw [zero_smul, add_zero]; exact hf.hasFDerivAt
  have h2 := hf'.comp_hasDerivAt (0 : ℝ) h1
  exact h2.unique h

theorem pd_affine {d e : ℕ} (k : Fin e → ℝ) (A : Matrix (Fin e) (Fin d) ℝ) (x : Fin d → ℝ) (i : Fin e) (j : Fin d) :
    pd (fun u => (k + A *ᵥ u) i) x j = A i j := by
  refine pd_of_line ?_ ?_
  · simp only [Pi.add_apply, mulVec, dotProduct]; fun_prop
  · have : (fun t : ℝ => (k + A *ᵥ (x + t • Pi.single j 1)) i) = fun t => (k + A *ᵥ x) i + t * A i j := by
      funext t
      rw [mulVec_add, mulVec_smul, mulVec_single_one]
      simp [add_assoc]
    rw [this]
    simpa using ((hasDerivAt_id (0 : ℝ)).mul_const (A i j)).const_add ((k + A *ᵥ x) i)

theorem pd_neg_affine {d e : ℕ} (k : Fin e → ℝ) (A : Matrix (Fin e) (Fin d) ℝ) (x : Fin d → ℝ) (i : Fin e) (j : Fin d) :
    pd (fun u => -(k + A *ᵥ u) i) x j = -A i j := by
  have := pd_affine (-k) (-A) x i j
  simp only [neg_mulVec, ← neg_add, Pi.neg_apply, Matrix.neg_apply] at this
  exact this

theorem pd_quad {d e : ℕ} (c : ℝ) (a : Fin e → ℝ) (A : Matrix (Fin e) (Fin d) ℝ) (M : Matrix (Fin e) (Fin e) ℝ) (hM : Mᵀ = M)
    (x : Fin d → ℝ) (i : Fin d) :
    pd (fun u => c - (1 / 2) * ((a + A *ᵥ u) ⬝ᵥ M *ᵥ (a + A *ᵥ u))) x i = -(Aᵀ *ᵥ (M *ᵥ (a + A *ᵥ x))) i := by
  refine pd_of_line ?_ ?_
  · simp only [mulVec, dotProduct, Pi.add_apply]; fun_prop
  · set r := a + A *ᵥ x with hr
    set v := A *ᵥ (Pi.single i 1 : Fin d → ℝ) with hv
    have hsym : v ⬝ᵥ M *ᵥ r = r ⬝ᵥ M *ᵥ v := by
      rw [dotProduct_mulVec r, ← mulVec_transpose, hM, dotProduct_comm]
    have hgoal : (Aᵀ *ᵥ (M *ᵥ r)) i = r ⬝ᵥ M *ᵥ v := by
      rw [← hsym, hv, mulVec_single_one, mulVec, dotProduct]
      rfl
    have : (fun t : ℝ => c - (1 / 2) * ((a + A *ᵥ (x + t • Pi.single i 1)) ⬝ᵥ M *ᵥ (a + A *ᵥ (x + t • Pi.single i 1))))
        = fun t => (c - (1 / 2) * (r ⬝ᵥ M *ᵥ r)) + (t * (-(r ⬝ᵥ M *ᵥ v)) + t ^ 2 * (-(1 / 2) * (v ⬝ᵥ M *ᵥ v))) := by
      funext t
      rw [mulVec_add, mulVec_smul, ← hv, ← add_assoc, ← hr]
      simp only [mulVec_add, mulVec_smul, dotProduct_add, add_dotProduct, smul_dotProduct, dotProduct_smul, smul_eq_mul, hsym]
      ring
    rw [this, hgoal]
    have h1 := ((hasDerivAt_id (0 : ℝ)).mul_const (-(r ⬝ᵥ M *ᵥ v))).add
      (((hasDerivAt_id (0 : ℝ)).pow 2).mul_const (-(1 / 2) * (v ⬝ᵥ M *ᵥ v)))
    simpa using h1.const_add (c - (1 / 2) * (r ⬝ᵥ M *ᵥ r))

theorem hess_quad {d e : ℕ} (c : ℝ) (a : Fin e → ℝ) (A : Matrix (Fin e) (Fin d) ℝ) (M : Matrix (Fin e) (Fin e) ℝ) (hM : Mᵀ = M)
    (x : Fin d → ℝ) :
    hess (fun u => c - (1 / 2) * ((a + A *ᵥ u) ⬝ᵥ M *ᵥ (a + A *ᵥ u))) x = -(Aᵀ * M * A) := by
  ext i j
  rw [hess, Matrix.of_apply]
  simp only [pd_quad c a A M hM]
  simp only [mulVec_add, mulVec_mulVec]
  rw [pd_neg_affine, Matrix.neg_apply, Matrix.mul_assoc]

theorem hessTS_quad {d e : ℕ} (c : ℝ) (a : Fin e → ℝ) (A C : Matrix (Fin e) (Fin d) ℝ) (M : Matrix (Fin e) (Fin e) ℝ) (hM : Mᵀ = M)
    (t s : Fin d → ℝ) :
    hessTS (fun t s => c - (1 / 2) * ((a + A *ᵥ t + C *ᵥ s) ⬝ᵥ M *ᵥ (a + A *ᵥ t + C *ᵥ s))) t s = -(Cᵀ * M * A) := by
  ext i j
  rw [hessTS, Matrix.of_apply]
  simp only [pd_quad c _ C M hM]
  have : (fun t' => -(Cᵀ *ᵥ M *ᵥ (a + A *ᵥ t' + C *ᵥ s)) i)
      = fun t' => -((Cᵀ * M) *ᵥ (a + C *ᵥ s) + (Cᵀ * M * A) *ᵥ t') i := by
    funext t'
    refine congrArg (fun v : Fin d → ℝ => -v i) ?_
    simp only [mulVec_add, mulVec_mulVec, Matrix.mul_assoc]
    abel
  rw [this, pd_neg_affine, Matrix.neg_apply]

theorem mean_const (hN : 0 < N) (M : Matrix (Fin dx) (Fin dx) ℝ) : mean (fun _ : Fin N => M) = M := by
  have : (N : ℝ) ≠ 0 := by exact_mod_cast hN.ne'
  rw [mean, Finset.sum_const, Finset.card_univ, Fintype.card_fin, ← Nat.cast_smul_eq_nsmul ℝ, smul_smul, inv_mul_cancel₀ this, one_smul]

/-- symmetric Hessians of twice continuously differentiable functions. -/
theorem hess_symm {d : ℕ} (f : (Fin d → ℝ) → ℝ) (hf : ContDiff ℝ 2 f) (x : Fin d → ℝ) : (hess f x)ᵀ = hess f x := by
  have hs : IsSymmSndFDerivAt ℝ f x := (hf.contDiffAt).isSymmSndFDerivAt (by simp)
  have hd : DifferentiableAt ℝ (fderiv ℝ f) x :=
    (hf.fderiv_right (m := 1) (by norm_num)).differentiable (by norm_num) x
  have key : ∀ i j, pd (fun u => pd f u i) x j = fderiv ℝ (fderiv ℝ f) x (Pi.single j 1) (Pi.single i 1) := by
    intro i j
    have : HasFDerivAt (fun u => pd f u i) ((fderiv ℝ (fderiv ℝ f) x).flip (Pi.single i 1)) x := by
      have h := hd.hasFDerivAt.clm_apply (hasFDerivAt_const (Pi.single i 1 : Fin d → ℝ) x)
      simpa [pd] using h
    rw [pd, this.fderiv]
    rfl
  ext i j
  rw [transpose_apply, hess, Matrix.of_apply, Matrix.of_apply, key, key]
  exact hs _ _

theorem mean_symm (M : Fin N → Matrix (Fin dx) (Fin dx) ℝ) (h : ∀ i, (M i)ᵀ = M i) : (mean M)ᵀ = mean M := by
  rw [mean, transpose_smul, transpose_sum]
  simp only [h]

theorem scan_get {C Y : Type} (g : C → Y → C) (c : C) (es : List Y) (k : ℕ) (j : C)
    (h : (scan (fun c e => (g c e, g c e)) c es).2[k]? = some j) :
    ∃ prev e, (c :: (scan (fun c e => (g c e, g c e)) c es).2)[k]? = some prev ∧ es[k]? = some e ∧ j = g prev e := by
  induction es generalizing c k with
  | nil => simp [scan] at h
  | cons e es ih =>
    have hs : (scan (fun c e => (g c e, g c e)) c (e :: es)).2 = g c e :: (scan (fun c e => (g c e, g c e)) (g c e) es).2 := rfl
    rw [hs] at h ⊢
    cases k with
    | zero => exact ⟨c, e, rfl, rfl, (by simpa using h.symm)⟩
    | succ k =>
      rw [List.getElem?_cons_succ] at h
      obtain ⟨prev, e', h1, h2, h3⟩ := ih (g c e) k h
      exact ⟨prev, e', by simpa using h1, by simpa using h2, h3⟩

theorem scan_length {C Y : Type} (g : C → Y → C) (c : C) (es : List Y) :
    (scan (fun c e => (g c e, g c e)) c es).2.length = es.length := by
  induction es generalizing c with
  | nil => rfl
  | cons e es ih =>
    have hs : (scan (fun c e => (g c e, g c e)) c (e :: es)).2 = g c e :: (scan (fun c e => (g c e, g c e)) (g c e) es).2 := rfl
    rw [hs, List.length_cons, ih, List.length_cons]

end Mfs.Pcrlb

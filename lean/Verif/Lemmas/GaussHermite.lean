import Verif.Lemmas.Hermite
import Verif.Model.SigmaPoints
import Mathlib.Algebra.BigOperators.Fin
import Mathlib.Data.List.GetD
import Mathlib.MeasureTheory.Integral.Pi
import Mathlib.Algebra.MvPolynomial.Degrees

/-!
# The code's Hermite coefficients, roll table and product rule
-/

namespace Mfs.Classical

open Polynomial MeasureTheory ProbabilityTheory

/-! ## Hermite coefficients -/

theorem he_rec (n : ℕ) : he (n + 2) = X * he (n + 1) - C (n + 1 : ℝ) * he n := by
  rw [he_succ (n + 1), derivative_he, smul_eq_C_mul]

/-- physicists' Hermite polynomial as a function. -/
noncomputable def hphys (n : ℕ) (x : ℝ) : ℝ := √2 ^ n * (he n).eval (√2 * x)

theorem hphys_rec (n : ℕ) (x : ℝ) : hphys (n + 2) x = 2 * x * hphys (n + 1) x - 2 * (n + 1) * hphys n x := by
  have h2 : √(2 : ℝ) ^ 2 = 2 := Real.sq_sqrt (by norm_num)
  simp only [hphys, he_rec, eval_sub, eval_mul, eval_X, eval_C]
  rw [pow_add, pow_add, h2, pow_one]
  linear_combination (√2 ^ n * x * eval (√2 * x) (he (n + 1))) * (h2 - h2)

theorem polyval_append (l : List ℤ) (c : ℤ) (x : ℝ) : polyval (l ++ [c]) x = polyval l x * x + c := by
  simp [polyval]

theorem polyval_zero_cons (l : List ℤ) (x : ℝ) : polyval (0 :: l) x = polyval l x := by
  simp [polyval]

theorem foldl_zipWith (k : ℤ) (x : ℝ) (l₁ l₂ : List ℤ) (h : l₁.length = l₂.length) (a b : ℝ) :
    (List.zipWith (fun a b => 2 * a - k * b) l₁ l₂).foldl (fun acc (c : ℤ) => acc * x + c) (2 * a - k * b)
      = 2 * l₁.foldl (fun acc (c : ℤ) => acc * x + c) a - k * l₂.foldl (fun acc (c : ℤ) => acc * x + c) b := by
  induction l₁ generalizing l₂ a b with
  | nil => rw [List.length_nil] at h; rw [List.eq_nil_of_length_eq_zero h.symm]; rfl
  | cons u us ih =>
    cases l₂ with
    | nil => simp at h
    | cons v vs =>
      rw [List.zipWith_cons_cons, List.foldl_cons, List.foldl_cons, List.foldl_cons, ← ih vs (by simpa using h)]
      congr 1
      push_cast
      ring

theorem polyval_zipWith (k : ℤ) (x : ℝ) (l₁ l₂ : List ℤ) (h : l₁.length = l₂.length) :
    polyval (List.zipWith (fun a b => 2 * a - k * b) l₁ l₂) x = 2 * polyval l₁ x - k * polyval l₂ x := by
  have := foldl_zipWith k x l₁ l₂ h 0 0
  simpa [polyval] using this

theorem genHermite_spec (order : ℕ) : (genHermitePolyCoeff (order + 1)).length = order + 2 ∧
    ∀ i, i ≤ order + 1 → ((genHermitePolyCoeff (order + 1)).getD i []).length = i + 1 ∧
      ∀ x, polyval ((genHermitePolyCoeff (order + 1)).getD i []) x = hphys i x := by
  induction order with
  | zero =>
    refine ⟨rfl, fun i hi => ?_⟩
    have h2 : √(2 : ℝ) ^ 2 = 2 := Real.sq_sqrt (by norm_num)
    rcases (by omega : i = 0 ∨ i = 1) with rfl | rfl
    · exact ⟨rfl, fun x => by simp [genHermitePolyCoeff, polyval, hphys, he_zero]⟩
    · refine ⟨rfl, fun x => ?_⟩
      simp only [genHermitePolyCoeff, polyval, hphys, he_succ, he_zero]
      simp
      linear_combination (-x) * h2
  | succ n ih =>
    obtain ⟨hl, ih⟩ := ih
    set H := genHermitePolyCoeff (n + 1) with hH
    have e : genHermitePolyCoeff (n + 1 + 1) = H ++ [List.zipWith (fun a b => 2 * a - 2 * (((n + 2 : ℕ) : ℤ) - 1) * b)
        (H.getD (n + 1) [] ++ [0]) ([0, 0] ++ H.getD n [])] := by
      rw [hH, genHermitePolyCoeff, genHermitePolyCoeff, show n + 1 + 1 - 1 = (n + 1 - 1) + 1 by omega, List.range'_1_concat,
        List.foldl_append, List.foldl_cons, List.foldl_nil, show 2 + (n + 1 - 1) = n + 2 by omega]
      rfl
    refine ⟨by rw [e, List.length_append, hl]; rfl, fun i hi => ?_⟩
    rcases (by omega : i ≤ n + 1 ∨ i = n + 2) with h | rfl
    · have : (genHermitePolyCoeff (n + 1 + 1)).getD i [] = H.getD i [] := by
        rw [e, List.getD_append _ _ _ _ (by omega)]
      rw [this]
      exact ih i h
    · have : (genHermitePolyCoeff (n + 1 + 1)).getD (n + 2) [] = List.zipWith (fun a b => 2 * a - 2 * (((n + 2 : ℕ) : ℤ) - 1) * b)
          (H.getD (n + 1) [] ++ [0]) ([0, 0] ++ H.getD n []) := by
        rw [e, List.getD_append_right _ _ _ _ (by omega), hl]; simp
      rw [this]
      have h1 := ih (n + 1) le_rfl
      have h0 := ih n (by omega)
      have hlen : (H.getD (n + 1) [] ++ [0]).length = ([0, 0] ++ H.getD n []).length := by
        rw [List.length_append, List.length_append, h1.1, h0.1]; simp; omega
      refine ⟨?_, fun x => ?_⟩
      · rw [List.length_zipWith, hlen, min_self, List.length_append, h0.1]; simp; omega
      · rw [polyval_zipWith _ x _ _ hlen, polyval_append, show [0, 0] ++ H.getD n [] = 0 :: 0 :: H.getD n [] from rfl,
          polyval_zero_cons, polyval_zero_cons, h1.2, h0.2, hphys_rec]
        push_cast
        ring

/-! ## roll table -/

theorem getD_flatten_replicate (a : ℕ) (l : List ℕ) (c : ℕ) (h : c < a * l.length) :
    ((List.replicate a l).flatten).getD c 0 = l.getD (c % l.length) 0 := by
  induction a generalizing c with
  | zero => simp at h
  | succ a ih =>
    rw [List.replicate_succ, List.flatten_cons]
    by_cases hc : c < l.length
    · rw [List.getD_append _ _ _ _ hc, Nat.mod_eq_of_lt hc]
    · have hc : l.length ≤ c := by omega
      rw [List.getD_append_right _ _ _ _ hc, ih _ (by rw [add_mul] at h; omega), Nat.mod_eq_sub_mod hc]

theorem getD_flatMap_replicate (n k c : ℕ) (hc : c < n * k) :
    ((List.range n).flatMap fun j => List.replicate k j).getD c 0 = c / k := by
  induction n with
  | zero => simp at hc
  | succ n ih =>
    have hl : ((List.range n).flatMap fun j => List.replicate k j).length = n * k := by
      simp [List.length_flatMap]
    rw [List.range_succ, List.flatMap_append, List.flatMap_singleton]
    by_cases h : c < n * k
    · rw [List.getD_append _ _ _ _ (by omega), ih h]
    · have h : n * k ≤ c := by omega
      rw [List.getD_append_right _ _ _ _ (by omega), hl]
      have hk : c - n * k < k := by rw [add_mul] at hc; omega
      rw [List.getD_replicate _ hk]
      symm
      rw [Nat.div_eq_iff (by omega)]
      constructor
      · exact h
      · rw [add_mul] at hc; omega

theorem rollTable_eq (d order : ℕ) (r : Fin d) (c : ℕ) (hc : c < order ^ d) : rollTable d order r c = c / order ^ (r : ℕ) % order := by
  have hr := r.2
  have e : d - (d - 1 - (r : ℕ)) - 1 = r := by omega
  have hord : 0 < order := by
    rcases Nat.eq_zero_or_pos order with rfl | h
    · rw [zero_pow (by omega)] at hc; omega
    · exact h
  have hl : ((List.range order).flatMap fun j => List.replicate (order ^ (r : ℕ)) j).length = order * order ^ (r : ℕ) := by
    simp [List.length_flatMap]
  rw [rollTable, rollRow, e, getD_flatten_replicate, hl, getD_flatMap_replicate, Nat.mul_comm, Nat.mod_mul_right_div_self]
  · exact Nat.mod_lt _ (by positivity)
  · rw [hl, ← pow_succ', ← pow_add]
    rwa [show d - 1 - (r : ℕ) + (r + 1) = d by omega]

/-- the grid as an equivalence. -/
theorem rollTable_equiv (d order : ℕ) (c : Fin (order ^ d)) (r : Fin d) :
    rollTable d order r c = (finFunctionFinEquiv.symm c r : Fin order) := by
  rw [rollTable_eq d order r c c.2]
  rfl

/-- the product rule factorises. -/
theorem gaussHermite_factor (d order : ℕ) (roots : ℕ → ℝ) (g : Fin d → ℝ → ℝ) :
    ∑ c, (SigmaPoints.gaussHermite d order roots).w c * ∏ r, g r ((SigmaPoints.gaussHermite d order roots).xi c r)
      = ∏ r, ∑ j : Fin order, ghWeight1d order (roots j) / √Real.pi * g r (√2 * roots j) := by
  rw [Finset.prod_univ_sum, Fintype.piFinset_univ]
  refine Fintype.sum_equiv finFunctionFinEquiv.symm _ _ fun c => ?_
  rw [Finset.prod_mul_distrib, Finset.prod_div_distrib, Finset.prod_const, Finset.card_univ, Fintype.card_fin]
  simp only [SigmaPoints.gaussHermite, rollTable_equiv]
  ring

/-! ## exactness -/

/-- the one-dimensional weights in terms of the probabilists' polynomials. -/
theorem ghWeight1d_eq (order : ℕ) (x : ℝ) : ghWeight1d (order + 1) x / √Real.pi
    = (order + 1).factorial / (((order + 1 : ℕ) : ℝ) ^ 2 * (he order).eval (√2 * x) ^ 2) := by
  have hp : (√Real.pi : ℝ) ≠ 0 := (Real.sqrt_pos.2 Real.pi_pos).ne'
  have h2 : √(2 : ℝ) ^ 2 = 2 := Real.sq_sqrt (by norm_num)
  have e := ((genHermite_spec order).2 order (by omega)).2 x
  rw [ghWeight1d, Nat.add_sub_cancel, e, hphys, mul_pow, ← pow_mul, mul_comm order 2, pow_mul, h2]
  have h3 : (2 : ℝ) ^ order ≠ 0 := by positivity
  rw [div_div, show ((order + 1 : ℕ) : ℝ) ^ 2 * (2 ^ order * eval (√2 * x) (he order) ^ 2) * √Real.pi
    = (2 ^ order * √Real.pi) * (((order + 1 : ℕ) : ℝ) ^ 2 * eval (√2 * x) (he order) ^ 2) by ring,
    show (2 : ℝ) ^ order * ((order + 1).factorial : ℝ) * √Real.pi = (2 ^ order * √Real.pi) * (order + 1).factorial by ring,
    mul_div_mul_left _ _ (mul_ne_zero h3 hp)]

theorem gh1d_exact (order : ℕ) (roots : ℕ → ℝ) (hinj : ∀ i j, i < order → j < order → roots i = roots j → i = j)
    (hroot : ∀ j, j < order → polyval ((genHermitePolyCoeff order).getLastD []) (roots j) = 0) (p : ℝ[X])
    (hp : p.natDegree < 2 * order) :
    ∑ j : Fin order, ghWeight1d order (roots j) / √Real.pi * p.eval (√2 * roots j) = ∫ x, p.eval x ∂gaussianReal 0 1 := by
  obtain ⟨n, rfl⟩ : ∃ n, order = n + 1 := ⟨order - 1, by omega⟩
  have h2 : (√(2 : ℝ)) ≠ 0 := (Real.sqrt_pos.2 (by norm_num)).ne'
  have hlast : (genHermitePolyCoeff (n + 1)).getLastD [] = (genHermitePolyCoeff (n + 1)).getD (n + 1) [] := by
    have hl := (genHermite_spec n).1
    rw [List.getLastD_eq_getLast?, List.getLast?_eq_getElem?, hl, List.getD_eq_getElem?_getD]
    rfl
  have hz : Function.Injective fun j : Fin (n + 1) => √2 * roots j := by
    intro i j hij
    exact Fin.ext (hinj i j i.2 j.2 (mul_left_cancel₀ h2 hij))
  have hr : ∀ j : Fin (n + 1), (he (n + 1)).eval (√2 * roots j) = 0 := by
    intro j
    have := hroot j j.2
    rw [hlast, ((genHermite_spec n).2 (n + 1) le_rfl).2, hphys] at this
    exact (mul_eq_zero.1 this).resolve_left (pow_ne_zero _ h2)
  rw [← gauss_hermite_exact hz hr p hp]
  exact Finset.sum_congr rfl fun j _ => by rw [ghWeight1d_eq]; rfl

/-- the product rule is exact for polynomials of degree at most `2 order - 1` in every variable. -/
theorem gaussHermite_exact (d order : ℕ) (roots : ℕ → ℝ) (hinj : ∀ i j, i < order → j < order → roots i = roots j → i = j)
    (hroot : ∀ j, j < order → polyval ((genHermitePolyCoeff order).getLastD []) (roots j) = 0) (p : MvPolynomial (Fin d) ℝ)
    (hp : ∀ r, p.degreeOf r < 2 * order) :
    ∑ c, (SigmaPoints.gaussHermite d order roots).w c * MvPolynomial.eval ((SigmaPoints.gaussHermite d order roots).xi c) p
      = ∫ z, MvPolynomial.eval z p ∂Measure.pi fun _ : Fin d => gaussianReal 0 1 := by
  have hmono : ∀ s ∈ p.support, ∑ c, (SigmaPoints.gaussHermite d order roots).w c
        * ∏ r, (SigmaPoints.gaussHermite d order roots).xi c r ^ s r
      = ∫ z : Fin d → ℝ, ∏ r, z r ^ s r ∂Measure.pi fun _ : Fin d => gaussianReal 0 1 := by
    intro s hs
    rw [gaussHermite_factor d order roots (fun r y => y ^ s r),
      integral_fintype_prod_eq_prod (fun r (y : ℝ) => y ^ s r)]
    refine Finset.prod_congr rfl fun r _ => ?_
    have hdeg : (X ^ s r : ℝ[X]).natDegree < 2 * order := by
      rw [natDegree_X_pow]
      exact (MvPolynomial.monomial_le_degreeOf r hs).trans_lt (hp r)
    have := gh1d_exact order roots hinj hroot (X ^ s r) hdeg
    simpa only [eval_pow, eval_X] using this
  have hint : ∀ s : Fin d →₀ ℕ, Integrable (fun z : Fin d → ℝ => ∏ r, z r ^ s r) (Measure.pi fun _ : Fin d => gaussianReal 0 1) :=
    fun s => Integrable.fintype_prod (f := fun r (y : ℝ) => y ^ s r) fun r => integrable_pow_gaussianReal 0 1 _
  simp only [MvPolynomial.eval_eq']
  rw [integral_finsetSum _ fun s _ => (hint s).const_mul _]
  simp only [Finset.mul_sum]
  rw [Finset.sum_comm]
  refine Finset.sum_congr rfl fun s hs => ?_
  rw [integral_const_mul, ← hmono s hs, Finset.mul_sum]
  exact Finset.sum_congr rfl fun c _ => by ring

end Mfs.Classical

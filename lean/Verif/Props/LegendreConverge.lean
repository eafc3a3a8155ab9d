import Verif.Props.Pdf
import Verif.Lemmas.PolyDense

/-!
# Property C185: the Legendre expansion is the best polynomial approximation and converges
-/

namespace Mfs.Props

open Mfs.Utils Mfs.Moments1 Mfs.Pdf MeasureTheory Filter Topology Mfs.Lemmas
open scoped Nat

theorem natDegree_legPoly_le (k : ℕ) : (legPoly k).natDegree ≤ k := by
  refine Polynomial.natDegree_sum_le_of_forall_le _ _ fun i _ => ?_
  exact (Polynomial.natDegree_C_mul_X_pow_le _ _).trans (by omega)

/-- the expansion is a polynomial of degree below the number of moments. -/
theorem legendre_polynomial (rms : List ℝ) (a b : ℝ) :
    ∃ Q : Polynomial ℝ, Q.degree < rms.length ∧ ∀ x, legendrePolyExpansion rms a b x = Q.eval x := by
  set Y : Polynomial ℝ := Polynomial.C (2 / (b - a)) * Polynomial.X + Polynomial.C (-(a + b) / (b - a)) with hY
  refine ⟨∑ k ∈ Finset.range rms.length, Polynomial.C (2 / (b - a) * basisCoeff rms k) * (legPoly k).comp Y, ?_, fun x => ?_⟩
  · refine (Polynomial.degree_sum_le _ _).trans_lt ?_
    rw [Finset.sup_lt_iff (by simp [bot_lt_iff_ne_bot])]
    intro k hk
    rw [Finset.mem_range] at hk
    refine (Polynomial.degree_le_natDegree).trans_lt ?_
    have h1 : (Polynomial.C (2 / (b - a) * basisCoeff rms k) * (legPoly k).comp Y).natDegree ≤ k := by
      refine (Polynomial.natDegree_C_mul_le _ _).trans ((Polynomial.natDegree_comp_le).trans ?_)
      have : Y.natDegree ≤ 1 := Polynomial.natDegree_linear_le
      calc (legPoly k).natDegree * Y.natDegree ≤ k * 1 := Nat.mul_le_mul (natDegree_legPoly_le k) this
        _ = k := mul_one k
    exact_mod_cast h1.trans_lt hk
  · rw [legendrePolyExpansion_eq, legExp, Polynomial.eval_finsetSum, Polynomial.eval_finsetSum, Finset.mul_sum]
    refine Finset.sum_congr rfl fun k _ => ?_
    rw [Polynomial.eval_mul, Polynomial.eval_C, Polynomial.eval_mul, Polynomial.eval_C, Polynomial.eval_comp]
    have : Y.eval x = (2 * x - (a + b)) / (b - a) := by
      simp only [hY, Polynomial.eval_add, Polynomial.eval_mul, Polynomial.eval_C, Polynomial.eval_X]
      ring
    rw [this]
    ring

theorem exp_integrable_Ioc (a b c : ℝ) : Integrable (fun x => Real.exp (c * |x|)) (volume.restrict (Set.Ioc a b)) :=
  ((by fun_prop : Continuous fun x : ℝ => Real.exp (c * |x|)).integrableOn_Icc (a := a) (b := b)).mono_set Set.Ioc_subset_Icc_self

/-- the moments of the standardised variable. -/
noncomputable def stdMoments (f : ℝ → ℝ) (a b : ℝ) (n : ℕ) : List ℝ :=
  (List.range n).map fun k => ∫ x in a..b, ((2 * x - (a + b)) / (b - a)) ^ k * f x

theorem legendre_match {f : ℝ → ℝ} {a b : ℝ} (hab : a < b) (hf : MemLp f 2 (volume.restrict (Set.Ioc a b))) (n : ℕ) (r : Polynomial ℝ)
    (hr : r.degree < n) : ∫ x in Set.Ioc a b, r.eval x * (f x - legendrePolyExpansion (stdMoments f a b n) a b x) = 0 := by
  have hi : ∀ q : Polynomial ℝ, Integrable (fun x => q.eval x * f x) (volume.restrict (Set.Ioc a b)) := fun q =>
    (memLp_poly (exp_integrable_Ioc a b) q).integrable_mul hf
  let L : Polynomial ℝ →ₗ[ℝ] ℝ :=
    { toFun := fun q => ∫ x in Set.Ioc a b, q.eval x * f x
      map_add' := fun q r => by
        simp only [Polynomial.eval_add, add_mul]
        exact integral_add (hi q) (hi r)
      map_smul' := fun c q => by
        simp only [Polynomial.eval_smul, smul_eq_mul, mul_assoc, RingHom.id_apply]
        exact integral_const_mul _ _ }
  have hm : stdMoments f a b n
      = (List.range n).map fun k => L ((Polynomial.C (2 / (b - a)) * Polynomial.X + Polynomial.C (-(a + b) / (b - a))) ^ k) := by
    refine List.map_congr_left fun k _ => ?_
    rw [intervalIntegral.integral_of_le hab.le]
    change _ = ∫ x in Set.Ioc a b, _
    refine integral_congr_ae (Eventually.of_forall fun x => ?_)
    simp only [Polynomial.eval_pow, Polynomial.eval_add, Polynomial.eval_mul, Polynomial.eval_C, Polynomial.eval_X]
    congr 2
    ring
  obtain ⟨Q, -, hQ⟩ := legendre_polynomial (stdMoments f a b n) a b
  have hk : ∀ p < n, ∫ x in Set.Ioc a b, x ^ p * Q.eval x = ∫ x in Set.Ioc a b, x ^ p * f x := by
    intro p hp
    have := C51_legendre_partial L a b hab n p hp
    rw [← hm, intervalIntegral.integral_of_le hab.le] at this
    simp only [hQ] at this
    rw [this]
    change ∫ x in Set.Ioc a b, _ = _
    simp
  simp only [hQ]
  exact orth_of_moments (exp_integrable_Ioc a b) hf (memLp_poly (exp_integrable_Ioc a b) Q) n hk r hr

/-- **C185 (a).** Among the polynomials of degree below the number of moments, the expansion built from the moments of the
standardised variable is the one closest to the density in the square-integral sense. -/
theorem C185_best {f : ℝ → ℝ} {a b : ℝ} (hab : a < b) (hf : MemLp f 2 (volume.restrict (Set.Ioc a b))) (n : ℕ) (p : Polynomial ℝ) (hp : p.degree < n) :
    ∫ x in a..b, (f x - legendrePolyExpansion
        ((List.range n).map fun k => ∫ y in a..b, ((2 * y - (a + b)) / (b - a)) ^ k * f y) a b x) ^ 2
      ≤ ∫ x in a..b, (f x - p.eval x) ^ 2 := by
  rw [intervalIntegral.integral_of_le hab.le, intervalIntegral.integral_of_le hab.le]
  have hm := legendre_match hab hf n
  change ∫ x in Set.Ioc a b, (f x - legendrePolyExpansion (stdMoments f a b n) a b x) ^ 2 ≤ _
  obtain ⟨Q, hd, hQ⟩ := legendre_polynomial (stdMoments f a b n) a b
  have hl : (stdMoments f a b n).length = n := by simp [stdMoments]
  rw [hl] at hd
  simp only [hQ] at hm ⊢
  refine best_of_orthogonal hf (memLp_poly (exp_integrable_Ioc a b) Q) (memLp_poly (exp_integrable_Ioc a b) p) ?_
  have := hm (Q - p) ((Polynomial.degree_sub_le _ _).trans_lt (max_lt hd hp))
  rw [← this]
  refine integral_congr_ae (Eventually.of_forall fun x => ?_)
  simp only [Polynomial.eval_sub]
  ring

/-- **C185 (b).** The expansions converge to the density in the square-integral sense as the number of moments grows. -/
theorem C185_converge {f : ℝ → ℝ} {a b : ℝ} (hab : a < b) (hf : MemLp f 2 (volume.restrict (Set.Ioc a b))) :
    Tendsto (fun n : ℕ => ∫ x in a..b, (f x - legendrePolyExpansion
        ((List.range n).map fun k => ∫ y in a..b, ((2 * y - (a + b)) / (b - a)) ^ k * f y) a b x) ^ 2) atTop (𝓝 0) := by
  have h0 : ∀ n : ℕ, 0 ≤ ∫ x in a..b, (f x - legendrePolyExpansion
        ((List.range n).map fun k => ∫ y in a..b, ((2 * y - (a + b)) / (b - a)) ^ k * f y) a b x) ^ 2 := fun n =>
    intervalIntegral.integral_nonneg hab.le fun x _ => sq_nonneg _
  rw [Metric.tendsto_atTop]
  intro ε hε
  obtain ⟨p, hp⟩ := poly_dense (exp_integrable_Ioc a b) hf hε
  refine ⟨p.natDegree + 1, fun n hn => ?_⟩
  rw [Real.dist_eq, sub_zero, abs_of_nonneg (h0 n)]
  have hd : p.degree < n := (Polynomial.degree_le_natDegree).trans_lt (by exact_mod_cast hn)
  refine (C185_best hab hf n p hd).trans_lt ?_
  rw [intervalIntegral.integral_of_le hab.le]
  exact hp

/-- **C185 (c).** Hence the probabilities of all subintervals, and the integrals of all square-integrable functions, converge. -/
theorem C185_integrals {f g : ℝ → ℝ} {a b : ℝ} (hab : a < b) (hf : MemLp f 2 (volume.restrict (Set.Ioc a b)))
    (hg : MemLp g 2 (volume.restrict (Set.Ioc a b))) :
    Tendsto (fun n : ℕ => ∫ x in a..b, g x * legendrePolyExpansion
        ((List.range n).map fun k => ∫ y in a..b, ((2 * y - (a + b)) / (b - a)) ^ k * f y) a b x) atTop (𝓝 (∫ x in a..b, g x * f x)) := by
  have hc := C185_converge hab hf
  simp only [intervalIntegral.integral_of_le hab.le] at hc ⊢
  set q : ℕ → ℝ → ℝ := fun n x => legendrePolyExpansion
        ((List.range n).map fun k => ∫ y in Set.Ioc a b, ((2 * y - (a + b)) / (b - a)) ^ k * f y) a b x with hq
  have hqm : ∀ n, MemLp (q n) 2 (volume.restrict (Set.Ioc a b)) := fun n => by
    obtain ⟨Q, -, hQ⟩ := legendre_polynomial ((List.range n).map fun k => ∫ y in Set.Ioc a b, ((2 * y - (a + b)) / (b - a)) ^ k * f y) a b
    have : q n = fun x => Q.eval x := funext fun x => hQ x
    rw [this]
    exact memLp_poly (exp_integrable_Ioc a b) Q
  exact tendsto_integral_mul_of_sq hf hg hqm hc

/-! ### The expansion need not be nonnegative -/

theorem legendre_two (m x : ℝ) : legendrePolyExpansion [1, m] (-1) 1 x = 1 / 2 + 3 / 2 * m * x := by
  norm_num [legendrePolyExpansion, basisCoeff, legendrePoly, legendre, jget, List.range_succ, Nat.factorial]

/-- **C185 (d).** With two moments the expansion is nonnegative on `[-1, 1]` if and only if the mean lies within `1/3` of
zero; the law with density `3 (1 + x)² / 8` has mean `1/2`, and its expansion takes the value `-1/4`. -/
theorem C185_negative : (∀ m : ℝ, (∀ x ∈ Set.Icc (-1 : ℝ) 1, 0 ≤ legendrePolyExpansion [1, m] (-1) 1 x) ↔ |m| ≤ 1 / 3) ∧
    (∫ x in (-1 : ℝ)..1, 3 / 8 * (1 + x) ^ 2 = 1) ∧ (∫ x in (-1 : ℝ)..1, x * (3 / 8 * (1 + x) ^ 2) = 1 / 2) ∧
    legendrePolyExpansion [1, 1 / 2] (-1) 1 (-1) = -1 / 4 := by
  have i1 : ∀ c : ℝ, ∀ k : ℕ, IntervalIntegrable (fun x : ℝ => c * x ^ k) volume (-1) 1 := fun c k =>
    (by fun_prop : Continuous fun x : ℝ => c * x ^ k).intervalIntegrable _ _
  refine ⟨fun m => ?_, ?_, ?_, by rw [legendre_two]; norm_num⟩
  rotate_left
  · have e : ∀ x : ℝ, 3 / 8 * (1 + x) ^ 2 = (3 / 8 * x ^ 0 + 3 / 4 * x ^ 1) + 3 / 8 * x ^ 2 := fun x => by ring
    simp only [e]
    rw [intervalIntegral.integral_add ((i1 _ 0).add (i1 _ 1)) (i1 _ 2), intervalIntegral.integral_add (i1 _ 0) (i1 _ 1)]
    simp only [intervalIntegral.integral_const_mul, integral_pow]
    norm_num
  · have e : ∀ x : ℝ, x * (3 / 8 * (1 + x) ^ 2) = (3 / 8 * x ^ 1 + 3 / 4 * x ^ 2) + 3 / 8 * x ^ 3 := fun x => by ring
    simp only [e]
    rw [intervalIntegral.integral_add ((i1 _ 1).add (i1 _ 2)) (i1 _ 3), intervalIntegral.integral_add (i1 _ 1) (i1 _ 2)]
    simp only [intervalIntegral.integral_const_mul, integral_pow]
    norm_num
  simp only [legendre_two]
  constructor
  · intro h
    have h1 := h 1 (by simp)
    have h2 := h (-1) (by simp)
    rw [abs_le]
    constructor <;> linarith
  · intro h x hx
    have hx' : |x| ≤ 1 := abs_le.2 hx
    have : |m * x| ≤ 1 / 3 * 1 := by
      rw [abs_mul]
      exact mul_le_mul h hx' (abs_nonneg _) (by norm_num)
    have := (abs_le.1 this).1
    linarith

/-- the density `2 x` on `[0, 1]` meets the hypotheses: with the moments `1, 1/3` of its standardised variable the expansion is
the density itself. -/
example : MemLp (fun x : ℝ => 2 * x) 2 (volume.restrict (Set.Ioc 0 1)) ∧
    (List.range 2).map (fun k => ∫ y in (0 : ℝ)..1, ((2 * y - (0 + 1)) / (1 - 0)) ^ k * (2 * y)) = [1, 1 / 3] ∧
    ∀ x, legendrePolyExpansion [1, 1 / 3] 0 1 x = 2 * x := by
  refine ⟨?_, ?_, fun x => ?_⟩
  · have := memLp_poly (exp_integrable_Ioc 0 1) (Polynomial.C 2 * Polynomial.X)
    simpa using this
  · have e : ∀ y : ℝ, (2 * y - 1) * (2 * y) = 4 * y ^ 2 - 2 * y := fun y => by ring
    have h1 : ∫ y in (0 : ℝ)..1, 2 * y = 1 := by
      rw [intervalIntegral.integral_const_mul, integral_id]
      norm_num
    have h2 : ∫ y in (0 : ℝ)..1, 4 * y ^ 2 - 2 * y = 1 / 3 := by
      rw [intervalIntegral.integral_sub ((by fun_prop : Continuous _).intervalIntegrable _ _) ((by fun_prop : Continuous _).intervalIntegrable _ _), h1,
        intervalIntegral.integral_const_mul, integral_pow]
      norm_num
    simp [List.range_succ, e, h1, h2]
  · norm_num [legendrePolyExpansion, basisCoeff, legendrePoly, legendre, jget, List.range_succ, Nat.factorial]
    ring

end Mfs.Props

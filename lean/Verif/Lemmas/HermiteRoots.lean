import Verif.Lemmas.GaussHermite
import Verif.Lemmas.Quad1
import Verif.Lemmas.GaussRule
import Verif.Lemmas.Backend

/-!
# Every Hermite polynomial has as many distinct real roots as its degree
-/

namespace Mfs

open Polynomial MeasureTheory ProbabilityTheory Mfs.Spec

theorem gE_sq_pos (q : ℝ[X]) (hq : q ≠ 0) : 0 < gE (q * q) := by
  have hi := integrable_poly_gaussianReal 0 1 (q * q)
  rw [gE, integral_pos_iff_support_of_nonneg (fun x => by simp only [eval_mul, Pi.zero_apply]; exact mul_self_nonneg _) hi]
  have hs : Function.support (fun x => (q * q).eval x) = {x | q.IsRoot x}ᶜ := by
    ext x; simp [Function.mem_support, IsRoot]
  have hfin : {x | q.IsRoot x}.Finite := by
    refine (q.roots.toFinset.finite_toSet).subset fun x hx => ?_
    simpa [hq] using hx
  have h0 : gaussianReal 0 1 {x | q.IsRoot x} = 0 := by
    have := nullSingletonClass_gaussianReal (μ := 0) (v := 1) one_ne_zero
    exact hfin.measure_zero _
  rw [hs, prob_compl_eq_one_sub hfin.measurableSet, h0]
  simp

theorem hankel_gauss_posDef (n : ℕ) : (hankelMat n fun k => gE (X ^ k)).PosDef := by
  refine Matrix.PosDef.of_dotProduct_mulVec_pos ?_ fun c hc => ?_
  · ext i j
    simp only [Matrix.conjTranspose_apply, hankelMat, Matrix.of_apply, star_trivial]
    rw [add_comm]
  · let q : ℝ[X] := ∑ i : Fin n, C (c i) * X ^ (i : ℕ)
    have hq : q ≠ 0 := by
      intro h0
      apply hc
      funext i
      have h1 := congrArg (fun p => coeff p (i : ℕ)) h0
      simp only [q, finsetSum_coeff, coeff_C_mul_X_pow, coeff_zero] at h1
      rw [Finset.sum_eq_single i] at h1
      · simpa using h1
      · intro j _ hj
        rw [if_neg fun e => hj (Fin.ext e.symm)]
      · intro h; exact absurd (Finset.mem_univ _) h
    have h := gE_sq_pos q hq
    have e : q * q = ∑ i : Fin n, ∑ j : Fin n, C (c i * c j) * X ^ ((i : ℕ) + j) := by
      simp only [q, Finset.sum_mul_sum]
      refine Finset.sum_congr rfl fun i _ => Finset.sum_congr rfl fun j _ => ?_
      rw [C_mul, pow_add]; ring
    rw [e, gE_sum] at h
    refine h.trans_eq ?_
    simp only [gE_sum, gE_C_mul, dotProduct, Matrix.mulVec, hankelMat, Matrix.of_apply, star_trivial, Finset.mul_sum]
    exact Finset.sum_congr rfl fun i _ => Finset.sum_congr rfl fun j _ => by ring

theorem exists_gauss_rule (n : ℕ) : ∃ w x : Fin n → ℝ, Reproduces (2 * n) (fun k => gE (X ^ k)) w x := by
  let ms : List ℝ := (List.range (2 * n)).map fun k => gE (X ^ k)
  have hl : ms.length / 2 = n := by simp [ms]
  have hget : ∀ k < 2 * n, ms.getD k 0 = gE (X ^ k) := by
    intro k hk
    rw [List.getD_eq_getElem?_getD]
    simp [ms, hk]
  have hpd : (hankelMat (ms.length / 2) (fun k => ms.getD k 0)).PosDef := by
    rw [hl]
    have : hankelMat n (fun k => ms.getD k 0) = hankelMat n fun k => gE (X ^ k) := by
      ext i j
      simp only [hankelMat, Matrix.of_apply]
      exact hget _ (by omega)
    rw [this]
    exact hankel_gauss_posDef n
  have h : ∃ w x : Fin (ms.length / 2) → ℝ, Reproduces (2 * (ms.length / 2)) (fun k => ms.getD k 0 / ms.getD 0 0) w x :=
    ⟨_, _, Quad1.momentQuadrature_reproduces theBackend theBackend_valid ms hpd false false⟩
  rw [hl] at h
  obtain ⟨w, x, h⟩ := h
  refine ⟨w, x, fun k hk => ?_⟩
  rw [h k hk]
  simp only
  rw [hget k hk, hget 0 (by omega), pow_zero, gE_one, div_one]

theorem gE_eq_momFun (p : ℝ[X]) : gE p = momFun (fun k => gE (X ^ k)) p := by
  conv_lhs => rw [p.as_sum_range_C_mul_X_pow]
  rw [gE_sum, momFun]
  exact Finset.sum_congr rfl fun k _ => gE_C_mul _ _

theorem exists_he_roots (n : ℕ) : ∃ z : Fin n → ℝ, Function.Injective z ∧ ∀ j, (he n).eval (z j) = 0 := by
  obtain ⟨w, x, h⟩ := exists_gauss_rule n
  have hpd := hankel_gauss_posDef n
  refine ⟨x, h.injective hpd, ?_⟩
  have hsum : ∀ p : ℝ[X], p.natDegree < 2 * n → ∑ i, w i * p.eval (x i) = gE p := fun p hp => by
    rw [h.poly p hp, gE_eq_momFun]
  intro j
  have hn := j.pos
  -- test against the polynomial vanishing at all other nodes
  have hdeg : (nodePolyErase x j * he n).natDegree < 2 * n := by
    refine natDegree_mul_le.trans_lt ?_
    rw [natDegree_nodePolyErase, natDegree_he]; omega
  have h1 := hsum _ hdeg
  rw [gE_mul_he n _ (by rw [natDegree_nodePolyErase]; omega),
    coeff_eq_zero_of_natDegree_lt (by rw [natDegree_nodePolyErase]; omega), mul_zero,
    sum_erase_eval w x j (fun y => (nodePolyErase x j * he n).eval y) (fun y hy => by rw [eval_mul, hy, zero_mul]), eval_mul] at h1
  have hw := (h.weight_pos hpd j).ne'
  have he0 := h.eval_ne_zero hpd j
  rcases mul_eq_zero.1 h1 with h2 | h2
  · exact absurd h2 hw
  · exact (mul_eq_zero.1 h2).resolve_left he0

/-- the contract of `np.roots` on the code's Hermite coefficients is satisfiable for every order. -/
theorem Classical.exists_roots (order : ℕ) : ∃ roots : ℕ → ℝ, (∀ i j, i < order → j < order → roots i = roots j → i = j) ∧
    ∀ j, j < order → Classical.polyval ((Classical.genHermitePolyCoeff order).getLastD []) (roots j) = 0 := by
  obtain ⟨z, hz, hr⟩ := exists_he_roots order
  have h2 : (√(2 : ℝ)) ≠ 0 := (Real.sqrt_pos.2 (by norm_num)).ne'
  refine ⟨fun j => if h : j < order then z ⟨j, h⟩ / √2 else 0, fun i j hi hj e => ?_, fun j hj => ?_⟩
  · simp only [dif_pos hi, dif_pos hj] at e
    rw [div_left_inj' h2] at e
    exact Fin.mk.inj_iff.1 (hz e)
  · obtain ⟨n, rfl⟩ : ∃ n, order = n + 1 := ⟨order - 1, by omega⟩
    have hl := (Classical.genHermite_spec n).1
    have hlast : (Classical.genHermitePolyCoeff (n + 1)).getLastD [] = (Classical.genHermitePolyCoeff (n + 1)).getD (n + 1) [] := by
      rw [List.getLastD_eq_getLast?, List.getLast?_eq_getElem?, hl, List.getD_eq_getElem?_getD]
      rfl
    rw [hlast, ((Classical.genHermite_spec n).2 (n + 1) le_rfl).2, Classical.hphys]
    simp only [dif_pos hj]
    rw [mul_div_cancel₀ _ h2, hr, mul_zero]

end Mfs

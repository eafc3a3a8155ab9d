import Verif.Props.Quad1

/-!
# Property C98: shape of the one-dimensional rule
-/

namespace Mfs.Props

open Matrix Mfs.Spec Mfs.Quad1 Polynomial

/-- **C98.** For valid moments: (1) all weights are strictly positive and the nodes are distinct; (2) no other `n`-point
rule (of any real weights) has the same `2n` moments; (3) if the odd moments vanish the rule is symmetric; (4) if the
moments come from a functional that is non-negative on squares (an expectation), the moment of order `2n` is never
overestimated, and the error is the value on a squared monic polynomial of degree `n` which vanishes at the nodes. -/
theorem C98_rule_shape (B : Backend) (hB : B.Valid) (ms : List ℝ) (hpd : (gramOf ms).PosDef) (sort ldl : Bool) :
    ((∀ mean scale i, 0 < (momentQuadrature B ms mean scale sort ldl).1 i) ∧
      ∀ mean scale, scale ≠ 0 → Function.Injective (momentQuadrature B ms mean scale sort ldl).2) ∧
    (∀ w x : Fin (ms.length / 2) → ℝ, (∀ k < 2 * (ms.length / 2), ∑ i, w i * x i ^ k = ms.getD k 0 / ms.getD 0 0) →
      ∀ f : ℝ → ℝ, integ (momentQuadrature B ms 0 1 sort ldl) f = ∑ i, w i * f (x i)) ∧
    ((∀ k < 2 * (ms.length / 2), k % 2 = 1 → ms.getD k 0 = 0) → ∀ f : ℝ → ℝ,
      integ (momentQuadrature B ms 0 1 sort ldl) (fun x => f (-x)) = integ (momentQuadrature B ms 0 1 sort ldl) f) ∧
    (∀ L : ℝ[X] →ₗ[ℝ] ℝ, (∀ k < 2 * (ms.length / 2), ms.getD k 0 = L (X ^ k)) → L 1 = 1 → (∀ q, 0 ≤ L (q ^ 2)) →
      ∃ q : ℝ[X], q.Monic ∧ q.natDegree = ms.length / 2 ∧
        (∀ i, q.eval ((momentQuadrature B ms 0 1 sort ldl).2 i) = 0) ∧
        L (X ^ (2 * (ms.length / 2))) - integ (momentQuadrature B ms 0 1 sort ldl) (fun x => x ^ (2 * (ms.length / 2)))
          = L (q ^ 2) ∧
        integ (momentQuadrature B ms 0 1 sort ldl) (fun x => x ^ (2 * (ms.length / 2)))
          ≤ L (X ^ (2 * (ms.length / 2)))) := by
  have hrep := momentQuadrature_reproduces B hB ms hpd sort ldl
  have hpd' := posDef_normalised _ hpd
  refine ⟨⟨?_, ?_⟩, ?_, ?_, ?_⟩
  · intro mean scale i
    rw [(momentQuadrature_affine B ms mean scale sort ldl).1]
    exact hrep.weight_pos hpd' i
  · intro mean scale hs i j hij
    rw [(momentQuadrature_affine B ms mean scale sort ldl).2] at hij
    refine hrep.injective hpd' ?_
    have : scale * (momentQuadrature B ms 0 1 sort ldl).2 i = scale * (momentQuadrature B ms 0 1 sort ldl).2 j := by
      simpa using hij
    exact mul_left_cancel₀ hs this
  · intro w x hwx f
    exact hrep.unique hpd' hwx f
  · intro hodd f
    refine (hrep.unique hpd' (w' := (momentQuadrature B ms 0 1 sort ldl).1)
      (x' := fun i => -(momentQuadrature B ms 0 1 sort ldl).2 i) ?_ f).symm
    intro k hk
    have h := hrep k hk
    rcases Nat.even_or_odd k with he | ho
    · simp only [he.neg_pow]
      exact h
    · simp only [ho.neg_pow, mul_neg, Finset.sum_neg_distrib]
      beta_reduce at h
      rw [hodd k hk (Nat.odd_iff.1 ho), zero_div] at h ⊢
      rw [h, neg_zero]
  · intro L hL hL1 hsq
    set n := ms.length / 2 with hn
    set x := (momentQuadrature B ms 0 1 sort ldl).2
    set w := (momentQuadrature B ms 0 1 sort ldl).1
    have hmon : (nodePoly x).Monic := monic_prod_of_monic _ _ (fun j _ => monic_X_sub_C _)
    have hroot : ∀ i, (nodePoly x).eval (x i) = 0 := by
      intro i
      rw [eval_nodePoly]
      exact Finset.prod_eq_zero (Finset.mem_univ i) (sub_self _)
    have key : L (X ^ (2 * n)) - ∑ i, w i * x i ^ (2 * n) = L (nodePoly x ^ 2) := by
      rcases Nat.eq_zero_or_pos n with h0 | h0
      · have : IsEmpty (Fin (ms.length / 2)) := by rw [← hn, h0]; infer_instance
        have e1 : nodePoly x = 1 := by simp [nodePoly]
        rw [e1, h0]
        simp
      · have hdeg : (X ^ (2 * n) - nodePoly x ^ 2 : ℝ[X]).natDegree < 2 * n := by
          have hd2 : (nodePoly x ^ 2).natDegree = 2 * n := by
            rw [hmon.natDegree_pow, natDegree_nodePoly]
          have hlt : (X ^ (2 * n) - nodePoly x ^ 2 : ℝ[X]).degree < (X ^ (2 * n) : ℝ[X]).degree := by
            apply degree_sub_lt
            · rw [degree_X_pow, degree_eq_natDegree (hmon.pow 2).ne_zero, hd2]
            · exact pow_ne_zero _ X_ne_zero
            · rw [(monic_X_pow _).leadingCoeff, (hmon.pow 2).leadingCoeff]
          rw [degree_X_pow] at hlt
          by_cases hz : (X ^ (2 * n) - nodePoly x ^ 2 : ℝ[X]) = 0
          · rw [hz, natDegree_zero]; omega
          · exact (natDegree_lt_iff_degree_lt hz).2 hlt
        have hm0 : ms.getD 0 0 = 1 := by rw [hL 0 (by omega), pow_zero, hL1]
        have h1 := hrep.poly _ hdeg
        rw [momFun_functional L _ (2 * n) (fun k hk => by rw [hL k hk, hm0, div_one]) _ hdeg] at h1
        rw [map_sub] at h1
        have h2 : ∑ i, w i * (X ^ (2 * n) - nodePoly x ^ 2 : ℝ[X]).eval (x i) = ∑ i, w i * x i ^ (2 * n) := by
          refine Finset.sum_congr rfl fun i _ => ?_
          simp [hroot i]
        rw [h2] at h1
        linarith
    refine ⟨nodePoly x, hmon, natDegree_nodePoly x, hroot, key, ?_⟩
    have := hsq (nodePoly x)
    rw [integ]
    linarith

/-- hypotheses of C98: moments of the uniform law on `{-1, 1}`, with vanishing odd moments, and that law as functional. -/
example : (gramOf [1, 0, 1, 0]).PosDef ∧ (∀ k < 4, k % 2 = 1 → ([1, 0, 1, 0] : List ℝ).getD k 0 = 0) ∧
    ∃ L : ℝ[X] →ₗ[ℝ] ℝ, (∀ k < 4, ([1, 0, 1, 0] : List ℝ).getD k 0 = L (X ^ k)) ∧ L 1 = 1 ∧ ∀ q, 0 ≤ L (q ^ 2) := by
  refine ⟨gramOf_example, ?_, (1 / 2 : ℝ) • (Polynomial.leval (-1) + Polynomial.leval 1), ?_, ?_, ?_⟩
  · intro k hk h; interval_cases k <;> simp_all
  · intro k hk; interval_cases k <;> simp <;> norm_num
  · simp; norm_num
  · intro q
    simp only [LinearMap.smul_apply, LinearMap.add_apply, leval_apply, eval_pow, smul_eq_mul]
    positivity

end Mfs.Props

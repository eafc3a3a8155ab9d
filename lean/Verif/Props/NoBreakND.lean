import Verif.Props.NegWeights
import Verif.Props.NoBreak
import Mathlib.MeasureTheory.Integral.Prod

/-!
# C127: process noise does not keep the multidimensional filters valid
-/

namespace Mfs.Props

open Matrix Mfs.MultiIndex Mfs.QuadND Mfs.Spec Polynomial MeasureTheory ProbabilityTheory

/-- a polynomial drift. -/
noncomputable def skewDrift (x : List ℝ) : ℝ := √(64 / 5) * ((x.getD 0 0 + 1) * (x.getD 0 0 - 1 / 2) * (x.getD 1 0 ^ 2 - 5 / 4))

/-- moments of the normal law with mean `(skewDrift x, 0)` and unit covariance. -/
noncomputable def skewCond (x : List ℝ) (α : List ℕ) : ℝ :=
  ∫ z : ℝ × ℝ, z.1 ^ α.getD 0 0 * z.2 ^ α.getD 1 0 ∂((gaussianReal (skewDrift x) 1).prod (gaussianReal 0 1))

theorem skewCond_eq (x : List ℝ) (i j : ℕ) :
    skewCond x [i, j] = gaussL (skewDrift x) 1 (X ^ i) * gaussL 0 1 (X ^ j) := by
  rw [skewCond, gaussL_apply, gaussL_apply]
  simp only [eval_pow, eval_X]
  exact integral_prod_mul (fun u : ℝ => u ^ i) fun v : ℝ => v ^ j

theorem gaussL_moments (m : ℝ) : gaussL m 1 (X ^ 0) = 1 ∧ gaussL m 1 (X ^ 1) = m ∧ gaussL m 1 (X ^ 2) = m ^ 2 + 1 := by
  refine ⟨?_, ?_, ?_⟩
  · rw [gaussL_apply]; simp
  · rw [gaussL_apply]; simp
  · rw [gaussL_apply]
    simp only [eval_pow, eval_X]
    have h := rawNormal_raw m 1 zero_le_one 2
    rw [Real.toNNReal_one] at h
    rw [← h]
    norm_num [Moments1.rawMomentOfNormal, Moments1.rawMomentOfStandardNormal, Finset.sum_range_succ, List.range_succ, Nat.factorial, Nat.choose]
    ring

theorem integND_linear (r : List (ℝ × List ℝ)) (c : ℝ) (f g : List ℝ → ℝ) :
    integND r (fun x => f x + c * g x) = integND r f + c * integND r g := by
  have := integND_sub r (fun x => f x) (fun x => (-c) * g x)
  rw [integND_mul_left] at this
  simpa [sub_eq_add_neg] using this

/-- the conditional laws are non-degenerate. -/
theorem skewCond_gram (x : List ℝ) : (gramOn [[0, 0], [0, 1], [1, 0]] (skewCond x)).PosDef := by
  obtain ⟨h0, h1, h2⟩ := gaussL_moments (skewDrift x)
  obtain ⟨k0, k1, k2⟩ := gaussL_moments 0
  have hG : gramOn [[0, 0], [0, 1], [1, 0]] (skewCond x)
      = (!![1, 0, skewDrift x; 0, 1, 0; skewDrift x, 0, skewDrift x ^ 2 + 1] : Matrix (Fin 3) (Fin 3) ℝ) := by
    ext i j
    fin_cases i <;> fin_cases j <;> simp [gramOn, skewCond_eq, h0, h1, h2, k0, k1, k2, -pow_zero, -pow_one]
  rw [hG]
  change (!![1, 0, skewDrift x; 0, 1, 0; skewDrift x, 0, skewDrift x ^ 2 + 1] : Matrix (Fin 3) (Fin 3) ℝ).PosDef
  refine Matrix.PosDef.of_dotProduct_mulVec_pos ?_ ?_
  · ext i j
    fin_cases i <;> fin_cases j <;> simp
  · intro c hc
    have e : star c ⬝ᵥ (!![1, 0, skewDrift x; 0, 1, 0; skewDrift x, 0, skewDrift x ^ 2 + 1] : Matrix (Fin 3) (Fin 3) ℝ) *ᵥ c
        = (c 0 + skewDrift x * c 2) ^ 2 + c 1 ^ 2 + c 2 ^ 2 := by
      simp [dotProduct, mulVec, Fin.sum_univ_three]
      ring
    rw [e]
    by_contra hcon
    have h2' : c 2 = 0 := by nlinarith [sq_nonneg (c 0 + skewDrift x * c 2), sq_nonneg (c 1), sq_nonneg (c 2)]
    have h1' : c 1 = 0 := by nlinarith [sq_nonneg (c 0 + skewDrift x * c 2), sq_nonneg (c 1), sq_nonneg (c 2)]
    have h0' : c 0 = 0 := by
      rw [h2', h1'] at hcon
      nlinarith [sq_nonneg (c 0)]
    apply hc
    ext i
    fin_cases i <;> simp [h0', h1', h2']

/-- **C127 (the claim is false).** Start `moment_filter_nd_rms` with `N = d = 2` from the law on `skewAtoms` (identity
covariance) and let the state move to a normal law with mean `(T(x), 0)`, `T` a polynomial, and unit covariance. Initial and
conditional Gram matrices are positive definite, and the initial moments are those of a probability law. Yet the first
prediction assigns the second moment `-1` to the first coordinate, so the Gram matrix handed to the Cholesky factorisation of
the update is not positive semi-definite. In dimension one this cannot happen (C126). -/
theorem C127_nd_noise_refuted (B : Backend) (hB : B.Valid) (basis full : List (List ℕ)) (mats : List (List (List ℤ)))
    (hbasis : generateMultiIndices 2 (2 - 1) 0 = .ok basis) (hfull : generateMultiIndices 2 (2 * 2 - 1) 0 = .ok full)
    (hmats : gramAndHankelIndices 2 2 = .ok mats) (ldl : Bool) :
    (gramOn basis skewMoment).PosDef ∧ (∀ x, (gramOn basis (skewCond x)).PosDef) ∧
    ∃ predicted : List ℕ → ℝ,
      FilterND.predRms B ldl full mats (.multiIndex fun x α _ => skewCond x α) (full.map skewMoment) = full.map predicted ∧
      predicted [2, 0] = -1 ∧ ¬ (gramOn basis predicted).PosSemidef := by
  have hbasis' : basis = [[0, 0], [0, 1], [1, 0]] := by
    have : generateMultiIndices 2 (2 - 1) 0 = .ok [[0, 0], [0, 1], [1, 0]] := rfl
    rw [hbasis] at this
    exact Except.ok.inj this
  subst hbasis'
  refine ⟨by rw [skew_gram]; exact Matrix.PosDef.one, skewCond_gram,
    fun α => integND (momentQuadratureND B (full.map skewMoment) mats none none false ldl) fun x => skewCond x α, ?_, ?_⟩
  · apply List.ext_getElem
    · simp [FilterND.predRms, FilterND.wsumVec]
    · intro k h1 h2
      have hk : k < full.length := by simpa using h2
      simp only [FilterND.predRms, FilterND.wsumVec, FilterND.CondMoments.row, List.getElem_map, List.getElem_range,
        FilterND.wsum_eq]
      refine integND_congr fun p _ => ?_
      simp [List.getD_eq_getElem?_getD, hk]
  · have hval : integND (momentQuadratureND B (full.map skewMoment) mats none none false ldl) (fun x => skewCond x [2, 0]) = -1 := by
      have e : (fun x => skewCond x [2, 0]) = fun x => 1 + 64 / 5 * skewSq x := by
        funext x
        rw [skewCond_eq, (gaussL_moments _).2.2, (gaussL_moments 0).1, skewDrift, skewSq, mul_pow, Real.sq_sqrt (by norm_num)]
        ring
      have hone : integND (momentQuadratureND B (full.map skewMoment) mats none none false ldl) (fun _ => 1) = 1 := by
        have := C22_nd_weights_sum_one B hB (full.map skewMoment) mats (C22_applies 2 2 (by norm_num) (by norm_num) mats hmats).1
          (C22_applies 2 2 (by norm_num) (by norm_num) mats hmats).2 none none false ldl
        simpa [integND] using this
      have hsq : integND (momentQuadratureND B (full.map skewMoment) mats none none false ldl) skewSq = -5 / 32 := by
        have : skewSq = fun x => (((X + C 1) * (X - C (1 / 2))) ^ 2 : ℝ[X]).eval (x.getD 0 0)
            * ((X ^ 2 - C (5 / 4)) ^ 2 : ℝ[X]).eval (x.getD 1 0) := by
          funext x; simp [skewSq]
        rw [this, skew_rule B hB hfull hmats, aeval_skew1, aeval_skew2]
        simp [Matrix.mul_apply, Fin.sum_univ_three]
        norm_num
      rw [e, integND_linear, hone, hsq]
      norm_num
    refine ⟨hval, fun hps => ?_⟩
    have := hps.diag_nonneg (i := (⟨2, by simp⟩ : Fin ([[0, 0], [0, 1], [1, 0]] : List (List ℕ)).length))
    rw [gramOn, Matrix.of_apply] at this
    simp only [Fin.getElem_fin, List.getElem_cons_succ, List.getElem_cons_zero, List.zipWith_cons_cons, List.zipWith_nil_left] at this
    norm_num at this
    rw [hval] at this
    norm_num at this

/-- **C127, what is true.** If the conditional laws have positive definite Gram matrices and the rule of the current moments
has non-negative weights, the predicted Gram matrix is positive definite. Missing: rules with negative weights, where it is
false (`C127_nd_noise_refuted`); the weights are non-negative in dimension one (C126 and C113) and for products (C114). -/
theorem C127_nd_noise_partial (B : Backend) (hB : B.Valid) (N d : ℕ) (hN : 1 ≤ N) (hd : 1 ≤ d) (basis full : List (List ℕ))
    (mats : List (List (List ℤ))) (hmats : gramAndHankelIndices N d = .ok mats) (stable : Bool) (ms : List ℝ)
    (cond : List ℝ → List ℕ → ℝ) (hcond : ∀ x, (gramOn basis (cond x)).PosDef)
    (hw : ∀ q ∈ momentQuadratureND B ms mats none none false stable, 0 ≤ q.1) :
    ∃ predicted : List ℕ → ℝ,
      FilterND.predRms B stable full mats (.multiIndex fun x α _ => cond x α) ms = full.map predicted ∧
      (gramOn basis predicted).PosDef := by
  refine ⟨fun α => integND (momentQuadratureND B ms mats none none false stable) fun x => cond x α, ?_, ?_⟩
  · apply List.ext_getElem
    · simp [FilterND.predRms, FilterND.wsumVec]
    · intro k h1 h2
      have hk : k < full.length := by simpa using h2
      simp only [FilterND.predRms, FilterND.wsumVec, FilterND.CondMoments.row, List.getElem_map, List.getElem_range,
        FilterND.wsum_eq]
      refine integND_congr fun p _ => ?_
      simp [List.getD_eq_getElem?_getD, hk]
  · have hsum : ((momentQuadratureND B ms mats none none false stable).map fun p => p.1).sum = 1 :=
      C22_nd_weights_sum_one B hB ms mats (C22_applies N d hN hd mats hmats).1 (C22_applies N d hN hd mats hmats).2 none none false stable
    generalize momentQuadratureND B ms mats none none false stable = r at hw hsum
    have hpsd : ∀ r : List (ℝ × List ℝ), (∀ q ∈ r, 0 ≤ q.1) → (gramOn basis fun α => integND r fun x => cond x α).PosSemidef ∧
        (0 < (r.map fun p => p.1).sum → (gramOn basis fun α => integND r fun x => cond x α).PosDef) := by
      intro r
      induction r with
      | nil =>
        intro _
        refine ⟨?_, by simp⟩
        have : (gramOn basis fun α => integND [] fun x => cond x α) = 0 := by
          ext a b
          simp [gramOn, integND]
        rw [this]
        exact Matrix.PosSemidef.zero
      | cons q r ih =>
        intro h
        obtain ⟨h1, h2⟩ := ih fun p hp => h p (List.mem_cons_of_mem _ hp)
        have hq := h q List.mem_cons_self
        have e : (gramOn basis fun α => integND (q :: r) fun x => cond x α)
            = q.1 • gramOn basis (cond q.2) + gramOn basis fun α => integND r fun x => cond x α := by
          ext a b
          simp [gramOn, integND]
        rw [e]
        refine ⟨((hcond q.2).posSemidef.smul hq).add h1, fun hs => ?_⟩
        rcases hq.eq_or_lt with h0 | h0
        · rw [List.map_cons, List.sum_cons, ← h0, zero_add] at hs
          exact (h2 hs).posSemidef_add ((hcond q.2).posSemidef.smul hq)
        · exact ((hcond q.2).smul h0).add_posSemidef h1
    exact (hpsd r hw).2 (by rw [hsum]; exact one_pos)

/-- hypotheses met in dimension one, `N = 2`, by the uniform law on `{-1, 1}` and conditional laws with unit second moment. -/
example : ∃ mats, gramAndHankelIndices 2 1 = .ok mats ∧
    (∀ q ∈ momentQuadratureND theBackend [1, 0, 1, 0] mats none none false false, 0 ≤ q.1) ∧
    (gramOn [[0], [1]] fun α => [1, 0, 1].getD (α.headD 0) 0).PosDef := by
  obtain ⟨_, _, mats, _, _, h3, _⟩ := C05_gram_hankel_indices 2 1 (by norm_num) (by norm_num)
  refine ⟨mats, h3, ((C113_weights_nonneg_partial theBackend theBackend_valid false false).1 2 mats [1, 0, 1, 0] 0 1 (by norm_num) h3 rfl).1, ?_⟩
  have : (gramOn [[0], [1]] fun α => [1, 0, 1].getD (α.headD 0) 0) = (1 : Matrix (Fin 2) (Fin 2) ℝ) := by
    ext i j
    fin_cases i <;> fin_cases j <;> simp [gramOn]
  rw [this]
  exact Matrix.PosDef.one

end Mfs.Props

import Verif.Props.SigmaPoints
import Verif.Props.Moments1
import Verif.Props.Quad1More
import Verif.Lemmas.Converge

/-!
# Property C112: the moment quadrature of a normal law is the Gauss–Hermite rule
-/

namespace Mfs.Props

open Matrix Mfs.Spec Mfs.Quad1 Mfs.Moments1 Mfs.Classical Mfs.Converge Polynomial MeasureTheory ProbabilityTheory
open scoped NNReal

/-- expectation of polynomials under `N(m, v)`. -/
noncomputable def gaussL (m : ℝ) (v : ℝ≥0) : ℝ[X] →ₗ[ℝ] ℝ where
  toFun p := ∫ x, p.eval x ∂gaussianReal m v
  map_add' p q := by
    simp only [eval_add]
    exact integral_add (integrable_poly_gaussianReal m v p) (integrable_poly_gaussianReal m v q)
  map_smul' c p := by
    simp only [eval_smul, smul_eq_mul, RingHom.id_apply]
    exact integral_const_mul _ _

theorem gaussL_apply (m : ℝ) (v : ℝ≥0) (p : ℝ[X]) : gaussL m v p = ∫ x, p.eval x ∂gaussianReal m v := rfl

theorem gaussL_sq_pos (m : ℝ) {v : ℝ≥0} (hv : v ≠ 0) (q : ℝ[X]) (hq : q ≠ 0) : 0 < gaussL m v (q ^ 2) := by
  rw [gaussL_apply, integral_pos_iff_support_of_nonneg (fun x => by rw [eval_pow]; positivity)
    (integrable_poly_gaussianReal m v _)]
  have hsup : (Function.support fun x => (q ^ 2).eval x) = (q.roots.toFinset : Set ℝ)ᶜ := by
    ext x
    simp [hq]
  have := nullSingletonClass_gaussianReal (μ := m) hv
  rw [hsup, measure_compl (Finset.measurableSet _) (measure_ne_top _ _), Set.Finite.measure_zero (Finset.finite_toSet _)]
  simp

/-- polynomials against the one-dimensional Gauss–Hermite rule. -/
theorem gh_poly (n : ℕ) (roots : ℕ → ℝ) (hinj : ∀ i j, i < n → j < n → roots i = roots j → i = j)
    (hroot : ∀ j, j < n → polyval ((genHermitePolyCoeff n).getLastD []) (roots j) = 0) (m : ℝ) (v : ℝ≥0) (p : ℝ[X])
    (hp : p.natDegree < 2 * n) :
    ∑ c, (SigmaPoints.gaussHermite 1 n roots).w c * p.eval (m + √v * (SigmaPoints.gaussHermite 1 n roots).xi c 0)
      = gaussL m v p := by
  have h := C74_gauss_hermite 1 n roots hinj hroot
    (Polynomial.aeval (MvPolynomial.C m + MvPolynomial.C (√(v : ℝ)) * MvPolynomial.X 0) p) ?_
  · have he : ∀ z : Fin 1 → ℝ, MvPolynomial.eval z
        (Polynomial.aeval (MvPolynomial.C m + MvPolynomial.C (√(v : ℝ)) * MvPolynomial.X 0) p) = p.eval (m + √v * z 0) := by
      intro z
      rw [Polynomial.aeval_def, Polynomial.hom_eval₂, Polynomial.eval]
      congr 1
      · ext x; simp
      · simp
    simp only [he] at h
    rw [h, gaussL_apply, integral_gaussianReal_std m v _ p.continuous]
    have := integral_fintype_prod_eq_prod (μ := fun _ : Fin 1 => gaussianReal 0 1) (fun _ (y : ℝ) => p.eval (m + √v * y))
    simpa using this
  · intro r
    refine (MvPolynomial.degreeOf_le_totalDegree _ r).trans_lt (lt_of_le_of_lt ?_ hp)
    rw [Polynomial.aeval_eq_sum_range]
    refine MvPolynomial.totalDegree_finsetSum_le fun i hi => ?_
    refine (MvPolynomial.totalDegree_smul_le _ _).trans ((MvPolynomial.totalDegree_pow _ _).trans ?_)
    have h1 : (MvPolynomial.C m + MvPolynomial.C (√(v : ℝ)) * MvPolynomial.X 0 : MvPolynomial (Fin 1) ℝ).totalDegree ≤ 1 := by
      refine (MvPolynomial.totalDegree_add _ _).trans (max_le (by rw [MvPolynomial.totalDegree_C]; omega) ?_)
      refine (MvPolynomial.totalDegree_mul _ _).trans ?_
      rw [MvPolynomial.totalDegree_C, MvPolynomial.totalDegree_X]
    have h2 : i ≤ p.natDegree := by simpa [Nat.lt_succ_iff] using hi
    nlinarith

/-- the rule from the first `2n` moments of `(X - a) / s`, where `X` is `N(m, v)`. -/
theorem normal_rule (B : Backend) (hB : B.Valid) (n : ℕ) (hn : 1 ≤ n) (roots : ℕ → ℝ)
    (hinj : ∀ i j, i < n → j < n → roots i = roots j → i = j)
    (hroot : ∀ j, j < n → polyval ((genHermitePolyCoeff n).getLastD []) (roots j) = 0) (m : ℝ) (v : ℝ≥0) (hv : v ≠ 0)
    (ms : List ℝ) (hl : ms.length = 2 * n) (a s : ℝ) (hs : s ≠ 0)
    (hms : ∀ k < 2 * n, ms.getD k 0 = ∫ x, ((x - a) / s) ^ k ∂gaussianReal m v) (sort ldl : Bool) (f : ℝ → ℝ) :
    integ (momentQuadrature B ms a s sort ldl) f
      = ∑ c, (SigmaPoints.gaussHermite 1 n roots).w c * f (m + √v * (SigmaPoints.gaussHermite 1 n roots).xi c 0) := by
  have hl2 : ms.length / 2 = n := by omega
  have hms' : ∀ k < 2 * n, ms.getD k 0 = gaussL m v (affPoly a s ^ k) := by
    intro k hk
    rw [hms k hk, gaussL_apply]
    simp only [eval_pow, affPoly_eval]
  have hm0 : ms.getD 0 0 = 1 := by
    rw [hms' 0 (by omega), pow_zero, gaussL_apply]; simp
  let L' : ℝ[X] →ₗ[ℝ] ℝ := (gaussL m v).comp (aeval (affPoly a s)).toLinearMap
  have hL' : ∀ p, L' p = gaussL m v (p.comp (affPoly a s)) := fun p => rfl
  have hpd : (gramOf ms).PosDef := by
    refine (posDef_hankel_iff L' _ _ (fun k hk => ?_)).2 fun q hq _ => ?_
    · rw [hms' k (by omega), hL', X_pow_comp]
    · rw [hL', pow_comp]
      refine gaussL_sq_pos m hv _ fun h0 => hq ?_
      have : q = (q.comp (affPoly a s)).comp (C s * X + C a) := by
        rw [comp_assoc, affPoly_comp a hs, comp_X]
      rw [this, h0, zero_comp]
  rw [(C10_affine B hB ms a s sort ldl).1]
  have hcard : ms.length / 2 = n ^ 1 := by rw [pow_one]; exact hl2
  set S := SigmaPoints.gaussHermite 1 n roots with hS
  have hSn : S.nPoints = n ^ 1 := rfl
  let e : Fin (ms.length / 2) ≃ Fin S.nPoints := finCongr (hcard.trans hSn.symm)
  have key := (C98_rule_shape B hB ms hpd sort ldl).2.1 (fun i => S.w (e i)) (fun i => (m + √v * S.xi (e i) 0 - a) / s) (by
    intro k hk
    rw [hm0, div_one, hms' k (by omega), ← gh_poly n roots hinj hroot m v (affPoly a s ^ k) ?_]
    · rw [← hS, ← e.sum_comp]
      simp only [eval_pow, affPoly_eval]
    · have : (affPoly a s).natDegree ≤ 1 := by
        rw [affPoly]
        exact (natDegree_C_mul_le _ _).trans (natDegree_X_sub_C_le _)
      have := natDegree_pow_le (p := affPoly a s) (n := k)
      nlinarith) (fun y => f (s * y + a))
  rw [key, ← e.sum_comp]
  refine Finset.sum_congr rfl fun i _ => ?_
  congr 2
  field_simp
  ring

/-- **C112.** For `N(m, v)` with `v > 0`, `moment_quadrature` applied to the library's own closed-form moments (raw, central
about `m`, or scaled by the standard deviation) integrates every function exactly as the library's one-dimensional
Gauss–Hermite rule of the same order, as used by `gaussian_expectation`. `roots` are the distinct roots handed over by
`np.roots`; they exist by `C74_roots_exist`. The central form asks `factorial2(-1) = 1` (see C39). -/
theorem C112_normal_is_gauss_hermite (B : Backend) (hB : B.Valid) (n : ℕ) (hn : 1 ≤ n) (roots : ℕ → ℝ)
    (hinj : ∀ i j, i < n → j < n → roots i = roots j → i = j)
    (hroot : ∀ j, j < n → polyval ((genHermitePolyCoeff n).getLastD []) (roots j) = 0) (m : ℝ) (v : ℝ≥0) (hv : v ≠ 0)
    (sort ldl : Bool) (f : ℝ → ℝ) :
    let gh := gaussianExpectation 1 n roots [fun _ => m] [!![√(v : ℝ)]] (fun x => f (x 0))
    gh = [integ (momentQuadrature B ((List.range (2 * n)).map (rawMomentOfNormal m v)) 0 1 sort ldl) f] ∧
    (∀ df : ℤ → ℕ, (∀ k : ℕ, df k = k.doubleFactorial) → df (-1) = 1 →
      gh = [integ (momentQuadrature B ((List.range (2 * n)).map (centralMomentOfNormal df v)) m 1 sort ldl) f]) ∧
    gh = [integ (momentQuadrature B ((List.range (2 * n)).map rawMomentOfStandardNormal) m (√(v : ℝ)) sort ldl) f] := by
  intro gh
  have hgh : gh = [∑ c, (SigmaPoints.gaussHermite 1 n roots).w c * f (m + √v * (SigmaPoints.gaussHermite 1 n roots).xi c 0)] := by
    simp only [gh, gaussianExpectation, List.zipWith_cons_cons, List.zipWith_nil_left, SigmaPoints.expectationFromNodes,
      SigmaPoints.genSigmaPoints, smul_eq_mul]
    congr 1
    refine Finset.sum_congr rfl fun c _ => ?_
    simp [dotProduct]
  have hsv : √(v : ℝ) ≠ 0 := Real.sqrt_ne_zero'.2 (by positivity)
  obtain ⟨c1, c2, c3⟩ := C39_normal_moments
  rw [hgh]
  refine ⟨?_, fun df hdf h1 => ?_, ?_⟩
  · rw [normal_rule B hB n hn roots hinj hroot m v hv _ (by simp) 0 1 one_ne_zero]
    intro k hk
    rw [getD_map_range _ hk, c2]
    simp
  · rw [normal_rule B hB n hn roots hinj hroot m v hv _ (by simp) m 1 one_ne_zero]
    intro k hk
    rw [getD_map_range _ hk]
    simp only [div_one]
    rcases Nat.eq_zero_or_pos k with rfl | hk0
    · exact ((c3 df hdf m v 0).2).2 h1
    · exact (c3 df hdf m v k).1 (by omega)
  · rw [normal_rule B hB n hn roots hinj hroot m v hv _ (by simp) m _ hsv]
    intro k hk
    rw [getD_map_range _ hk, c1, integral_gaussianReal_std m v (fun x => ((x - m) / √(v : ℝ)) ^ k) (by fun_prop)]
    refine integral_congr_ae (Filter.Eventually.of_forall fun z => ?_)
    simp only
    congr 1
    field_simp
    ring

/-- the hypotheses can be met for every order. -/
example (n : ℕ) : theBackend.Valid ∧ ∃ roots : ℕ → ℝ, (∀ i j, i < n → j < n → roots i = roots j → i = j) ∧
    ∀ j, j < n → polyval ((genHermitePolyCoeff n).getLastD []) (roots j) = 0 := ⟨theBackend_valid, C74_roots_exist n⟩

end Mfs.Props

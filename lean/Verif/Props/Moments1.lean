import Verif.Model.Moments1
import Verif.Lemmas.GaussReal
import Verif.Lemmas.Quad1
import Mathlib.Probability.Moments.Variance

/-!
# Properties C39 – C43, C47: moments of normal laws, conversions, transition moments, Gaussian sums
-/

namespace Mfs.Props

open MeasureTheory ProbabilityTheory Mfs.Moments1 Mfs.Quad1
open scoped NNReal

theorem sum_map_range_real (f : ℕ → ℝ) (n : ℕ) : ((List.range n).map f).sum = ∑ i ∈ Finset.range n, f i := by
  induction n with
  | zero => simp
  | succ n ih => rw [List.range_succ, Finset.sum_range_succ]; simp [ih]

theorem getD_map_range_real {n j : ℕ} (f : ℕ → ℝ) (h : j < n) : ((List.range n).map f).getD j 0 = f j := by
  simp [List.getD_eq_getElem?_getD, h]

theorem jget_map_range {n j : ℕ} (f : ℕ → ℝ) (h : j < n) : jget ((List.range n).map f) j = f j := by
  rw [jget_eq (by simpa using h), getD_map_range_real f h]

/-! ## C39 -/

theorem rawStd_eq (p : ℕ) : rawMomentOfStandardNormal p = ∫ z : ℝ, z ^ p ∂gaussianReal 0 1 := by
  rw [rawMomentOfStandardNormal]
  rcases Nat.even_or_odd' p with ⟨k, rfl | rfl⟩
  · rw [if_pos (by omega), std_moment_even]
    have h1 : ((2 * k : ℕ) : ℝ) / 2 = (k : ℝ) := by push_cast; ring
    have h2 : 2 * k / 2 = k := by omega
    rw [h1, h2, Real.rpow_natCast]
  · rw [if_neg (by omega), std_moment_odd]

theorem rpow_half (v : ℝ) (hv : 0 ≤ v) (n : ℕ) : v ^ ((n : ℝ) / 2) = √v ^ n := by
  rw [Real.sqrt_eq_rpow, ← Real.rpow_natCast, ← Real.rpow_mul hv]
  congr 1
  ring

theorem rawNormal_eq (m : ℝ) (v : ℝ≥0) (p : ℕ) : rawMomentOfNormal m v p = ∫ x, x ^ p ∂gaussianReal m v := by
  rw [gauss_moment, rawMomentOfNormal, sum_map_range_real]
  apply Finset.sum_congr rfl
  intro j _
  rw [rpow_half _ v.coe_nonneg, rawStd_eq]

/-- **C39.** The closed forms are the integrals under Mathlib's normal law `gaussianReal`, for every mean, variance
`v ≥ 0` and order. `df` stands for SciPy's `factorial2`, assumed correct on the natural numbers; the zeroth central moment
asks it for `(-1)!!`, so it is right exactly when the installed SciPy returns `1` there. -/
theorem C39_normal_moments :
    (∀ p, rawMomentOfStandardNormal p = ∫ z : ℝ, z ^ p ∂gaussianReal 0 1) ∧
    (∀ (m : ℝ) (v : ℝ≥0) (p : ℕ), rawMomentOfNormal m v p = ∫ x, x ^ p ∂gaussianReal m v) ∧
    ∀ (df : ℤ → ℕ), (∀ n : ℕ, df n = n.doubleFactorial) → ∀ (m : ℝ) (v : ℝ≥0) (p : ℕ),
      (p ≠ 0 → centralMomentOfNormal df v p = ∫ x, (x - m) ^ p ∂gaussianReal m v) ∧
      (centralMomentOfNormal df v 0 = ∫ x, (x - m) ^ 0 ∂gaussianReal m v ↔ df (-1) = 1) := by
  refine ⟨rawStd_eq, rawNormal_eq, ?_⟩
  intro df hdf m v p
  refine ⟨fun hp => ?_, ?_⟩
  · rw [integral_gaussianReal_std m v (fun x => (x - m) ^ p) (by fun_prop), centralMomentOfNormal]
    have : ∀ z : ℝ, (m + √(v : ℝ) * z - m) ^ p = √(v : ℝ) ^ p * z ^ p := by
      intro z; rw [← mul_pow]; congr 1; ring
    simp only [this]
    rw [integral_const_mul]
    rcases Nat.even_or_odd' p with ⟨k, rfl | rfl⟩
    · rw [if_pos (by omega), std_moment_even']
      have : ((2 * k : ℕ) : ℤ) - 1 = ((2 * k - 1 : ℕ) : ℤ) := by omega
      rw [this, hdf]
    · rw [if_neg (by omega), std_moment_odd, mul_zero]
  · simp [centralMomentOfNormal]

/-- a double factorial as in the hypothesis, with `(-1)!! = 1`. -/
example : ∃ df : ℤ → ℕ, (∀ n : ℕ, df n = n.doubleFactorial) ∧ df (-1) = 1 :=
  ⟨fun n => n.toNat.doubleFactorial, fun n => by simp, by simp⟩

/-- the fourth moment of `N(1, 2)` is `1 + 6·2 + 3·4 = 25`. -/
example : rawMomentOfNormal 1 2 4 = 25 := by
  norm_num [rawMomentOfNormal, rawMomentOfStandardNormal, List.range_succ, Nat.factorial, Nat.choose]

/-! ## C40, C41 -/

section conversions

open Polynomial

theorem length_rawToCentral (rms : List ℝ) : (rawToCentral rms).length = rms.length := by simp [rawToCentral]

theorem length_centralToRaw (cms : List ℝ) (m : ℝ) : (centralToRaw cms m).length = cms.length := by simp [centralToRaw]

theorem sum_range_ite {s n : ℕ} (h : n < s) (f : ℕ → ℝ) :
    ∑ j ∈ Finset.range s, (if n ≥ j then f j else 0) = ∑ j ∈ Finset.range (n + 1), f j := by
  rw [← Finset.sum_filter]
  apply Finset.sum_congr _ fun _ _ => rfl
  ext j
  simp only [Finset.mem_filter, Finset.mem_range]
  omega

/-- the functional with `L (X ^ n) = f n`. -/
noncomputable def seqFun (f : ℕ → ℝ) : ℝ[X] →ₗ[ℝ] ℝ := Polynomial.lsum fun n => f n • LinearMap.id

theorem seqFun_X_pow (f : ℕ → ℝ) (n : ℕ) : seqFun f (X ^ n) = f n := by
  rw [seqFun, Polynomial.lsum_apply, Polynomial.X_pow_eq_monomial, Polynomial.sum_monomial_index _ _ (by simp)]
  simp

theorem L_sub_pow (L : ℝ[X] →ₗ[ℝ] ℝ) (m : ℝ) (n : ℕ) :
    L ((X - C m) ^ n) = ∑ j ∈ Finset.range (n + 1), (n.choose j : ℝ) * (-1) ^ (n - j) * L (X ^ j) * m ^ (n - j) := by
  rw [sub_eq_add_neg, ← C_neg, add_pow, map_sum]
  apply Finset.sum_congr rfl
  intro j _
  have : (X : ℝ[X]) ^ j * C (-m) ^ (n - j) * (n.choose j : ℝ[X]) = ((-m) ^ (n - j) * (n.choose j : ℝ)) • X ^ j := by
    rw [smul_eq_C_mul]; simp only [map_mul, map_pow, map_natCast]; ring
  rw [this, map_smul, smul_eq_mul, neg_pow]
  ring

theorem getElem_rawToCentral (L : ℝ[X] →ₗ[ℝ] ℝ) (rms : List ℝ) (h : ∀ j < rms.length, rms.getD j 0 = L (X ^ j)) (n : ℕ)
    (hn : n < (rawToCentral rms).length) : (rawToCentral rms)[n] = L ((X - C (jget rms 1)) ^ n) := by
  have hn' : n < rms.length := by simpa [length_rawToCentral] using hn
  simp only [rawToCentral, List.getElem_map, List.getElem_range]
  rw [sum_map_range_real, sum_range_ite hn', L_sub_pow]
  apply Finset.sum_congr rfl
  intro j hj
  rw [Finset.mem_range] at hj
  rw [jget_eq (by omega), h j (by omega), makePascalTriangle]

theorem getElem_centralToRaw (L : ℝ[X] →ₗ[ℝ] ℝ) (cms : List ℝ) (m : ℝ)
    (h : ∀ j < cms.length, cms.getD j 0 = L ((X - C m) ^ j)) (n : ℕ) (hn : n < (centralToRaw cms m).length) :
    (centralToRaw cms m)[n] = L (X ^ n) := by
  have hn' : n < cms.length := by simpa [length_centralToRaw] using hn
  simp only [centralToRaw, List.getElem_map, List.getElem_range]
  rw [sum_map_range_real, sum_range_ite hn']
  have : (X : ℝ[X]) ^ n = ((X - C m) + C m) ^ n := by ring
  rw [this, add_pow, map_sum]
  apply Finset.sum_congr rfl
  intro j hj
  rw [Finset.mem_range] at hj
  have e : ((X : ℝ[X]) - C m) ^ j * C m ^ (n - j) * (n.choose j : ℝ[X]) = (m ^ (n - j) * (n.choose j : ℝ)) • (X - C m) ^ j := by
    rw [smul_eq_C_mul]; simp only [map_mul, map_pow, map_natCast]; ring
  rw [jget_eq (by omega), h j (by omega), makePascalTriangle, e, map_smul, smul_eq_mul]
  ring

/-- **C40.** On the first `s` raw moments of a law (a linear functional on polynomials), `raw_to_central` returns its first `s` central
moments. -/
theorem C40_raw_to_central (L : ℝ[X] →ₗ[ℝ] ℝ) (s : ℕ) :
    rawToCentral ((List.range s).map fun n => L (X ^ n)) = (List.range s).map fun n => L ((X - C (L X)) ^ n) := by
  apply List.ext_getElem
  · simp [rawToCentral]
  · intro n h1 h2
    have hs : n < s := by simpa using h2
    rw [getElem_rawToCentral L _ (fun j hj => getD_map_range_real _ (by simpa using hj))]
    simp only [List.getElem_map, List.getElem_range]
    rcases Nat.lt_or_ge 1 s with h | h
    · rw [jget_map_range _ h, pow_one]
    · obtain rfl : n = 0 := by omega
      simp

/-- mean `1/2`: raw moments `1, 1/2, 1/2, 1/2` (a fair coin) give central moments `1, 0, 1/4, 0`. -/
example : rawToCentral [1, 1/2, 1/2, 1/2] = [1, 0, 1/4, 0] := by
  norm_num [rawToCentral, List.range_succ, jget, makePascalTriangle, Nat.choose]

/-- **C41.** For vectors of every length: `central_to_raw` undoes `raw_to_central` (given `rms[1]` as mean), `raw_to_central`
undoes `central_to_raw` when the first two central moments are `1` and `0`, and `scaled_to_central` undoes
`raw_to_scaled` for every non-zero scale and for the default one. -/
theorem C41_conversions_inverse :
    (∀ rms : List ℝ, centralToRaw (rawToCentral rms) (jget rms 1) = rms) ∧
    (∀ (cms : List ℝ) (m : ℝ), cms.getD 0 1 = 1 → cms.getD 1 0 = 0 → rawToCentral (centralToRaw cms m) = cms) ∧
    (∀ (rms : List ℝ) (s : ℝ), s ≠ 0 → scaledToCentral (rawToScaled rms (some s)) s = rawToCentral rms) ∧
    (∀ rms : List ℝ, jget rms 1 ^ 2 < jget rms 2 →
      scaledToCentral (rawToScaled rms) (Real.sqrt (jget rms 2 - jget rms 1 ^ 2)) = rawToCentral rms) := by
  have hsc : ∀ (rms : List ℝ) (s : ℝ), s ≠ 0 → scaledToCentral (rawToScaled rms (some s)) s = rawToCentral rms := by
    intro rms s hs
    apply List.ext_getElem
    · simp [scaledToCentral, rawToScaled, length_rawToCentral]
    · intro n h1 h2
      simp only [scaledToCentral, rawToScaled, List.getElem_zipWith, List.getElem_map, List.getElem_range, Option.getD_some]
      exact div_mul_cancel₀ _ (pow_ne_zero _ hs)
  refine ⟨?_, ?_, hsc, ?_⟩
  · intro rms
    apply List.ext_getElem
    · simp [length_rawToCentral, length_centralToRaw]
    · intro n h1 h2
      have h := getElem_rawToCentral (seqFun fun n => rms.getD n 0) rms (fun j _ => (seqFun_X_pow (fun n => rms.getD n 0) j).symm)
      rw [getElem_centralToRaw (seqFun fun n => rms.getD n 0)]
      · rw [seqFun_X_pow]; simp [h2]
      · intro j hj
        rw [List.getD_eq_getElem?_getD, List.getElem?_eq_getElem hj, Option.getD_some, h]
  · intro cms m h0 h1
    have hL : ∀ j < cms.length, cms.getD j 0
        = ((seqFun fun n => cms.getD n 0).comp (Polynomial.taylorAlgHom m : ℝ[X] →ₐ[ℝ] ℝ[X]).toLinearMap) ((X - C m) ^ j) := by
      intro j _
      simp only [LinearMap.comp_apply, AlgHom.toLinearMap_apply, map_pow, map_sub]
      simp [Polynomial.taylorAlgHom_apply, seqFun_X_pow]
    generalize ((seqFun fun n => cms.getD n 0).comp (Polynomial.taylorAlgHom m : ℝ[X] →ₐ[ℝ] ℝ[X]).toLinearMap) = L at hL
    have hr := getElem_centralToRaw L cms m hL
    apply List.ext_getElem
    · simp [length_rawToCentral, length_centralToRaw]
    · intro n h1' h2'
      rw [getElem_rawToCentral L]
      · have : cms[n] = cms.getD n 0 := by simp [h2']
        rw [this, hL n h2']
        rcases Nat.lt_or_ge 1 cms.length with h | h
        · rw [jget_eq (by simpa [length_centralToRaw] using h)]
          have e : (centralToRaw cms m).getD 1 0 = m := by
            rw [List.getD_eq_getElem?_getD, List.getElem?_eq_getElem (by simpa [length_centralToRaw] using h), Option.getD_some, hr]
            have e0 : L 1 = 1 := by
              have := hL 0 (by omega)
              rw [pow_zero] at this
              rw [← this, ← h0]
              simp [show 0 < cms.length by omega]
            have e1 := hL 1 h
            rw [h1, pow_one, map_sub] at e1
            have : L (C m) = m := by
              rw [← mul_one (C m), ← smul_eq_C_mul, map_smul, e0]; simp
            rw [pow_one]; linarith
          rw [e]
        · obtain rfl : n = 0 := by omega
          simp
      · intro j hj
        rw [List.getD_eq_getElem?_getD, List.getElem?_eq_getElem hj, Option.getD_some, hr]
  · intro rms h
    have := hsc rms _ (Real.sqrt_pos.2 (sub_pos.2 h)).ne'
    simpa [rawToScaled] using this

example : (([1, 0, 3] : List ℝ).getD 0 1 = 1) ∧ ([1, 0, 3] : List ℝ).getD 1 0 = 0 ∧
    jget [1, 1, 3] 1 ^ 2 < jget [1, 1, 3] 2 := by norm_num [jget]

end conversions

/-! ## C42 -/

theorem rawNormal_central (m v c : ℝ) (hv : 0 ≤ v) (p : ℕ) :
    rawMomentOfNormal (m - c) v p = ∫ x, (x - c) ^ p ∂gaussianReal m v.toNNReal := by
  rw [gauss_central, ← rawNormal_eq, Real.coe_toNNReal _ hv]

theorem rawNormal_raw (m v : ℝ) (hv : 0 ≤ v) (p : ℕ) :
    rawMomentOfNormal m v p = ∫ x, x ^ p ∂gaussianReal m v.toNNReal := by
  rw [← rawNormal_eq, Real.coe_toNNReal _ hv]

/-- the raw and central functions of `F` are the moments of the normal law with the mean and variance it returns, up to
order `n < 2 N`; mean and variance are the mean and variance of that law. -/
def NormalConsistent (F : CondFns) (N : ℕ) (x : ℝ) : Prop :=
  let law := gaussianReal (F.meanVar x).1 (F.meanVar x).2.toNNReal
  (∀ n < 2 * N, F.raw x n = ∫ y, y ^ n ∂law) ∧ (∀ n < 2 * N, ∀ m, F.central x n m = ∫ y, (y - m) ^ n ∂law) ∧
  F.mean x = ∫ y, y ∂law ∧ (F.meanVar x).2 = Var[fun y => y; law]

/-- **C42.** The raw and central conditional moments of `sde_cond_moments_euler` (every drift, dispersion, step `dt ≥ 0`) and
of `sde_cond_moments_tme_normal` (whenever the variance computed by `tme` is non-negative and its expectation of the
identity is its mean) are those of one normal law, with the returned mean and variance. -/
theorem C42_transition_consistent :
    (∀ (drift dispersion : ℝ → ℝ) (dt : ℝ), 0 ≤ dt → ∀ N x, NormalConsistent (sdeCondMomentsEuler drift dispersion dt N) N x) ∧
    (∀ (expect : (ℝ → ℝ) → ℝ → ℝ) (meanCov : ℝ → ℝ × ℝ) (N : ℕ) (x : ℝ), 0 ≤ (meanCov x).2 →
      expect (fun u => u) x = (meanCov x).1 → NormalConsistent (sdeCondMomentsTmeNormal expect meanCov N) N x) := by
  refine ⟨?_, ?_⟩
  · intro drift dispersion dt hdt N x
    have hv : 0 ≤ dispersion x ^ 2 * dt := mul_nonneg (sq_nonneg _) hdt
    refine ⟨?_, ?_, ?_, ?_⟩
    · intro n hn
      exact (jget_map_range _ hn).trans (rawNormal_raw _ _ hv n)
    · intro n hn m
      exact (jget_map_range _ hn).trans (rawNormal_central _ _ m hv n)
    · rw [integral_id_gaussianReal]; rfl
    · rw [variance_fun_id_gaussianReal]; exact (Real.coe_toNNReal _ hv).symm
  · intro expect meanCov N x hv he
    refine ⟨?_, ?_, ?_, ?_⟩
    · intro n hn
      exact (jget_map_range _ hn).trans (rawNormal_raw _ _ hv n)
    · intro n hn m
      exact (jget_map_range _ hn).trans (rawNormal_central _ _ m hv n)
    · rw [integral_id_gaussianReal]; exact he
    · rw [variance_fun_id_gaussianReal]; exact (Real.coe_toNNReal _ hv).symm

/-! ## C43 -/

theorem prod_pow_range (s : ℝ) (n : ℕ) : ((List.range n).map fun k => s ^ k).prod = s ^ (n * (n - 1) / 2) := by
  rw [← Finset.sum_range_id_mul_two, Nat.mul_div_cancel _ (by norm_num), ← Finset.prod_pow_eq_pow_sum]
  induction n with
  | zero => simp
  | succ n ih => rw [List.range_succ, Finset.prod_range_succ]; simp [ih]

/-- **C43 (exact value).** The scaled function of both constructors returns `E[(X - m)^n]` divided by `s^(N (2N - 1))` instead of
by `s^n`. -/
theorem C43_scaled_value (drift dispersion : ℝ → ℝ) (dt : ℝ) (hdt : 0 ≤ dt) (expect : (ℝ → ℝ) → ℝ → ℝ) (meanCov : ℝ → ℝ × ℝ)
    (N n : ℕ) (hn : n < 2 * N) (x m s : ℝ) (hs : s ≠ 0) (hv : 0 ≤ (meanCov x).2) :
    (sdeCondMomentsEuler drift dispersion dt N).scaled x n m s * s ^ (N * (2 * N - 1))
      = s ^ n * ∫ y, ((y - m) / s) ^ n ∂gaussianReal (x + drift x * dt) (dispersion x ^ 2 * dt).toNNReal ∧
    (sdeCondMomentsTmeNormal expect meanCov N).scaled x n m s * s ^ (N * (2 * N - 1))
      = s ^ n * ∫ y, ((y - m) / s) ^ n ∂gaussianReal (meanCov x).1 (meanCov x).2.toNNReal := by
  have hv' : 0 ≤ dispersion x ^ 2 * dt := mul_nonneg (sq_nonneg _) hdt
  have hexp : 2 * N * (2 * N - 1) / 2 = N * (2 * N - 1) := by
    rw [mul_assoc, Nat.mul_div_cancel_left _ (by norm_num)]
  have hrhs : ∀ μ : Measure ℝ, s ^ n * ∫ y, ((y - m) / s) ^ n ∂μ = ∫ y, (y - m) ^ n ∂μ := by
    intro μ
    rw [← integral_const_mul]
    congr 1
    funext y
    rw [← mul_pow, mul_div_cancel₀ _ hs]
  have hs' : s ^ (N * (2 * N - 1)) ≠ 0 := pow_ne_zero _ hs
  refine ⟨?_, ?_⟩
  · rw [hrhs]
    simp only [sdeCondMomentsEuler]
    rw [prod_pow_range, hexp, div_mul_cancel₀ _ hs', jget_map_range _ hn, rawNormal_central _ _ m hv' n]
  · rw [hrhs]
    simp only [sdeCondMomentsTmeNormal]
    rw [prod_pow_range, hexp, div_mul_cancel₀ _ hs', jget_map_range _ hn, rawNormal_central _ _ m hv n]

/-- **C43 is false**: for every model, every `N ≥ 1` and every positive scale other than one, already the zeroth scaled moment
is not one. -/
theorem C43_scaled_wrong (drift dispersion : ℝ → ℝ) (dt : ℝ) (hdt : 0 ≤ dt) (N : ℕ) (hN : 1 ≤ N) (x m s : ℝ) (hs : 0 < s)
    (hs1 : s ≠ 1) :
    (sdeCondMomentsEuler drift dispersion dt N).scaled x 0 m s
      ≠ ∫ y, ((y - m) / s) ^ 0 ∂gaussianReal (x + drift x * dt) (dispersion x ^ 2 * dt).toNNReal := by
  have h := (C43_scaled_value drift dispersion dt hdt (fun _ _ => 0) (fun _ => (0, 0)) N 0 (by omega) x m s hs.ne' (by simp)).1
  intro he
  rw [he] at h
  simp only [pow_zero, integral_const, one_mul] at h
  simp only [probReal_univ, smul_eq_mul, mul_one, one_mul] at h
  have : s ^ (N * (2 * N - 1)) ≠ 1 := by
    have hk : N * (2 * N - 1) ≠ 0 := Nat.mul_ne_zero (by omega) (by omega)
    intro h1
    exact hs1 ((pow_eq_one_iff_of_nonneg hs.le hk).1 h1)
  exact this h

/-- **C43 (partial).** Full statement: for every scale `s > 0` the scaled functions return `E[((X - m) / s)^n]`. This holds for
`s = 1` only in general; what is missing is every other scale, for which the statement is false (`C43_scaled_wrong`). -/
theorem C43_scaled_partial (drift dispersion : ℝ → ℝ) (dt : ℝ) (hdt : 0 ≤ dt) (expect : (ℝ → ℝ) → ℝ → ℝ)
    (meanCov : ℝ → ℝ × ℝ) (N n : ℕ) (hn : n < 2 * N) (x m : ℝ) (hv : 0 ≤ (meanCov x).2) :
    (sdeCondMomentsEuler drift dispersion dt N).scaled x n m 1
      = ∫ y, ((y - m) / 1) ^ n ∂gaussianReal (x + drift x * dt) (dispersion x ^ 2 * dt).toNNReal ∧
    (sdeCondMomentsTmeNormal expect meanCov N).scaled x n m 1
      = ∫ y, ((y - m) / 1) ^ n ∂gaussianReal (meanCov x).1 (meanCov x).2.toNNReal := by
  have h := C43_scaled_value drift dispersion dt hdt expect meanCov N n hn x m 1 one_ne_zero hv
  simpa using h

/-- the hypotheses at an Ornstein–Uhlenbeck process and scale two. -/
example : (sdeCondMomentsEuler (fun x => -x) (fun _ => 1) (1/2) 2).scaled 1 0 0 2 = 1 / 64 := by
  norm_num [sdeCondMomentsEuler, jget, rawMomentOfNormal, rawMomentOfStandardNormal, List.range_succ, Nat.factorial, Nat.choose]

/-! ## C47 -/

/-- the mixture as a measure. -/
noncomputable def mixture (comps : List Component) : Measure ℝ :=
  (comps.map fun c => ENNReal.ofReal c.weight • gaussianReal c.mean c.variance.toNNReal).sum

theorem integral_mixture (comps : List Component) (hw : ∀ c ∈ comps, 0 ≤ c.weight) (f : ℝ → ℝ)
    (hf : ∀ m v, Integrable f (gaussianReal m v)) :
    Integrable f (mixture comps) ∧ ∫ x, f x ∂mixture comps
      = (comps.map fun c => (∫ x, f x ∂gaussianReal c.mean c.variance.toNNReal) * c.weight).sum := by
  induction comps with
  | nil => simp [mixture]
  | cons c cs ih =>
    obtain ⟨h1, h2⟩ := ih fun c' hc' => hw c' (List.mem_cons_of_mem _ hc')
    have hc := hw c (by simp)
    have hi : Integrable f (ENNReal.ofReal c.weight • gaussianReal c.mean c.variance.toNNReal) :=
      (hf _ _).smul_measure ENNReal.ofReal_ne_top
    have he : mixture (c :: cs) = ENNReal.ofReal c.weight • gaussianReal c.mean c.variance.toNNReal + mixture cs := by
      simp [mixture]
    rw [he]
    refine ⟨hi.add_measure h1, ?_⟩
    rw [integral_add_measure hi h1, h2, integral_smul_measure, ENNReal.toReal_ofReal hc, List.map_cons, List.sum_cons,
      smul_eq_mul, mul_comm]

theorem mixture_prob (comps : List Component) (hw : ∀ c ∈ comps, 0 ≤ c.weight) (h1 : (comps.map (·.weight)).sum = 1) :
    IsProbabilityMeasure (mixture comps) := by
  constructor
  have : ∀ cs : List Component, (∀ c ∈ cs, 0 ≤ c.weight) → mixture cs Set.univ = ENNReal.ofReal (cs.map (·.weight)).sum := by
    intro cs
    induction cs with
    | nil => simp [mixture]
    | cons c cs ih =>
      intro h
      have he : mixture (c :: cs) = ENNReal.ofReal c.weight • gaussianReal c.mean c.variance.toNNReal + mixture cs := by
        simp [mixture]
      rw [he, Measure.add_apply, ih fun c' hc' => h c' (List.mem_cons_of_mem _ hc'), List.map_cons, List.sum_cons,
        ENNReal.ofReal_add (h c (by simp))]
      · simp
      · apply List.sum_nonneg
        intro x hx
        rw [List.mem_map] at hx
        obtain ⟨c', hc', rfl⟩ := hx
        exact h c' (List.mem_cons_of_mem _ hc')
  rw [this comps hw, h1]
  simp

theorem integrable_sub_pow_gaussianReal (m c : ℝ) (v : ℝ≥0) (n : ℕ) :
    Integrable (fun x : ℝ => (x - c) ^ n) (gaussianReal m v) := by
  have := integrable_poly_gaussianReal m v ((Polynomial.X - Polynomial.C c) ^ n)
  simpa using this

/-- **C47.** For components with non-negative weights summing to one and non-negative variances, and `N ≥ 2`, the fields
of `GaussianSum1D.new` are the mean, the variance and the raw, central and scaled moments of the mixture measure. -/
theorem C47_gaussian_sum (comps : List Component) (hw : ∀ c ∈ comps, 0 ≤ c.weight) (h1 : (comps.map (·.weight)).sum = 1)
    (hvar : ∀ c ∈ comps, 0 ≤ c.variance) (N : ℕ) (hN : 2 ≤ N) :
    let g := GaussianSum1D.new comps N
    let μ := mixture comps
    IsProbabilityMeasure μ ∧ g.mean = ∫ x, x ∂μ ∧ g.variance = Var[fun x => x; μ] ∧
    g.rms = (List.range (2 * N)).map (fun p => ∫ x, x ^ p ∂μ) ∧
    g.cms = (List.range (2 * N)).map (fun p => ∫ x, (x - ∫ y, y ∂μ) ^ p ∂μ) ∧
    (0 < Var[fun x => x; μ] →
      g.scms = (List.range (2 * N)).map (fun p => ∫ x, ((x - ∫ y, y ∂μ) / √Var[fun x => x; μ]) ^ p ∂μ)) := by
  intro g μ
  have hprob := mixture_prob comps hw h1
  have hmean : g.mean = ∫ x, x ∂μ := by
    rw [(integral_mixture comps hw (fun x => x) fun m v => by simpa using integrable_pow_gaussianReal m v 1).2]
    simp only [integral_id_gaussianReal]
    rfl
  have hraw : ∀ p, (comps.map fun c => rawMomentOfNormal c.mean c.variance p * c.weight).sum = ∫ x, x ^ p ∂μ := by
    intro p
    rw [(integral_mixture comps hw (fun x => x ^ p) fun m v => integrable_pow_gaussianReal m v p).2]
    congr 1
    apply List.map_congr_left
    intro c hc
    rw [rawNormal_raw _ _ (hvar c hc)]
  have hcen : ∀ p, (comps.map fun c => rawMomentOfNormal (c.mean - g.mean) c.variance p * c.weight).sum
      = ∫ x, (x - ∫ y, y ∂μ) ^ p ∂μ := by
    intro p
    rw [← hmean, (integral_mixture comps hw (fun x => (x - g.mean) ^ p) fun m v => integrable_sub_pow_gaussianReal m _ v p).2]
    congr 1
    apply List.map_congr_left
    intro c hc
    rw [rawNormal_central _ _ _ (hvar c hc)]
  have hcms : g.cms = (List.range (2 * N)).map (fun p => ∫ x, (x - ∫ y, y ∂μ) ^ p ∂μ) := by
    have : g.cms = (List.range (2 * N)).map fun p =>
      (comps.map fun c => rawMomentOfNormal (c.mean - g.mean) c.variance p * c.weight).sum := rfl
    rw [this]
    simp only [hcen]
  have hV : g.variance = Var[fun x => x; μ] := by
    have : g.variance = jget g.cms 2 := rfl
    rw [this, hcms, jget_map_range _ (by omega), variance_eq_integral (by fun_prop)]
  refine ⟨hprob, hmean, hV, ?_, hcms, ?_⟩
  · have : g.rms = (List.range (2 * N)).map fun p => (comps.map fun c => rawMomentOfNormal c.mean c.variance p * c.weight).sum := rfl
    rw [this]
    simp only [hraw]
  · intro hpos
    have : g.scms = List.zipWith (· / ·) g.cms ((List.range (2 * N)).map fun k => √g.variance ^ k) := rfl
    rw [this, hcms, hV]
    apply List.ext_getElem
    · simp
    · intro n h1 h2
      simp only [List.getElem_zipWith, List.getElem_map, List.getElem_range, div_pow]
      rw [integral_div]

/-- `N = 1` is excluded for a reason: the variance is then read beyond the end of the vector and the first central moment,
zero, is returned instead. -/
theorem C47_too_few_moments : (GaussianSum1D.new [⟨0, 1, 1⟩] 1).variance = 0 := by
  norm_num [GaussianSum1D.new, jget, rawMomentOfNormal, rawMomentOfStandardNormal, List.range_succ]

/-- two components, variance `1/2 (1 + 1) + 1/2 (2 + 1) = 5/2`. -/
example : (∀ c ∈ [Component.mk 1 1 (1/2), ⟨-1, 2, 1/2⟩], 0 ≤ c.weight) ∧
    (GaussianSum1D.new [⟨1, 1, 1/2⟩, ⟨-1, 2, 1/2⟩]).variance = 5/2 := by
  norm_num [GaussianSum1D.new, jget, rawMomentOfNormal, rawMomentOfStandardNormal, List.range_succ, Nat.factorial, Nat.choose]

end Mfs.Props

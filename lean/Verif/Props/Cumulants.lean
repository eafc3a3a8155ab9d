import Verif.Props.Moments1
import Verif.Props.Quad1
import Mathlib.RingTheory.PowerSeries.Log
import Mathlib.RingTheory.Polynomial.Hermite.Basic

/-!
# Properties C44 – C46, C48: Bell polynomials, cumulants, characteristic function, Hermite polynomials
-/

namespace Mfs.Props

open PowerSeries Mfs.Utils Mfs.Moments1
open scoped Nat

/-! ## C45 -/

/-- the series `∑_{j ≥ 1} x_j t^j / j!`, with `xs` listing `x_1, x_2, …` (followed by zeros). -/
noncomputable def expSeries (xs : List ℝ) : ℝ⟦X⟧ := PowerSeries.mk fun j => if j = 0 then 0 else xs.getD (j - 1) 0 / (j ! : ℝ)

theorem constantCoeff_expSeries (xs : List ℝ) : constantCoeff (expSeries xs) = 0 := by
  rw [← coeff_zero_eq_constantCoeff_apply, expSeries, coeff_mk, if_pos rfl]

theorem coeff_pow_of_lt {f : ℝ⟦X⟧} (hf : constantCoeff f = 0) {n k : ℕ} (h : n < k) : coeff n (f ^ k) = 0 := by
  obtain ⟨g, rfl⟩ := X_dvd_iff.2 hf
  rw [mul_pow, coeff_X_pow_mul', if_neg (by omega)]

theorem partialBell_eq (xs : List ℝ) (k n : ℕ) :
    partialBell n k xs = (n ! : ℝ) / (k ! : ℝ) * coeff n (expSeries xs ^ k) := by
  induction k generalizing n with
  | zero =>
    rw [partialBell, pow_zero, coeff_one]
    split
    · subst_vars; simp
    · simp
  | succ k ih =>
    cases n with
    | zero => rw [partialBell, coeff_pow_of_lt (constantCoeff_expSeries xs) (by omega), mul_zero]
    | succ n =>
      -- derivative of the power
      have hd : coeff (n + 1) (expSeries xs ^ (k + 1)) * (n + 1)
          = (k + 1) * ∑ i ∈ Finset.range (n + 1), xs.getD i 0 / (i ! : ℝ) * coeff (n - i) (expSeries xs ^ k) := by
        rw [← coeff_derivative, derivative_pow, Nat.add_sub_cancel, mul_assoc, ← map_natCast (C (R := ℝ)) (k + 1), coeff_C_mul,
          mul_comm (expSeries xs ^ k), coeff_mul,
          Finset.Nat.sum_antidiagonal_eq_sum_range_succ_mk]
        push_cast
        congr 1
        apply Finset.sum_congr rfl
        intro i _
        congr 1
        rw [coeff_derivative, expSeries, coeff_mk, if_neg (by omega), Nat.add_sub_cancel, Nat.factorial_succ]
        have : (i ! : ℝ) ≠ 0 := by exact_mod_cast i.factorial_ne_zero
        have : (i : ℝ) + 1 ≠ 0 := by positivity
        push_cast
        field_simp
      have hk : (k ! : ℝ) ≠ 0 := by exact_mod_cast k.factorial_ne_zero
      have hk1 : (k : ℝ) + 1 ≠ 0 := by positivity
      have hn1 : (n : ℝ) + 1 ≠ 0 := by positivity
      rw [partialBell, sum_map_range_real]
      have hsub : Finset.range (n + 1 - k) ⊆ Finset.range (n + 1) := Finset.range_subset_range.2 (by omega)
      simp only [Nat.add_sub_cancel, Nat.add_sub_add_right]
      rw [Finset.sum_subset hsub]
      · have e : ((n + 1)! : ℝ) / ((k + 1)! : ℝ) * coeff (n + 1) (expSeries xs ^ (k + 1))
            = (n ! : ℝ) / (k ! : ℝ) * ∑ i ∈ Finset.range (n + 1), xs.getD i 0 / (i ! : ℝ) * coeff (n - i) (expSeries xs ^ k) := by
          rw [Nat.factorial_succ, Nat.factorial_succ]
          push_cast
          generalize (∑ i ∈ Finset.range (n + 1), xs.getD i 0 / (i ! : ℝ) * coeff (n - i) (expSeries xs ^ k)) = S at hd ⊢
          field_simp
          linear_combination hd
        rw [e, Finset.mul_sum]
        apply Finset.sum_congr rfl
        intro i hi
        rw [Finset.mem_range] at hi
        rw [ih, Nat.choose_eq_factorial_div_factorial (by omega : i ≤ n), Nat.cast_div (Nat.factorial_mul_factorial_dvd_factorial (by omega))
          (by exact_mod_cast (Nat.mul_ne_zero (Nat.factorial_ne_zero _) (Nat.factorial_ne_zero _)))]
        have : (i ! : ℝ) ≠ 0 := by exact_mod_cast i.factorial_ne_zero
        have : ((n - i)! : ℝ) ≠ 0 := by exact_mod_cast (n - i).factorial_ne_zero
        push_cast
        field_simp
      · intro i hi hi'
        rw [Finset.mem_range] at hi hi'
        rw [ih, coeff_pow_of_lt (constantCoeff_expSeries xs) (by omega)]
        ring

theorem coeff_subst_finset {f g : ℝ⟦X⟧} (hg : constantCoeff g = 0) (n : ℕ) :
    coeff n (f.subst g) = ∑ k ∈ Finset.range (n + 1), coeff k f * coeff n (g ^ k) := by
  rw [coeff_subst' (HasSubst.of_constantCoeff_zero' hg), finsum_eq_sum_of_support_subset (s := Finset.range (n + 1))]
  · simp only [smul_eq_mul]
  · intro k hk
    simp only [Finset.coe_range, Set.mem_Iio]
    by_contra h
    apply hk
    simp only [smul_eq_mul]
    rw [coeff_pow_of_lt hg (by omega), mul_zero]

theorem partialBell_local (xs ys : List ℝ) (k : ℕ) :
    ∀ n, (∀ i < n - k + 1, xs.getD i 0 = ys.getD i 0) → partialBell n k xs = partialBell n k ys := by
  induction k with
  | zero => intro n _; simp only [partialBell]
  | succ k ih =>
    intro n h
    cases n with
    | zero => simp only [partialBell]
    | succ n =>
      simp only [partialBell]
      congr 1
      apply List.map_congr_left
      intro i hi
      rw [List.mem_range] at hi
      rw [ih _ fun j hj => h j (by omega), h _ (by omega)]

/-- **C45.** `partial_bell(n, k, xs) = n! [t^n] (∑_j x_j t^j / j!)^k / k!` and
`complete_bell(n, xs) = n! [t^n] exp (∑_j x_j t^j / j!)`, for all `n`, `k`. Only the first `n - k + 1` (respectively `n`)
entries of `xs` matter: two lists agreeing there give the same value. -/
theorem C45_bell (xs : List ℝ) :
    (∀ n k, partialBell n k xs = n ! * coeff n ((1 / (k ! : ℝ)) • expSeries xs ^ k)) ∧
    (∀ n, completeBell n xs = n ! * coeff n ((PowerSeries.exp ℝ).subst (expSeries xs))) ∧
    (∀ ys n k, (∀ i < n - k + 1, xs.getD i 0 = ys.getD i 0) → partialBell n k xs = partialBell n k ys) ∧
    (∀ ys n, (∀ i < n, xs.getD i 0 = ys.getD i 0) → completeBell n xs = completeBell n ys) := by
  have hloc : ∀ ys n k, (∀ i < n - k + 1, xs.getD i 0 = ys.getD i 0) → partialBell n k xs = partialBell n k ys :=
    fun ys n k h => partialBell_local xs ys k n h
  refine ⟨fun n k => ?_, fun n => ?_, hloc, fun ys n h => ?_⟩
  rotate_right
  · rw [completeBell, completeBell]
    split
    · rfl
    · congr 1
      apply List.map_congr_left
      intro k hk
      rw [List.mem_range] at hk
      exact hloc _ _ _ fun i hi => h i (by omega)
  · rw [partialBell_eq, coeff_smul, smul_eq_mul]; ring
  · rw [completeBell, coeff_subst_finset (constantCoeff_expSeries xs)]
    split
    · subst_vars; simp
    · rename_i hn
      rw [sum_map_range_real, Finset.sum_range_succ', pow_zero, coeff_one, if_neg hn, mul_zero, add_zero, Finset.mul_sum]
      apply Finset.sum_congr rfl
      intro k _
      rw [partialBell_eq, PowerSeries.coeff_exp]
      simp only [eq_ratCast]
      push_cast
      ring

/-- `B_{4,2}(x₁, x₂, x₃) = 4 x₁ x₃ + 3 x₂²`. -/
example (a b c : ℝ) : partialBell 4 2 [a, b, c] = 4 * a * c + 3 * b ^ 2 := by
  norm_num [partialBell, List.range_succ, Nat.choose]
  ring

/-! ## C44 -/

theorem derivative_logOf {f : ℝ⟦X⟧} (hf : constantCoeff f = 1) :
    f * derivative ℝ (logOf f) = derivative ℝ f := by
  have hg : constantCoeff (f - 1) = 0 := by simp [hf]
  have hs : HasSubst (f - 1) := HasSubst.of_constantCoeff_zero' hg
  rw [logOf_eq, derivative_subst hs, deriv_log]
  have h1 : (PowerSeries.mk fun n => algebraMap ℚ ℝ ((-1 : ℚ) ^ n)) * (1 + X) = (1 : ℝ⟦X⟧) := by
    ext n
    rw [mul_add, mul_one, map_add]
    cases n with
    | zero => simp
    | succ n => rw [coeff_succ_mul_X, coeff_mk, coeff_mk, coeff_one, if_neg (by omega)]; simp [pow_succ]
  have h2 := congrArg (fun p : ℝ⟦X⟧ => p.subst (f - 1)) h1
  rw [subst_mul hs, subst_add hs, subst_X hs] at h2
  have h3 : (1 : ℝ⟦X⟧).subst (f - 1) = (1 : ℝ⟦X⟧) := by
    have := subst_C (a := f - 1) (1 : ℝ)
    simpa using this
  rw [h3, add_sub_cancel] at h2
  have h4 : derivative ℝ (f - 1) = derivative ℝ f := by rw [map_sub, derivative_one, sub_zero]
  rw [h4, ← mul_assoc, mul_comm f, h2, one_mul]

/-- moment generating series of the law `L`. -/
noncomputable def momentSeries (L : Polynomial ℝ →ₗ[ℝ] ℝ) (p : Polynomial ℝ) : ℝ⟦X⟧ :=
  PowerSeries.mk fun n => L (p ^ n) / (n ! : ℝ)

theorem constantCoeff_momentSeries (L : Polynomial ℝ →ₗ[ℝ] ℝ) (hL : L 1 = 1) (p : Polynomial ℝ) :
    constantCoeff (momentSeries L p) = 1 := by
  rw [← coeff_zero_eq_constantCoeff_apply, momentSeries, coeff_mk]; simp [hL]

theorem momentSeries_shift (L : Polynomial ℝ →ₗ[ℝ] ℝ) (p : Polynomial ℝ) (m : ℝ) :
    momentSeries L (p + Polynomial.C m) = rescale m (PowerSeries.exp ℝ) * momentSeries L p := by
  ext n
  rw [momentSeries, coeff_mk, coeff_mul, Finset.Nat.sum_antidiagonal_eq_sum_range_succ_mk, add_comm p, add_pow, map_sum, Finset.sum_div]
  apply Finset.sum_congr rfl
  intro i hi
  have hi' : i ≤ n := by rw [Finset.mem_range] at hi; omega
  have e : (Polynomial.C m) ^ i * p ^ (n - i) * (n.choose i : Polynomial ℝ) = (m ^ i * (n.choose i : ℝ)) • p ^ (n - i) := by
    rw [Polynomial.smul_eq_C_mul]; simp only [map_mul, map_pow, map_natCast]; ring
  rw [e, map_smul, coeff_rescale, PowerSeries.coeff_exp, momentSeries, coeff_mk, smul_eq_mul,
    Nat.choose_eq_factorial_div_factorial hi', Nat.cast_div (Nat.factorial_mul_factorial_dvd_factorial hi')
      (by exact_mod_cast (Nat.mul_ne_zero (Nat.factorial_ne_zero _) (Nat.factorial_ne_zero _)))]
  have h1 : (n ! : ℝ) ≠ 0 := by exact_mod_cast n.factorial_ne_zero
  have h2 : (i ! : ℝ) ≠ 0 := by exact_mod_cast i.factorial_ne_zero
  have h3 : ((n - i)! : ℝ) ≠ 0 := by exact_mod_cast (n - i).factorial_ne_zero
  simp only [eq_ratCast]
  push_cast
  field_simp

theorem logOf_shift (L : Polynomial ℝ →ₗ[ℝ] ℝ) (hL : L 1 = 1) (p : Polynomial ℝ) (m : ℝ) :
    logOf (momentSeries L (p + Polynomial.C m)) = C m * X + logOf (momentSeries L p) := by
  have c1 := constantCoeff_momentSeries L hL (p + Polynomial.C m)
  have c2 := constantCoeff_momentSeries L hL p
  apply derivative.ext
  · have h1 := derivative_logOf c1
    have h2 := derivative_logOf c2
    have hne : momentSeries L (p + Polynomial.C m) ≠ 0 := by
      intro h; rw [h] at c1; simp at c1
    apply mul_left_cancel₀ hne
    rw [h1, map_add, Derivation.leibniz, derivative_X, derivative_C, smul_zero, add_zero, smul_eq_mul, mul_one, mul_add]
    rw [momentSeries_shift, Derivation.leibniz, mul_assoc (rescale m _) (momentSeries L p) (derivative ℝ _), h2, smul_eq_mul, smul_eq_mul, add_comm]
    congr 1
    have : derivative ℝ (rescale m (PowerSeries.exp ℝ)) = C m * rescale m (PowerSeries.exp ℝ) := by
      ext n
      rw [coeff_derivative, coeff_C_mul, coeff_rescale, coeff_rescale, PowerSeries.coeff_exp, PowerSeries.coeff_exp, Nat.factorial_succ]
      have h2 : (n ! : ℝ) ≠ 0 := by exact_mod_cast n.factorial_ne_zero
      have h3 : (n : ℝ) + 1 ≠ 0 := by positivity
      simp only [eq_ratCast]
      push_cast
      field_simp
      ring
    rw [this]; ring
  · rw [constantCoeff_logOf c1, map_add, constantCoeff_logOf c2]; simp

theorem coeff_pow_congr {f g : ℝ⟦X⟧} {n : ℕ} (h : ∀ i ≤ n, coeff i f = coeff i g) (k : ℕ) :
    ∀ i ≤ n, coeff i (f ^ k) = coeff i (g ^ k) := by
  induction k with
  | zero => intro i _; simp
  | succ k ih =>
    intro i hi
    rw [pow_succ, pow_succ, coeff_mul, coeff_mul]
    apply Finset.sum_congr rfl
    intro a ha
    rw [Finset.mem_antidiagonal] at ha
    rw [ih _ (by omega), h _ (by omega)]

theorem scaledToCentral_law (L : Polynomial ℝ →ₗ[ℝ] ℝ) (m : ℝ) {scale : ℝ} (hs : scale ≠ 0) (s : ℕ) :
    scaledToCentral ((List.range s).map fun n => L ((Polynomial.C scale⁻¹ * (Polynomial.X - Polynomial.C m)) ^ n)) scale
      = (List.range s).map fun n => L ((Polynomial.X - Polynomial.C m) ^ n) := by
  apply List.ext_getElem
  · simp [scaledToCentral]
  · intro n h1 h2
    simp only [scaledToCentral, List.getElem_zipWith, List.getElem_map, List.getElem_range]
    rw [mul_pow, ← map_pow, ← Polynomial.smul_eq_C_mul, map_smul, smul_eq_mul, mul_comm, ← mul_assoc, ← mul_pow,
      mul_inv_cancel₀ hs, one_pow, one_mul]

/-- **C44.** Let `sms` be the first `s` scaled central moments of a law `L` of total mass one, for any non-zero scale. Then
`sms_to_cumulants` returns its cumulants of order `1, …, s - 1`: `n!` times the `n`-th coefficient of the logarithm of the
moment generating series `∑ L(X^n) t^n / n!`. -/
theorem C44_cumulants (L : Polynomial ℝ →ₗ[ℝ] ℝ) (hL : L 1 = 1) (scale : ℝ) (hs : scale ≠ 0) (s : ℕ) :
    smsToCumulants ((List.range s).map fun n => L ((Polynomial.C scale⁻¹ * (Polynomial.X - Polynomial.C (L Polynomial.X))) ^ n))
        (L Polynomial.X) scale
      = (List.range (s - 1)).map fun n =>
          ((n + 1)! : ℝ) * coeff (n + 1) (logOf (PowerSeries.mk fun n => L (Polynomial.X ^ n) / (n ! : ℝ))) := by
  set m := L Polynomial.X with hm
  set sms := (List.range s).map fun n => L ((Polynomial.C scale⁻¹ * (Polynomial.X - Polynomial.C m)) ^ n) with hsms
  have hlen : sms.length = s := by simp [hsms]
  have hLm : L (Polynomial.X - Polynomial.C m) = 0 := by
    have : Polynomial.C m = m • (1 : Polynomial ℝ) := by rw [Polynomial.smul_eq_C_mul, mul_one]
    rw [map_sub, this, map_smul, hL, ← hm]; simp
  have hcen : scaledToCentral sms scale = (List.range s).map fun n => L ((Polynomial.X - Polynomial.C m) ^ n) :=
    scaledToCentral_law L m hs s
  have hX : (Polynomial.X : Polynomial ℝ) = (Polynomial.X - Polynomial.C m) + Polynomial.C m := by ring
  have hM : logOf (PowerSeries.mk fun n => L (Polynomial.X ^ n) / (n ! : ℝ))
      = C m * X + logOf (momentSeries L (Polynomial.X - Polynomial.C m)) := by
    rw [← logOf_shift L hL, ← hX]; rfl
  have hc := constantCoeff_momentSeries L hL (Polynomial.X - Polynomial.C m)
  have hc0 : constantCoeff (momentSeries L (Polynomial.X - Polynomial.C m) - 1) = 0 := by rw [map_sub, hc]; simp
  rw [smsToCumulants, hlen]
  apply List.map_congr_left
  intro n hn
  rw [List.mem_range] at hn
  rw [hM, map_add]
  rcases Nat.eq_zero_or_pos n with rfl | hpos
  · -- first cumulant
    have e1 : coeff 1 (logOf (momentSeries L (Polynomial.X - Polynomial.C m))) = 0 := by
      rw [logOf_eq, coeff_subst_finset hc0]
      simp [Finset.sum_range_succ, momentSeries, hLm]
    have e2 : nthCumulant sms m scale 1 = m := by
      rw [nthCumulant, if_pos rfl]
      split
      · rename_i h0
        rw [hsms, jget_map_range _ (by omega), pow_one, ← Polynomial.smul_eq_C_mul, map_smul, hLm, h0]; simp
      · rfl
    rw [zero_add, e1, e2]
    simp
  · have e0 : coeff (n + 1) (C m * X : ℝ⟦X⟧) = 0 := by
      rw [coeff_C_mul, coeff_X, if_neg (by omega), mul_zero]
    rw [e0, zero_add, nthCumulant, if_neg (by omega), sum_map_range_real, logOf_eq, coeff_subst_finset hc0, Finset.sum_range_succ' _ (n + 1),
      pow_zero, coeff_one, if_neg (by omega), mul_zero, add_zero, Finset.mul_sum]
    apply Finset.sum_congr rfl
    intro k hk
    simp only [Nat.add_sub_cancel]
    have hco : coeff (n + 1) (expSeries ((scaledToCentral sms scale).drop 1) ^ (k + 1))
        = coeff (n + 1) ((momentSeries L (Polynomial.X - Polynomial.C m) - 1) ^ (k + 1)) := by
      refine coeff_pow_congr ?_ (k + 1) (n + 1) le_rfl
      intro i hi
      rw [expSeries, coeff_mk, map_sub, momentSeries, coeff_mk, coeff_one]
      split
      · subst_vars; simp [hL]
      · rename_i hi0
        rw [sub_zero, hcen, List.getD_eq_getElem?_getD, List.getElem?_drop, show 1 + (i - 1) = i by omega]
        simp [show i < s by omega]
    have hkf : (k ! : ℝ) ≠ 0 := by exact_mod_cast k.factorial_ne_zero
    have hk1 : (k : ℝ) + 1 ≠ 0 := by positivity
    rw [partialBell_eq, hco, coeff_log, if_neg (by omega), Nat.factorial_succ k]
    simp only [eq_ratCast]
    push_cast
    field_simp
    ring

/-- the cumulants of the standard normal moments `1, 0, 1, 0, 3, 0` with mean `5` and scale `2` are `5, 4, 0, 0, 0`. -/
example : smsToCumulants [1, 0, 1, 0, 3, 0] 5 2 = [5, 4, 0, 0, 0] := by
  norm_num [smsToCumulants, nthCumulant, scaledToCentral, partialBell, List.range_succ, Nat.choose, Nat.factorial]

/-- The hypothesis that `mean` is the mean is needed: if the first scaled moment is not zero and the given mean is not zero,
`sms_to_cumulants` returns the given mean as first cumulant instead of `mean + scale * s_1`. -/
theorem C44_first_cumulant_ignores_s1 (sms : List ℝ) (hl : 2 ≤ sms.length) (mean scale : ℝ) (hm : mean ≠ 0)
    (h1 : scale * sms.getD 1 0 ≠ 0) :
    (smsToCumulants sms mean scale).getD 0 0 = mean ∧ (smsToCumulants sms mean scale).getD 0 0 ≠ mean + scale * sms.getD 1 0 := by
  have : (smsToCumulants sms mean scale).getD 0 0 = mean := by
    rw [smsToCumulants, getD_map_range_real _ (by omega), nthCumulant, if_pos rfl, if_neg hm]
  refine ⟨this, ?_⟩
  rw [this]
  intro h
  apply h1
  linarith

/-! ## C46 -/

theorem norm_exp_I_mul (z x : ℝ) : ‖Complex.exp (Complex.I * z * x)‖ = 1 := by
  rw [show Complex.I * z * x = ((z * x : ℝ) : ℂ) * Complex.I by push_cast; ring, Complex.norm_exp_ofReal_mul_I]

/-- **C46.** For every moment vector with at least two entries, every mean and scale: `characteristic_fn` is one at zero, has
modulus at most one, and is conjugated when its argument changes sign. -/
theorem C46_characteristic (B : Backend) (hB : B.Valid) (ms : List ℝ) (hl : 2 ≤ ms.length) (mean scale : ℝ) :
    characteristicFn B 0 ms mean scale = 1 ∧
    (∀ z, ‖characteristicFn B z ms mean scale‖ ≤ 1) ∧
    (∀ z, characteristicFn B (-z) ms mean scale = (starRingEnd ℂ) (characteristicFn B z ms mean scale)) := by
  obtain ⟨hw, h1⟩ := C09_weights_probability B hB ms hl mean scale false false
  simp only [characteristicFn]
  set r := Quad1.momentQuadrature B ms mean scale false with hr
  refine ⟨?_, fun z => ?_, fun z => ?_⟩
  · simp only [Complex.ofReal_zero, mul_zero, zero_mul, Complex.exp_zero, one_mul]
    exact_mod_cast h1
  · refine (norm_sum_le _ _).trans ?_
    rw [← h1]
    apply le_of_eq
    apply Finset.sum_congr rfl
    intro i _
    rw [norm_mul, norm_exp_I_mul, one_mul, Complex.norm_real, Real.norm_of_nonneg (hw i)]
  · rw [map_sum]
    apply Finset.sum_congr rfl
    intro i _
    rw [map_mul, Complex.conj_ofReal, ← Complex.exp_conj]
    simp

/-- the hypotheses are met by the moments of the standard normal law. -/
example : 2 ≤ ([1, 0, 1, 0, 3, 0] : List ℝ).length := by simp

/-! ## C48 -/

open MeasureTheory ProbabilityTheory

theorem derivative_hermite (n : ℕ) :
    Polynomial.derivative (Polynomial.hermite (n + 1)) = ((n + 1 : ℕ) : Polynomial ℤ) * Polynomial.hermite n := by
  induction n with
  | zero => simp
  | succ n ih =>
    rw [Polynomial.hermite_succ (n + 1), map_sub, Polynomial.derivative_mul, ih, Polynomial.derivative_natCast_mul,
      Polynomial.derivative_X, one_mul]
    have := Polynomial.hermite_succ n
    push_cast
    linear_combination -((n : Polynomial ℤ) + 1) * this

theorem hermite_rec (n : ℕ) : Polynomial.hermite (n + 2)
    = Polynomial.X * Polynomial.hermite (n + 1) - ((n + 1 : ℕ) : Polynomial ℤ) * Polynomial.hermite n := by
  rw [Polynomial.hermite_succ, derivative_hermite]

/-- the real Hermite polynomial. -/
noncomputable def realHermite (n : ℕ) : Polynomial ℝ := (Polynomial.hermite n).map (Int.castRingHom ℝ)

theorem hermite_eq_eval : ∀ (n : ℕ) (x : ℝ), hermiteProbabilist n x = (realHermite n).eval x
  | 0, x => by simp [hermiteProbabilist, realHermite]
  | 1, x => by simp [hermiteProbabilist, realHermite]
  | n + 2, x => by
    rw [hermiteProbabilist, hermite_eq_eval (n + 1) x, hermite_eq_eval n x, realHermite, realHermite, realHermite, hermite_rec]
    simp only [Polynomial.map_sub, Polynomial.map_mul, Polynomial.map_X, Polynomial.map_natCast, Polynomial.eval_sub,
      Polynomial.eval_mul, Polynomial.eval_X, Polynomial.eval_natCast]
    push_cast
    ring

theorem integral_hermite_succ_mul (n : ℕ) (q : Polynomial ℝ) :
    ∫ x, (realHermite (n + 1)).eval x * q.eval x ∂gaussianReal 0 1
      = ∫ x, (realHermite n).eval x * (Polynomial.derivative q).eval x ∂gaussianReal 0 1 := by
  have e : ∀ x : ℝ, (realHermite (n + 1)).eval x * q.eval x
      = x * (realHermite n * q).eval x - (Polynomial.derivative (realHermite n) * q).eval x := by
    intro x
    rw [realHermite, Polynomial.hermite_succ, Polynomial.map_sub, Polynomial.map_mul, Polynomial.map_X, ← Polynomial.derivative_map,
      ← realHermite]
    simp only [Polynomial.eval_sub, Polynomial.eval_mul, Polynomial.eval_X]
    ring
  have i1 : Integrable (fun x : ℝ => x * (realHermite n * q).eval x) (gaussianReal 0 1) := by
    have := integrable_poly_gaussianReal 0 1 (Polynomial.X * (realHermite n * q))
    simpa only [Polynomial.eval_mul, Polynomial.eval_X] using this
  simp_rw [e]
  rw [integral_sub i1 (integrable_poly_gaussianReal 0 1 _), stein, ← integral_sub (integrable_poly_gaussianReal 0 1 _)
    (integrable_poly_gaussianReal 0 1 _)]
  congr 1
  ext x
  rw [Polynomial.derivative_mul]
  simp only [Polynomial.eval_add, Polynomial.eval_mul]
  ring

theorem derivative_realHermite (n : ℕ) :
    Polynomial.derivative (realHermite (n + 1)) = Polynomial.C ((n : ℝ) + 1) * realHermite n := by
  rw [realHermite, Polynomial.derivative_map, derivative_hermite, realHermite]
  simp

theorem hermite_orthogonal (n : ℕ) : ∀ m, ∫ x, (realHermite n).eval x * (realHermite m).eval x ∂gaussianReal 0 1
    = if n = m then (n ! : ℝ) else 0 := by
  induction n with
  | zero =>
    intro m
    cases m with
    | zero => simp [realHermite]
    | succ m =>
      simp_rw [mul_comm ((realHermite 0).eval _)]
      rw [integral_hermite_succ_mul, if_neg (by omega)]
      simp [realHermite]
  | succ n ih =>
    intro m
    rw [integral_hermite_succ_mul]
    cases m with
    | zero => simp [realHermite]
    | succ m =>
      rw [derivative_realHermite]
      simp only [Polynomial.eval_mul, Polynomial.eval_C]
      simp_rw [mul_left_comm _ ((m : ℝ) + 1)]
      rw [integral_const_mul, ih]
      by_cases h : n = m
      · subst h; simp [Nat.factorial_succ]
      · rw [if_neg h, if_neg (by omega), mul_zero]

/-- **C48.** `hermite_probabilist(n, x)` is the value of the probabilists' Hermite polynomial `He_n` (the polynomial
`(-1)^n e^{x²/2} (d/dx)^n e^{-x²/2}`); these are orthogonal under `N(0, 1)` with squared norm `n!`. -/
theorem C48_hermite (n : ℕ) :
    (∀ x : ℝ, hermiteProbabilist n x = Polynomial.aeval x (Polynomial.hermite n)) ∧
    (∀ m, ∫ x, hermiteProbabilist n x * hermiteProbabilist m x ∂gaussianReal 0 1 = if n = m then (n ! : ℝ) else 0) := by
  refine ⟨fun x => ?_, fun m => ?_⟩
  · rw [hermite_eq_eval, realHermite, Polynomial.eval_map, Polynomial.aeval_def]
    rfl
  · simp_rw [hermite_eq_eval]
    exact hermite_orthogonal n m

/-- `He_4(x) = x⁴ - 6x² + 3`. -/
example (x : ℝ) : hermiteProbabilist 4 x = x ^ 4 - 6 * x ^ 2 + 3 := by
  norm_num [hermiteProbabilist]; ring

end Mfs.Props

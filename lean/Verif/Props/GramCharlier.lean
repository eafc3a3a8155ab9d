import Verif.Props.Cumulants
import Verif.Model.Pdf

/-!
# Property C49: the Gram–Charlier density
-/

namespace Mfs.Props

open PowerSeries Mfs.Utils Mfs.Moments1 Mfs.Pdf MeasureTheory ProbabilityTheory Mfs.Quad1
open scoped Nat NNReal

/-! ### Formal exponentials -/

theorem ode_unique {h f g : ℝ⟦X⟧} (hf : derivative ℝ f = h * f) (hg : derivative ℝ g = h * g)
    (h0 : constantCoeff f = constantCoeff g) : f = g := by
  ext n
  induction n using Nat.strong_induction_on with
  | _ n ih =>
    cases n with
    | zero => simpa using h0
    | succ n =>
      have e1 := congrArg (coeff n) hf
      have e2 := congrArg (coeff n) hg
      rw [coeff_derivative, coeff_mul] at e1 e2
      have : ∑ p ∈ Finset.antidiagonal n, coeff p.1 h * coeff p.2 f = ∑ p ∈ Finset.antidiagonal n, coeff p.1 h * coeff p.2 g := by
        apply Finset.sum_congr rfl
        intro a ha
        rw [Finset.mem_antidiagonal] at ha
        rw [ih _ (by omega)]
      rw [this, ← e2] at e1
      exact mul_right_cancel₀ (by positivity) e1

theorem constantCoeff_exp_subst {g : ℝ⟦X⟧} (hg : constantCoeff g = 0) : constantCoeff ((PowerSeries.exp ℝ).subst g) = 1 := by
  rw [← coeff_zero_eq_constantCoeff_apply, coeff_subst_finset hg]
  simp

theorem derivative_exp_subst {g : ℝ⟦X⟧} (hg : constantCoeff g = 0) :
    derivative ℝ ((PowerSeries.exp ℝ).subst g) = derivative ℝ g * (PowerSeries.exp ℝ).subst g := by
  rw [derivative_subst (HasSubst.of_constantCoeff_zero' hg), PowerSeries.derivative_exp, mul_comm]

theorem exp_subst_add {f g : ℝ⟦X⟧} (hf : constantCoeff f = 0) (hg : constantCoeff g = 0) :
    (PowerSeries.exp ℝ).subst (f + g) = (PowerSeries.exp ℝ).subst f * (PowerSeries.exp ℝ).subst g := by
  have hfg : constantCoeff (f + g) = 0 := by rw [map_add, hf, hg, add_zero]
  refine ode_unique (h := derivative ℝ (f + g)) (derivative_exp_subst hfg) ?_ ?_
  · rw [Derivation.leibniz, derivative_exp_subst hf, derivative_exp_subst hg, map_add]
    simp only [smul_eq_mul]
    ring
  · rw [map_mul, constantCoeff_exp_subst hf, constantCoeff_exp_subst hg, constantCoeff_exp_subst hfg, mul_one]

theorem exp_subst_logOf {f : ℝ⟦X⟧} (hf : constantCoeff f = 1) : (PowerSeries.exp ℝ).subst (logOf f) = f := by
  have h0 := constantCoeff_logOf hf
  refine ode_unique (h := derivative ℝ (logOf f)) (derivative_exp_subst h0) ?_ ?_
  · rw [mul_comm, derivative_logOf hf]
  · rw [constantCoeff_exp_subst h0, hf]

theorem coeff_subst_congr {f g g' : ℝ⟦X⟧} (hg : constantCoeff g = 0) (hg' : constantCoeff g' = 0) {n : ℕ}
    (h : ∀ i ≤ n, coeff i g = coeff i g') : coeff n (f.subst g) = coeff n (f.subst g') := by
  rw [coeff_subst_finset hg, coeff_subst_finset hg']
  apply Finset.sum_congr rfl
  intro k _
  rw [coeff_pow_congr h k n le_rfl]

/-! ### Integrals of Hermite polynomials against powers -/

/-- the linear polynomial `m + σ z`. -/
noncomputable def linPoly (m σ : ℝ) : Polynomial ℝ := Polynomial.C m + Polynomial.C σ * Polynomial.X

/-- `∫ (m + σ z)^p He_j(z) dN(0, 1)`. -/
noncomputable def hermMom (m σ : ℝ) (p j : ℕ) : ℝ :=
  ∫ z, (realHermite j).eval z * (linPoly m σ ^ p).eval z ∂gaussianReal 0 1

theorem derivative_linPoly_pow (m σ : ℝ) (p : ℕ) :
    Polynomial.derivative (linPoly m σ ^ (p + 1)) = Polynomial.C (((p : ℝ) + 1) * σ) * linPoly m σ ^ p := by
  rw [Polynomial.derivative_pow_succ, linPoly]
  simp only [map_add, Polynomial.derivative_C, Polynomial.derivative_C_mul, Polynomial.derivative_X, zero_add, mul_one, map_mul,
    map_one, map_natCast]
  ring

theorem hermMom_succ_zero (m σ : ℝ) (j : ℕ) : hermMom m σ 0 (j + 1) = 0 := by
  rw [hermMom, integral_hermite_succ_mul]; simp

theorem hermMom_succ_succ (m σ : ℝ) (p j : ℕ) : hermMom m σ (p + 1) (j + 1) = ((p : ℝ) + 1) * σ * hermMom m σ p j := by
  rw [hermMom, integral_hermite_succ_mul, derivative_linPoly_pow, hermMom, ← integral_const_mul]
  congr 1
  ext z
  simp only [Polynomial.eval_mul, Polynomial.eval_C]
  ring

theorem hermMom_zero_zero (m σ : ℝ) : hermMom m σ 0 0 = 1 := by simp [hermMom, realHermite]

theorem hermMom_zero_eq (m σ : ℝ) (p : ℕ) : hermMom m σ p 0 = ∫ z, (linPoly m σ ^ p).eval z ∂gaussianReal 0 1 := by
  simp [hermMom, realHermite]

theorem hermMom_rec (m σ : ℝ) (p : ℕ) :
    hermMom m σ (p + 1) 0 = m * hermMom m σ p 0 + σ * ∫ z, (Polynomial.derivative (linPoly m σ ^ p)).eval z ∂gaussianReal 0 1 := by
  rw [hermMom_zero_eq, hermMom_zero_eq, ← stein, ← integral_const_mul, ← integral_const_mul, ← integral_add]
  · congr 1
    ext z
    rw [pow_succ, Polynomial.eval_mul]
    conv_lhs => rw [linPoly]
    simp only [linPoly, Polynomial.eval_add, Polynomial.eval_mul, Polynomial.eval_C, Polynomial.eval_X]
    ring
  · exact (integrable_poly_gaussianReal 0 1 _).const_mul _
  · have := integrable_poly_gaussianReal 0 1 (Polynomial.X * linPoly m σ ^ p)
    simp only [Polynomial.eval_mul, Polynomial.eval_X] at this
    exact this.const_mul _

/-- the formal exponential `exp(m t + v t² / 2)`. -/
noncomputable def gaussSeries (m v : ℝ) : ℝ⟦X⟧ := (PowerSeries.exp ℝ).subst (expSeries [m, v])

theorem derivative_gaussSeries (m v : ℝ) : derivative ℝ (gaussSeries m v) = (C m + C v * X) * gaussSeries m v := by
  rw [gaussSeries, derivative_exp_subst (constantCoeff_expSeries _)]
  congr 1
  ext n
  rw [coeff_derivative, expSeries, coeff_mk, map_add, coeff_C_mul, coeff_X, coeff_C]
  match n with
  | 0 => simp
  | 1 => norm_num
  | n + 2 => simp

theorem hermMom_zero (m σ : ℝ) (p : ℕ) : hermMom m σ p 0 = p ! * coeff p (gaussSeries m (σ ^ 2)) := by
  induction p using Nat.strong_induction_on with
  | _ p ih =>
    match p with
    | 0 =>
      rw [hermMom_zero_zero, gaussSeries, coeff_zero_eq_constantCoeff_apply, constantCoeff_exp_subst (constantCoeff_expSeries _)]
      simp
    | 1 =>
      have e := congrArg (coeff 0) (derivative_gaussSeries m (σ ^ 2))
      rw [coeff_derivative, add_mul, map_add, mul_assoc, coeff_C_mul, coeff_C_mul, coeff_zero_X_mul] at e
      rw [hermMom_rec, ih 0 (by omega)]
      simp only [pow_zero, Polynomial.derivative_one, Polynomial.eval_zero, integral_zero, mul_zero, add_zero, Nat.factorial_one,
        Nat.factorial_zero, Nat.cast_one, one_mul, zero_add, Nat.cast_zero, mul_one] at e ⊢
      exact e.symm
    | p + 2 =>
      have e := congrArg (coeff (p + 1)) (derivative_gaussSeries m (σ ^ 2))
      rw [coeff_derivative, add_mul, map_add, mul_assoc, coeff_C_mul, coeff_C_mul, coeff_succ_X_mul] at e
      rw [hermMom_rec, ih (p + 1) (by omega), derivative_linPoly_pow]
      simp only [Polynomial.eval_mul, Polynomial.eval_C]
      rw [integral_const_mul, ← hermMom_zero_eq, ih p (by omega)]
      rw [Nat.factorial_succ (p + 1), Nat.factorial_succ p]
      push_cast at e ⊢
      linear_combination -((p : ℝ) + 1) * p ! * e

theorem hermMom_eq (m σ : ℝ) (j : ℕ) : ∀ p, hermMom m σ p j = p ! * coeff p (gaussSeries m (σ ^ 2) * (C (σ ^ j) * X ^ j)) := by
  induction j with
  | zero => intro p; rw [hermMom_zero]; simp
  | succ j ih =>
    intro p
    cases p with
    | zero => rw [hermMom_succ_zero, pow_succ X]; simp
    | succ p =>
      have e : gaussSeries m (σ ^ 2) * (C (σ ^ (j + 1)) * X ^ (j + 1))
          = C σ * ((gaussSeries m (σ ^ 2) * (C (σ ^ j) * X ^ j)) * X) := by
        rw [pow_succ X, pow_succ σ j, map_mul]; ring
      rw [hermMom_succ_succ, ih, e, coeff_C_mul, coeff_succ_mul_X, Nat.factorial_succ]
      push_cast
      ring

/-! ### C49 -/

/-- the polynomial factor of the Gram–Charlier density as a function of the standardised variable. -/
theorem gramCharlier_eq (κ : List ℝ) (h2 : 2 ≤ κ.length) (v : ℝ≥0) (hv : κ.getD 1 0 = v) (hv0 : v ≠ 0) (x : ℝ) :
    gramCharlier κ x = gaussianPDFReal (κ.getD 0 0) v x *
      (∑ j ∈ Finset.range (κ.length + 1), Polynomial.C (completeBell j ([0, 0] ++ κ.drop 2) / (j ! * √(v : ℝ) ^ j)) * realHermite j).eval
        ((x - κ.getD 0 0) / √(v : ℝ)) := by
  have hvp : 0 < (v : ℝ) := by positivity
  rw [gramCharlier, jget_eq (by omega), jget_eq (by omega), hv, sum_map_range_real, gaussianPDFReal_def, Polynomial.eval_finsetSum, one_div]
  congr 1
  · congr 2
    rw [div_div]
  · apply Finset.sum_congr rfl
    intro j hj
    rw [Finset.mem_range] at hj
    rw [Polynomial.eval_mul, Polynomial.eval_C, hermite_eq_eval]
    congr 2
    · refine (C45_bell _).2.2.2 _ _ fun i hi => ?_
      rw [List.getD_eq_getElem?_getD, List.getElem?_take_of_lt hi, ← List.getD_eq_getElem?_getD]
    · rw [Real.sqrt_eq_rpow, ← Real.rpow_natCast, ← Real.rpow_mul hvp.le]
      congr 2
      ring

theorem integral_gramCharlier (κ : List ℝ) (h2 : 2 ≤ κ.length) (hv : 0 < κ.getD 1 0) (p : ℕ) (hp : p ≤ κ.length) :
    Integrable (fun x => x ^ p * gramCharlier κ x) ∧
    ∫ x, x ^ p * gramCharlier κ x = p ! * coeff p ((PowerSeries.exp ℝ).subst (expSeries κ)) := by
  obtain ⟨v, hv'⟩ : ∃ v : ℝ≥0, κ.getD 1 0 = v := ⟨⟨_, hv.le⟩, rfl⟩
  have hvp : 0 < (v : ℝ) := hv' ▸ hv
  have hv0 : v ≠ 0 := by rintro rfl; simp at hvp
  have hs : √(v : ℝ) ≠ 0 := (Real.sqrt_pos.2 hvp).ne'
  set m := κ.getD 0 0 with hm
  set b := fun j => completeBell j ([0, 0] ++ κ.drop 2) with hb
  set S : Polynomial ℝ := ∑ j ∈ Finset.range (κ.length + 1), Polynomial.C (b j / (j ! * √(v : ℝ) ^ j)) * realHermite j with hS
  have hgc : ∀ x, x ^ p * gramCharlier κ x
      = gaussianPDFReal m v x • ((Polynomial.X ^ p * S.comp (Polynomial.C (√(v : ℝ))⁻¹ * (Polynomial.X - Polynomial.C m))).eval x) := by
    intro x
    rw [gramCharlier_eq κ h2 v hv' hv0, smul_eq_mul, Polynomial.eval_mul, Polynomial.eval_comp, ← hm, ← hS]
    simp only [Polynomial.eval_pow, Polynomial.eval_X, Polynomial.eval_mul, Polynomial.eval_C, Polynomial.eval_sub]
    rw [div_eq_inv_mul]
    ring
  simp_rw [hgc]
  constructor
  · have h := integrable_poly_gaussianReal m v
      (Polynomial.X ^ p * S.comp (Polynomial.C (√(v : ℝ))⁻¹ * (Polynomial.X - Polynomial.C m)))
    rw [gaussianReal_of_var_ne_zero m hv0,
      integrable_withDensity_iff_integrable_smul' (measurable_gaussianPDF m v) (by simp [gaussianPDF_lt_top])] at h
    refine h.congr (Filter.Eventually.of_forall fun x => ?_)
    simp only [toReal_gaussianPDF]
  · rw [← integral_gaussianReal_eq_integral_smul hv0, integral_gaussianReal_std _ _ _ (by fun_prop)]
    have e : ∀ z, (Polynomial.X ^ p * S.comp (Polynomial.C (√(v : ℝ))⁻¹ * (Polynomial.X - Polynomial.C m))).eval (m + √(v : ℝ) * z)
        = ∑ j ∈ Finset.range (κ.length + 1), b j / (j ! * √(v : ℝ) ^ j) *
            ((realHermite j).eval z * (linPoly m √(v : ℝ) ^ p).eval z) := by
      intro z
      rw [Polynomial.eval_mul, Polynomial.eval_comp, hS]
      simp only [Polynomial.eval_pow, Polynomial.eval_X, Polynomial.eval_mul, Polynomial.eval_C, Polynomial.eval_sub, linPoly,
        Polynomial.eval_add, Polynomial.eval_finsetSum]
      rw [add_sub_cancel_left, inv_mul_cancel_left₀ hs, Finset.mul_sum]
      apply Finset.sum_congr rfl
      intro j _
      ring
    simp_rw [e]
    rw [integral_finsetSum]
    · simp_rw [integral_const_mul]
      have hI : ∀ j, ∫ z, (realHermite j).eval z * (linPoly m √(v : ℝ) ^ p).eval z ∂gaussianReal 0 1
          = p ! * coeff p (gaussSeries m v * (C (√(v : ℝ) ^ j) * X ^ j)) := by
        intro j
        have := hermMom_eq m √(v : ℝ) j p
        rw [Real.sq_sqrt hvp.le] at this
        exact this
      simp_rw [hI]
      have hsum : ∑ j ∈ Finset.range (κ.length + 1), b j / (j ! * √(v : ℝ) ^ j) *
            (p ! * coeff p (gaussSeries m v * (C (√(v : ℝ) ^ j) * X ^ j)))
          = p ! * coeff p (gaussSeries m v * ∑ j ∈ Finset.range (κ.length + 1), C (b j / j !) * X ^ j) := by
        rw [Finset.mul_sum, map_sum, Finset.mul_sum]
        apply Finset.sum_congr rfl
        intro j _
        have e1 : gaussSeries m v * (C (√(v : ℝ) ^ j) * X ^ j) = C (√(v : ℝ) ^ j) * (gaussSeries m v * X ^ j) := by ring
        have e2 : gaussSeries m v * (C (b j / j !) * X ^ j) = C (b j / j !) * (gaussSeries m v * X ^ j) := by ring
        rw [e1, e2, coeff_C_mul, coeff_C_mul]
        have : √(v : ℝ) ^ j ≠ 0 := pow_ne_zero _ hs
        have : (j ! : ℝ) ≠ 0 := by exact_mod_cast j.factorial_ne_zero
        field_simp
      rw [hsum]
      congr 1
      -- compare with the exponential
      have hsplit : expSeries κ = expSeries [m, v] + expSeries ([0, 0] ++ κ.drop 2) := by
        ext i
        rw [map_add, expSeries, expSeries, expSeries, coeff_mk, coeff_mk, coeff_mk]
        match i with
        | 0 => simp
        | 1 => simp [hm]
        | 2 => simp [← hv']
        | i + 3 => simp [List.getD_eq_getElem?_getD, add_comm]
      rw [hsplit, exp_subst_add (constantCoeff_expSeries _) (constantCoeff_expSeries _), ← gaussSeries, coeff_mul, coeff_mul]
      apply Finset.sum_congr rfl
      intro a ha
      rw [Finset.mem_antidiagonal] at ha
      congr 1
      rw [map_sum, Finset.sum_eq_single a.2]
      · rw [coeff_C_mul, coeff_X_pow_self, mul_one, hb]
        simp only
        rw [(C45_bell _).2.1]
        have : (a.2 ! : ℝ) ≠ 0 := by exact_mod_cast a.2.factorial_ne_zero
        field_simp
      · intro j _ hj
        rw [coeff_C_mul, coeff_X_pow, if_neg (Ne.symm hj), mul_zero]
      · intro h
        rw [Finset.mem_range] at h
        omega
    · intro j _
      have := integrable_poly_gaussianReal 0 1 (realHermite j * linPoly m √(v : ℝ) ^ p)
      simp only [Polynomial.eval_mul] at this
      exact this.const_mul _

/-- **C49.** For every vector of at least two cumulants with positive variance, the function returned by `gram_charlier`
integrates to one; and if the given numbers are the cumulants of a law `L` (the coefficients of the logarithm of its moment
generating series, times factorials), its moments up to the number of cumulants are those of `L`. The moments are finite. -/
theorem C49_gram_charlier (κ : List ℝ) (h2 : 2 ≤ κ.length) (hv : 0 < κ.getD 1 0) :
    ∫ x, gramCharlier κ x = 1 ∧
    ∀ L : Polynomial ℝ →ₗ[ℝ] ℝ, L 1 = 1 →
      (∀ n < κ.length, κ.getD n 0
        = (n + 1)! * coeff (n + 1) (logOf (PowerSeries.mk fun n => L (Polynomial.X ^ n) / (n ! : ℝ)))) →
      ∀ p ≤ κ.length, Integrable (fun x => x ^ p * gramCharlier κ x) ∧ ∫ x, x ^ p * gramCharlier κ x = L (Polynomial.X ^ p) := by
  constructor
  · have := (integral_gramCharlier κ h2 hv 0 (by omega)).2
    simp only [pow_zero, one_mul] at this
    rw [this, coeff_zero_eq_constantCoeff_apply, constantCoeff_exp_subst (constantCoeff_expSeries _)]
    simp
  · intro L hL hκ p hp
    obtain ⟨i1, i2⟩ := integral_gramCharlier κ h2 hv p hp
    refine ⟨i1, ?_⟩
    have hM : (PowerSeries.mk fun n => L (Polynomial.X ^ n) / (n ! : ℝ)) = momentSeries L Polynomial.X := rfl
    have hc := constantCoeff_momentSeries L hL Polynomial.X
    have hpf : (p ! : ℝ) ≠ 0 := by exact_mod_cast p.factorial_ne_zero
    rw [i2, coeff_subst_congr (g' := logOf (momentSeries L Polynomial.X)) (constantCoeff_expSeries _) (constantCoeff_logOf hc),
      exp_subst_logOf hc, momentSeries, coeff_mk]
    · field_simp
    · intro i hi
      rw [expSeries, coeff_mk]
      split
      · subst_vars
        rw [coeff_zero_eq_constantCoeff_apply, constantCoeff_logOf hc]
      · have hif : (i ! : ℝ) ≠ 0 := by exact_mod_cast i.factorial_ne_zero
        rw [hκ (i - 1) (by omega), hM, show i - 1 + 1 = i by omega]
        field_simp

/-- composing with `sms_to_cumulants` (C44): the Gram–Charlier density built from the scaled central moments of a law `L` with
positive variance reproduces the raw moments of `L` below the number of given moments. -/
theorem C49_from_scaled_moments (L : Polynomial ℝ →ₗ[ℝ] ℝ) (hL : L 1 = 1) (scale : ℝ) (hs : scale ≠ 0) (s : ℕ) (h3 : 3 ≤ s)
    (hv : 0 < L ((Polynomial.X - Polynomial.C (L Polynomial.X)) ^ 2)) (p : ℕ) (hp : p < s) :
    ∫ x, x ^ p * gramCharlier (smsToCumulants ((List.range s).map fun n =>
        L ((Polynomial.C scale⁻¹ * (Polynomial.X - Polynomial.C (L Polynomial.X))) ^ n)) (L Polynomial.X) scale) x
      = L (Polynomial.X ^ p) := by
  have hκ := C44_cumulants L hL scale hs s
  set κ := smsToCumulants ((List.range s).map fun n =>
        L ((Polynomial.C scale⁻¹ * (Polynomial.X - Polynomial.C (L Polynomial.X))) ^ n)) (L Polynomial.X) scale with hκd
  have hlen : κ.length = s - 1 := by rw [hκ]; simp
  have hg : ∀ n < κ.length, κ.getD n 0
        = (n + 1)! * coeff (n + 1) (logOf (PowerSeries.mk fun n => L (Polynomial.X ^ n) / (n ! : ℝ))) := by
    intro n hn
    rw [hκ, getD_map_range_real _ (by omega)]
  refine ((C49_gram_charlier κ (by omega) ?_).2 L hL hg p (by omega)).2
  have h1 : κ.getD 1 0 = nthCumulant ((List.range s).map fun n =>
        L ((Polynomial.C scale⁻¹ * (Polynomial.X - Polynomial.C (L Polynomial.X))) ^ n)) (L Polynomial.X) scale 2 := by
    rw [hκd, smsToCumulants, getD_map_range_real _ (by simp; omega)]
  have hs2 : (1 : ℕ) < s ∧ 2 < s := by omega
  have hLm : L (Polynomial.X - Polynomial.C (L Polynomial.X)) = 0 := by
    have : Polynomial.C (L Polynomial.X) = (L Polynomial.X) • (1 : Polynomial ℝ) := by rw [Polynomial.smul_eq_C_mul, mul_one]
    rw [map_sub, this, map_smul, hL]; simp
  rw [h1, nthCumulant, if_neg (by omega), scaledToCentral_law L _ hs]
  norm_num [partialBell, List.range_succ, Nat.choose]
  rw [List.getElem?_range hs2.1, List.getElem?_range hs2.2]
  simp only [Option.map_some, Option.getD_some, pow_one, hLm, mul_zero]
  exact hv

/-- the hypotheses are met by the cumulants of `N(5, 4)`. -/
example : 2 ≤ ([5, 4, 0, 0, 0] : List ℝ).length ∧ 0 < ([5, 4, 0, 0, 0] : List ℝ).getD 1 0 := by norm_num

end Mfs.Props

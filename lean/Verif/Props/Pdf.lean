import Verif.Props.GramCharlier
import Verif.Lemmas.Legendre
import Mathlib.Analysis.Calculus.IteratedDeriv.Lemmas
import Mathlib.Analysis.Calculus.ContDiff.Polynomial
import Mathlib.Analysis.SpecialFunctions.Log.Deriv

/-!
# Properties C50 – C53, C88, C89: Legendre expansion, saddle point, cumulant generating function, Fourier inversion
-/

namespace Mfs.Props

open Mfs.Utils Mfs.Moments1 Mfs.Pdf MeasureTheory ProbabilityTheory Mfs.Quad1
open scoped Nat

/-! ## C50, C51 -/

theorem legendrePoly_eq (ms : List ℝ) (k : ℕ) (hk : k < ms.length) :
    legendrePoly k ms = seqFun (fun n => ms.getD n 0) (legPoly k) := by
  rw [legendrePoly, sum_map_range_real, legPoly, map_sum]
  apply Finset.sum_congr rfl
  intro i _
  rw [← Polynomial.smul_eq_C_mul, map_smul, seqFun_X_pow, smul_eq_mul, legCoeff, jget_eq (by omega)]

theorem legendre_eq (k : ℕ) (x : ℝ) : legendre k x = (legPoly k).eval x := by
  rw [legendre, legendrePoly, sum_map_range_real, legPoly, Polynomial.eval_finsetSum]
  apply Finset.sum_congr rfl
  intro i _
  rw [jget_map_range _ (by omega), Polynomial.eval_mul, Polynomial.eval_C, Polynomial.eval_pow, Polynomial.eval_X, legCoeff]

/-- the expansion on `[-1, 1]` as a polynomial. -/
noncomputable def legExp (rms : List ℝ) : Polynomial ℝ :=
  ∑ k ∈ Finset.range rms.length, Polynomial.C (basisCoeff rms k) * legPoly k

theorem legendrePolyExpansion_eq (rms : List ℝ) (a b x : ℝ) :
    legendrePolyExpansion rms a b x = 2 / (b - a) * (legExp rms).eval ((2 * x - (a + b)) / (b - a)) := by
  rw [legendrePolyExpansion, sum_map_range_real, legExp, Polynomial.eval_finsetSum]
  congr 1
  apply Finset.sum_congr rfl
  intro k _
  rw [legendre_eq, Polynomial.eval_mul, Polynomial.eval_C]

/-- integration against the expansion. -/
noncomputable def legFun (rms : List ℝ) : Polynomial ℝ →ₗ[ℝ] ℝ where
  toFun q := legI (legExp rms * q)
  map_add' p q := by rw [mul_add, legI_add]
  map_smul' c q := by
    rw [Polynomial.smul_eq_C_mul, show legExp rms * (Polynomial.C c * q) = Polynomial.C c * (legExp rms * q) by ring, legI_C_mul]; rfl

theorem legI_sum {ι : Type} (s : Finset ι) (f : ι → Polynomial ℝ) : legI (∑ i ∈ s, f i) = ∑ i ∈ s, legI (f i) := by
  classical
  induction s using Finset.induction_on with
  | empty => simp [legI]
  | insert a s ha ih => rw [Finset.sum_insert ha, Finset.sum_insert ha, legI_add, ih]

theorem legFun_X_pow (rms : List ℝ) (p : ℕ) (hp : p < rms.length) : legI (legExp rms * Polynomial.X ^ p) = rms.getD p 0 := by
  have h := legendre_span (legFun rms) (seqFun fun n => rms.getD n 0) rms.length ?_ p hp
  · rw [seqFun_X_pow] at h
    exact h
  · intro k hk
    change legI (legExp rms * legPoly k) = _
    rw [legExp, Finset.sum_mul, legI_sum, Finset.sum_eq_single k]
    · rw [mul_assoc, legI_C_mul, legendre_orthogonal, if_pos rfl, basisCoeff, legendrePoly_eq _ _ hk]
      have : (2 * (k : ℝ) + 1) ≠ 0 := by positivity
      field_simp
    · intro j _ hj
      rw [mul_assoc, legI_C_mul, legendre_orthogonal, if_neg hj, mul_zero]
    · intro h; rw [Finset.mem_range] at h; omega

/-- **C50.** On the default interval the expansion reproduces every supplied raw moment; the case `p = 0` says that it
integrates to `rms[0]`. -/
theorem C50_legendre (rms : List ℝ) (p : ℕ) (hp : p < rms.length) :
    ∫ x in (-1 : ℝ)..1, x ^ p * legendrePolyExpansion rms (-1) 1 x = rms.getD p 0 := by
  rw [← legFun_X_pow rms p hp, legI]
  congr 1
  ext x
  rw [legendrePolyExpansion_eq, Polynomial.eval_mul, Polynomial.eval_pow, Polynomial.eval_X]
  have : (2 * x - (-1 + 1)) / (1 - -1) = x := by ring
  rw [this]
  ring

/-- the uniform law on `[-1, 1]` has moments `1, 0, 1/3, 0`, and its expansion is the constant `1/2`. -/
example : legendrePolyExpansion [1, 0, 1 / 3, 0] (-1) 1 (7 / 10) = 1 / 2 := by
  norm_num [legendrePolyExpansion, basisCoeff, legendrePoly, legendre, jget, List.range_succ, Nat.factorial]

/-- What `legendre_poly_expansion` returns on `[a, b]`: a function reproducing the numbers `rms` as the moments of the
*standardised* variable `(2x - a - b) / (b - a)`. -/
theorem C51_legendre_value (rms : List ℝ) (a b : ℝ) (hab : a < b) (p : ℕ) (hp : p < rms.length) :
    ∫ x in a..b, ((2 * x - (a + b)) / (b - a)) ^ p * legendrePolyExpansion rms a b x = rms.getD p 0 := by
  have hb : b - a ≠ 0 := by linarith
  rw [← legFun_X_pow rms p hp, legI]
  have e : ∀ x : ℝ, ((2 * x - (a + b)) / (b - a)) ^ p * legendrePolyExpansion rms a b x
      = (fun y => 2 / (b - a) * (legExp rms * Polynomial.X ^ p).eval y) (2 / (b - a) * x + -(a + b) / (b - a)) := by
    intro x
    have : 2 / (b - a) * x + -(a + b) / (b - a) = (2 * x - (a + b)) / (b - a) := by ring
    simp only [this]
    rw [legendrePolyExpansion_eq, Polynomial.eval_mul, Polynomial.eval_pow, Polynomial.eval_X]
    ring
  have hc : 2 / (b - a) ≠ 0 := div_ne_zero two_ne_zero hb
  have hcv := intervalIntegral.integral_comp_mul_add (a := a) (b := b)
    (fun y => 2 / (b - a) * (legExp rms * Polynomial.X ^ p).eval y) hc (-(a + b) / (b - a))
  rw [intervalIntegral.integral_congr (fun x _ => e x), hcv, intervalIntegral.integral_const_mul, smul_eq_mul, inv_mul_cancel_left₀ hc]
  congr 1 <;> field_simp <;> ring

/-- **C51 is false.** For the uniform law on `[0, 1]`, whose first moments are `1, 1/2`, the expansion on `[0, 1]` has mean
`3/4`. -/
theorem C51_legendre_wrong : ∫ x in (0 : ℝ)..1, x ^ 1 * legendrePolyExpansion [1, 1 / 2] 0 1 x = 3 / 4 ∧
    (∀ p < 2, ∫ x in (0 : ℝ)..1, x ^ p * 1 = ([1, 1 / 2] : List ℝ).getD p 0) := by
  constructor
  · have e : ∀ x : ℝ, x ^ 1 * legendrePolyExpansion [1, 1 / 2] 0 1 x = 3 * x ^ 2 - 1 / 2 * x := by
      intro x
      norm_num [legendrePolyExpansion, basisCoeff, legendrePoly, legendre, jget, List.range_succ, Nat.factorial]
      ring
    simp_rw [e]
    rw [intervalIntegral.integral_sub ((by fun_prop : Continuous _).intervalIntegrable _ _)
      ((by fun_prop : Continuous _).intervalIntegrable _ _), intervalIntegral.integral_const_mul,
      intervalIntegral.integral_const_mul, integral_pow, integral_id]
    norm_num
  · intro p hp
    interval_cases p <;> simp

theorem linear_pow_functional (A B : Polynomial ℝ →ₗ[ℝ] ℝ) (Y : Polynomial ℝ) (c d : ℝ) (n : ℕ)
    (h : ∀ p < n, A (Y ^ p) = B (Y ^ p)) (p : ℕ) (hp : p < n) :
    A ((Polynomial.C c * Y + Polynomial.C d) ^ p) = B ((Polynomial.C c * Y + Polynomial.C d) ^ p) := by
  rw [add_pow, map_sum, map_sum]
  apply Finset.sum_congr rfl
  intro i hi
  rw [Finset.mem_range] at hi
  have e : (Polynomial.C c * Y) ^ i * Polynomial.C d ^ (p - i) * (p.choose i : Polynomial ℝ)
      = (c ^ i * d ^ (p - i) * (p.choose i : ℝ)) • Y ^ i := by
    rw [Polynomial.smul_eq_C_mul]
    simp only [map_mul, map_pow, map_natCast]
    ring
  rw [e, map_smul, map_smul, h i (by omega)]

/-- **C51, the part that holds.** If the supplied numbers are the moments of the *standardised* variable
`(2X - a - b) / (b - a)` (for `[-1, 1]`: the raw moments) of a law `L`, the expansion on `[a, b]` reproduces the raw moments
of `L`. Missing from C51: the same with the raw moments as input, which is false. -/
theorem C51_legendre_partial (L : Polynomial ℝ →ₗ[ℝ] ℝ) (a b : ℝ) (hab : a < b) (n : ℕ) (p : ℕ) (hp : p < n) :
    ∫ x in a..b, x ^ p * legendrePolyExpansion
        ((List.range n).map fun k => L ((Polynomial.C (2 / (b - a)) * Polynomial.X + Polynomial.C (-(a + b) / (b - a))) ^ k)) a b x
      = L (Polynomial.X ^ p) := by
  set Y : Polynomial ℝ := Polynomial.C (2 / (b - a)) * Polynomial.X + Polynomial.C (-(a + b) / (b - a)) with hY
  set rms := (List.range n).map fun k => L (Y ^ k) with hrms
  have hlen : rms.length = n := by simp [hrms]
  have hb : b - a ≠ 0 := by linarith
  have hcont : Continuous (legendrePolyExpansion rms a b) := by
    have : legendrePolyExpansion rms a b
        = fun x => 2 / (b - a) * (legExp rms).eval ((2 * x - (a + b)) / (b - a)) := by
      ext x; exact legendrePolyExpansion_eq rms a b x
    rw [this]; fun_prop
  let A : Polynomial ℝ →ₗ[ℝ] ℝ :=
    { toFun := fun q => ∫ x in a..b, q.eval x * legendrePolyExpansion rms a b x
      map_add' := fun q r => by
        simp only [Polynomial.eval_add, add_mul]
        exact intervalIntegral.integral_add ((q.continuous.mul hcont).intervalIntegrable _ _)
          ((r.continuous.mul hcont).intervalIntegrable _ _)
      map_smul' := fun c q => by
        simp only [Polynomial.eval_smul, smul_eq_mul, mul_assoc, RingHom.id_apply]
        exact intervalIntegral.integral_const_mul _ _ }
  have hA : ∀ q < n, A (Y ^ q) = L (Y ^ q) := by
    intro q hq
    have := C51_legendre_value rms a b hab q (by omega)
    rw [hrms, getD_map_range_real _ hq, ← hrms] at this
    rw [← this]
    change ∫ x in a..b, (Y ^ q).eval x * _ = _
    congr 1
    ext x
    rw [Polynomial.eval_pow, hY]
    simp only [Polynomial.eval_add, Polynomial.eval_mul, Polynomial.eval_C, Polynomial.eval_X]
    congr 2
    ring
  have hX : (Polynomial.X : Polynomial ℝ) = Polynomial.C ((b - a) / 2) * Y + Polynomial.C ((a + b) / 2) := by
    rw [hY, mul_add, ← mul_assoc, ← Polynomial.C_mul, ← Polynomial.C_mul, add_assoc, ← Polynomial.C_add]
    have e1 : (b - a) / 2 * (2 / (b - a)) = 1 := by field_simp
    have e2 : (b - a) / 2 * (-(a + b) / (b - a)) + (a + b) / 2 = 0 := by field_simp; ring
    rw [e1, e2]; simp
  have := linear_pow_functional A L Y ((b - a) / 2) ((a + b) / 2) n hA p hp
  rw [← hX] at this
  rw [← this]
  change _ = ∫ x in a..b, (Polynomial.X ^ p : Polynomial ℝ).eval x * _
  simp only [Polynomial.eval_pow, Polynomial.eval_X]

example : (0 : ℝ) < 1 ∧ 1 < 4 := by norm_num

/-! ## C53 -/

theorem contDiff_poly (P : Polynomial ℝ) {n : WithTop ℕ∞} : ContDiff ℝ n (fun z => P.eval z) := by
  have := P.contDiff_aeval (𝕜 := ℝ) (n := n)
  simpa using this

theorem iteratedDeriv_poly (n : ℕ) (P : Polynomial ℝ) : iteratedDeriv n (fun z => P.eval z) 0 = n ! * P.coeff n := by
  induction n generalizing P with
  | zero => simp [Polynomial.coeff_zero_eq_eval_zero]
  | succ n ih =>
    rw [iteratedDeriv_succ']
    have : deriv (fun z => P.eval z) = fun z => (Polynomial.derivative P).eval z := by ext z; simp
    rw [this, ih, Polynomial.coeff_derivative, Nat.factorial_succ]
    push_cast
    ring

open PowerSeries in
theorem iteratedDeriv_log_poly (P : Polynomial ℝ) (hP : P.coeff 0 = 1) (n : ℕ) :
    iteratedDeriv n (fun z => Real.log (P.eval z)) 0 = n ! * coeff n (logOf (P : ℝ⟦X⟧)) := by
  have hc : constantCoeff (P : ℝ⟦X⟧) = 1 := by
    rw [← coeff_zero_eq_constantCoeff_apply, Polynomial.coeff_coe, hP]
  have hP0 : P.eval 0 = 1 := by rw [← Polynomial.coeff_zero_eq_eval_zero, hP]
  have hev : ∀ᶠ z in nhds (0 : ℝ), P.eval z ≠ 0 :=
    P.continuous.continuousAt.eventually_ne (by rw [hP0]; exact one_ne_zero)
  have hderiv : deriv (fun z => Real.log (P.eval z)) =ᶠ[nhds 0] fun z => (Polynomial.derivative P).eval z / P.eval z := by
    filter_upwards [hev] with z hz
    rw [deriv.log (P.differentiable z) hz, Polynomial.deriv]
  have hsm : ∀ k : ℕ, ContDiffAt ℝ k (deriv fun z => Real.log (P.eval z)) 0 := by
    intro k
    refine ContDiffAt.congr_of_eventuallyEq ?_ hderiv
    exact (contDiff_poly (Polynomial.derivative P)).contDiffAt.div (contDiff_poly P).contDiffAt (by rw [hP0]; exact one_ne_zero)
  induction n using Nat.strong_induction_on with
  | _ n ih =>
    cases n with
    | zero =>
      rw [iteratedDeriv_zero, hP0, Real.log_one, coeff_zero_eq_constantCoeff_apply, constantCoeff_logOf hc, mul_zero]
    | succ n =>
      have hmul : ((deriv fun z => Real.log (P.eval z)) * fun z => P.eval z) =ᶠ[nhds 0] fun z => (Polynomial.derivative P).eval z := by
        filter_upwards [hev, hderiv] with z hz hd
        rw [Pi.mul_apply, hd, div_mul_cancel₀ _ hz]
      have h1 := hmul.iteratedDeriv_eq n
      rw [iteratedDeriv_mul (hsm n) (contDiff_poly P).contDiffAt, iteratedDeriv_poly, Finset.sum_range_succ, Nat.sub_self,
        iteratedDeriv_poly, ← iteratedDeriv_succ', Nat.choose_self, hP] at h1
      simp only [iteratedDeriv_poly] at h1
      have h2 := congrArg (coeff n) (derivative_logOf hc)
      rw [mul_comm, coeff_mul, Finset.Nat.sum_antidiagonal_eq_sum_range_succ_mk, Finset.sum_range_succ] at h2
      simp only [coeff_derivative, Polynomial.coeff_coe, Nat.sub_self, hP] at h2
      have h3 : ∑ x ∈ Finset.range n, (n.choose x : ℝ) * iteratedDeriv x (deriv fun z => Real.log (P.eval z)) 0 * ((n - x)! * P.coeff (n - x))
          = n ! * ∑ x ∈ Finset.range n, coeff (x + 1) (logOf (P : ℝ⟦X⟧)) * ((x : ℝ) + 1) * P.coeff (n - x) := by
        rw [Finset.mul_sum]
        apply Finset.sum_congr rfl
        intro x hx
        rw [Finset.mem_range] at hx
        rw [← iteratedDeriv_succ', ih (x + 1) (by omega), Nat.cast_choose ℝ hx.le, Nat.factorial_succ]
        have a1 : (x ! : ℝ) ≠ 0 := by exact_mod_cast x.factorial_ne_zero
        have a2 : ((n - x)! : ℝ) ≠ 0 := by exact_mod_cast (n - x).factorial_ne_zero
        push_cast
        field_simp
      rw [h3] at h1
      rw [Polynomial.coeff_derivative] at h1
      rw [Nat.factorial_succ]
      push_cast at h1 h2 ⊢
      simp only [Nat.factorial_zero, Nat.cast_one, mul_one, one_mul] at h1 h2
      linear_combination h1 - (n ! : ℝ) * h2

/-- the truncated moment generating function as a polynomial in `z`. -/
noncomputable def mgfPoly (ms : List ℝ) (scale : ℝ) : Polynomial ℝ :=
  ∑ n ∈ Finset.range ms.length, Polynomial.C (scale ^ n / (n ! : ℝ) * ms.getD n 0) * Polynomial.X ^ n

theorem truncatedCgf_eq (z : ℝ) (ms : List ℝ) (mean scale : ℝ) :
    truncatedCgf z ms mean scale = z * mean + Real.log ((mgfPoly ms scale).eval z) := by
  rw [truncatedCgf, sum_map_range_real, mgfPoly, Polynomial.eval_finsetSum]
  congr 2
  apply Finset.sum_congr rfl
  intro n _
  rw [Polynomial.eval_mul, Polynomial.eval_C, Polynomial.eval_pow, Polynomial.eval_X, mul_pow]
  ring

theorem coeff_mgfPoly (ms : List ℝ) (scale : ℝ) (n : ℕ) (hn : n < ms.length) :
    (mgfPoly ms scale).coeff n = scale ^ n / (n ! : ℝ) * ms.getD n 0 := by
  rw [mgfPoly, Polynomial.finsetSum_coeff, Finset.sum_eq_single n]
  · rw [Polynomial.coeff_C_mul, Polynomial.coeff_X_pow_self, mul_one]
  · intro j _ hj
    rw [Polynomial.coeff_C_mul, Polynomial.coeff_X_pow, if_neg (Ne.symm hj), mul_zero]
  · intro h; rw [Finset.mem_range] at h; omega

theorem iteratedDeriv_truncatedCgf (ms : List ℝ) (hl : ms ≠ []) (h0 : ms.getD 0 0 = 1) (mean scale : ℝ) (n : ℕ) :
    iteratedDeriv n (fun z => truncatedCgf z ms mean scale) 0
      = n ! * PowerSeries.coeff n (PowerSeries.C mean * PowerSeries.X + PowerSeries.logOf (mgfPoly ms scale : PowerSeries ℝ)) := by
  have hlen : 0 < ms.length := List.length_pos_of_ne_nil hl
  have hP : (mgfPoly ms scale).coeff 0 = 1 := by rw [coeff_mgfPoly _ _ _ hlen, h0]; simp
  have hP0 : (mgfPoly ms scale).eval 0 = 1 := by rw [← Polynomial.coeff_zero_eq_eval_zero, hP]
  have e : (fun z => truncatedCgf z ms mean scale)
      = (fun z => (Polynomial.C mean * Polynomial.X).eval z) + fun z => Real.log ((mgfPoly ms scale).eval z) := by
    ext z
    rw [truncatedCgf_eq, Pi.add_apply]
    simp only [Polynomial.eval_mul, Polynomial.eval_C, Polynomial.eval_X]
    ring
  rw [e, iteratedDeriv_add, iteratedDeriv_poly, iteratedDeriv_log_poly _ hP, map_add, mul_add]
  · congr 2
    rw [Polynomial.coeff_C_mul, PowerSeries.coeff_C_mul, Polynomial.coeff_X, PowerSeries.coeff_X]
    simp [eq_comm]
  · exact (contDiff_poly _).contDiffAt
  · exact (contDiff_poly _).contDiffAt.log (by rw [hP0]; exact one_ne_zero)

/-- **C53.** For every moment vector with `ms[0] = 1` the truncated cumulant generating function vanishes at zero and has
derivative `mean + scale * ms[1]` there. If the vector lists the first `s` moments of `(X - mean) / scale` for a law `L` and
*any* numbers `mean` and `scale ≠ 0` (raw moments: `mean = 0, scale = 1`; central: `scale = 1`; scaled), its derivatives at
zero of order `1, …, s - 1` are the cumulants of `L`; in particular raw, central and scaled versions agree. -/
theorem C53_truncated_cgf :
    (∀ (ms : List ℝ) (mean scale : ℝ), ms.getD 0 0 = 1 →
      truncatedCgf 0 ms mean scale = 0 ∧
      (2 ≤ ms.length → HasDerivAt (fun z => truncatedCgf z ms mean scale) (mean + scale * ms.getD 1 0) 0)) ∧
    (∀ (L : Polynomial ℝ →ₗ[ℝ] ℝ) (mean scale : ℝ) (s n : ℕ), L 1 = 1 → scale ≠ 0 → n < s →
      iteratedDeriv n (fun z => truncatedCgf z ((List.range s).map fun k =>
          L ((Polynomial.C scale⁻¹ * (Polynomial.X - Polynomial.C mean)) ^ k)) mean scale) 0
        = n ! * PowerSeries.coeff n (PowerSeries.logOf (PowerSeries.mk fun k => L (Polynomial.X ^ k) / (k ! : ℝ)))) := by
  constructor
  · intro ms mean scale h0
    have hl : ms ≠ [] := by rintro rfl; simp at h0
    have hlen : 0 < ms.length := List.length_pos_of_ne_nil hl
    have hP : (mgfPoly ms scale).coeff 0 = 1 := by rw [coeff_mgfPoly _ _ _ hlen, h0]; simp
    have hP0 : (mgfPoly ms scale).eval 0 = 1 := by rw [← Polynomial.coeff_zero_eq_eval_zero, hP]
    refine ⟨by rw [truncatedCgf_eq, hP0]; simp, fun h2 => ?_⟩
    simp_rw [truncatedCgf_eq]
    have hd := (Polynomial.hasDerivAt (mgfPoly ms scale) 0).log (by rw [hP0]; exact one_ne_zero)
    refine (((hasDerivAt_id (0 : ℝ)).mul_const mean).add hd).congr_deriv ?_
    rw [hP0, ← Polynomial.coeff_zero_eq_eval_zero, Polynomial.coeff_derivative, coeff_mgfPoly _ _ _ h2]
    simp
  · intro L mean scale s n hL hs hn
    set ms := (List.range s).map fun k => L ((Polynomial.C scale⁻¹ * (Polynomial.X - Polynomial.C mean)) ^ k) with hms
    have hlen : ms.length = s := by simp [hms]
    have hms' : ∀ k < s, ms.getD k 0 = (scale⁻¹) ^ k * L ((Polynomial.X - Polynomial.C mean) ^ k) := by
      intro k hk
      rw [hms, getD_map_range_real _ hk, mul_pow, ← map_pow, ← Polynomial.smul_eq_C_mul, map_smul, smul_eq_mul]
    have h0 : ms.getD 0 0 = 1 := by rw [hms' 0 (by omega)]; simp [hL]
    have hP : (mgfPoly ms scale).coeff 0 = 1 := by rw [coeff_mgfPoly _ _ _ (by omega), h0]; simp
    rw [iteratedDeriv_truncatedCgf ms (by intro h; rw [h] at hlen; simp at hlen; omega) h0]
    have hX : (Polynomial.X : Polynomial ℝ) = (Polynomial.X - Polynomial.C mean) + Polynomial.C mean := by ring
    have hM : PowerSeries.logOf (PowerSeries.mk fun n => L (Polynomial.X ^ n) / (n ! : ℝ))
        = PowerSeries.C mean * PowerSeries.X + PowerSeries.logOf (momentSeries L (Polynomial.X - Polynomial.C mean)) := by
      rw [← logOf_shift L hL, ← hX]; rfl
    rw [hM, map_add, map_add]
    congr 2
    have hc := constantCoeff_momentSeries L hL (Polynomial.X - Polynomial.C mean)
    rw [PowerSeries.logOf_eq, PowerSeries.logOf_eq]
    apply coeff_subst_congr
    · rw [map_sub, ← PowerSeries.coeff_zero_eq_constantCoeff_apply, Polynomial.coeff_coe, hP]; simp
    · rw [map_sub, hc]; simp
    · intro i hi
      rw [map_sub, map_sub, Polynomial.coeff_coe, coeff_mgfPoly _ _ _ (by omega), hms' i (by omega), momentSeries,
        PowerSeries.coeff_mk]
      congr 1
      rw [inv_pow]
      have := pow_ne_zero i hs
      field_simp

example : ([1, 0, 1, 0] : List ℝ).getD 0 0 = 1 := rfl

/-! ## C52 -/

theorem polyval_concat (p : List ℝ) (c x : ℝ) : polyval (p ++ [c]) x = polyval p x * x + c := by
  simp [polyval, List.foldl_append]

theorem polyval_reverse_map_range (f : ℕ → ℝ) (n : ℕ) (x : ℝ) :
    polyval ((List.range n).map f).reverse x = ∑ i ∈ Finset.range n, f i * x ^ i := by
  induction n generalizing f with
  | zero => simp [polyval]
  | succ n ih =>
    rw [List.range_succ_eq_map, List.map_cons, List.reverse_cons, polyval_concat, List.map_map, ih, Finset.sum_range_succ', pow_zero,
      mul_one, Finset.sum_mul]
    congr 1
    apply Finset.sum_congr rfl
    intro i _
    simp only [Function.comp]
    ring

/-- the function `cgf` inside `saddle_point` is the truncated cumulant generating function. -/
theorem saddleCgf_eq (sms : List ℝ) (mean scale : ℝ) : saddleCgf sms mean scale = fun z => truncatedCgf z sms mean scale := by
  ext z
  rw [saddleCgf, smsPoly, polyval_reverse_map_range, truncatedCgf, sum_map_range_real]
  congr 2
  apply Finset.sum_congr rfl
  intro n _
  ring

theorem firstArgmin_min (f : ℝ → ℝ) (l : List ℝ) (b : ℝ) (h : ∀ c, f b ≤ f c) : firstArgmin f b l = b := by
  induction l with
  | nil => rfl
  | cons c l ih => rw [firstArgmin, if_neg (not_lt.2 (h c)), ih]

/-- **C52 is false.** For the moments `1, 0, 1, 0` (those of a standard normal law), mean 0, scale 1 and `x = 1/2` the
saddle-point equation has a real root (`2 - √2`), but the `s` used by `saddle_point` is `0` and does not solve it. -/
theorem C52_saddle_wrong :
    saddleS [1, 0, 1, 0] 0 1 (1 / 2) = 0 ∧
    deriv (saddleCgf [1, 0, 1, 0] 0 1) 0 ≠ 1 / 2 ∧
    (1 : ℝ) + (2 - √2) ^ 2 / 2 > 0 ∧
    deriv (saddleCgf [1, 0, 1, 0] 0 1) (2 - √2) = 1 / 2 := by
  refine ⟨?_, ?_, by positivity, ?_⟩
  · norm_num [saddleS, saddleEquationPoly, smsPoly, polyder, polyadd, findNearestRealRoot, firstArgmin, List.range_succ, Nat.factorial]
  · rw [saddleCgf_eq, ((C53_truncated_cgf.1 [1, 0, 1, 0] 0 1 rfl).2 (by simp)).deriv]
    norm_num
  · have e : saddleCgf [1, 0, 1, 0] 0 1 = fun z => Real.log (1 + z ^ 2 / 2) := by
      rw [saddleCgf_eq]
      ext z
      norm_num [truncatedCgf, List.range_succ, Nat.factorial]
    have h2 : √2 ^ 2 = (2 : ℝ) := Real.sq_sqrt (by norm_num)
    have hpos : (1 : ℝ) + (2 - √2) ^ 2 / 2 ≠ 0 := by positivity
    have hd : HasDerivAt (fun z : ℝ => 1 + z ^ 2 / 2) (2 - √2) (2 - √2) := by
      refine ((((hasDerivAt_id (2 - √2)).pow 2).div_const 2).const_add 1).congr_deriv ?_
      simp
    rw [e, (hd.log hpos).deriv, div_eq_div_iff hpos two_ne_zero]
    nlinarith

/-- **C52, a case in which it holds.** At `x = mean`, for moments with `s_0 = 1` and `s_1 = 0`, the `s` used is `0`, which
solves the saddle-point equation. Missing from C52: every other `x`, where the code selects a polynomial *coefficient*. -/
theorem C52_saddle_partial (sms : List ℝ) (h2 : 2 ≤ sms.length) (h0 : sms.getD 0 0 = 1) (h1 : sms.getD 1 0 = 0) (mean scale : ℝ) :
    HasDerivAt (saddleCgf sms mean scale) mean (saddleS sms mean scale mean) := by
  have hs : saddleS sms mean scale mean = 0 := by
    have hlen : (smsPoly sms).length = sms.length := by simp [smsPoly]
    have hhead : (saddleEquationPoly sms mean scale mean).headD 0 = 0 := by
      rw [saddleEquationPoly, polyadd]
      have hl1 : ((smsPoly sms).map fun c => (mean - mean) * c).length = sms.length := by simp [hlen]
      have hl2 : ((polyder (smsPoly sms)).map fun c => scale * c).length = sms.length - 1 := by simp [polyder, hlen]
      simp only [hl1, hl2, max_eq_left (Nat.sub_le _ _), Nat.sub_self, show sms.length - (sms.length - 1) = 1 by omega,
        List.replicate_zero, List.replicate_one, List.nil_append]
      obtain ⟨c, l, hcl⟩ := List.exists_cons_of_length_pos (l := smsPoly sms) (by omega)
      rw [hcl]
      simp
    rw [saddleS, findNearestRealRoot, hhead, sub_self, zero_div, firstArgmin_min]
    · simp
    · intro c; simp
  rw [hs, saddleCgf_eq]
  have := (C53_truncated_cgf.1 sms mean scale h0).2 h2
  rw [h1, mul_zero, add_zero] at this
  exact this

example : ([1, 0, 1, 0, 3, 0] : List ℝ).getD 0 0 = 1 ∧ ([1, 0, 1, 0, 3, 0] : List ℝ).getD 1 0 = 0 := ⟨rfl, rfl⟩

theorem polyval_eq_sum (p : List ℝ) (x : ℝ) : polyval p x = ∑ i ∈ Finset.range p.length, p.getD (p.length - 1 - i) 0 * x ^ i := by
  have h : p = ((List.range p.length).map fun i => p.getD (p.length - 1 - i) 0).reverse := by
    apply List.ext_getElem
    · simp
    · intro i h1 h2
      rw [List.getElem_reverse, List.getElem_map, List.getElem_range]
      simp only [List.length_map, List.length_range]
      rw [show p.length - 1 - (p.length - 1 - i) = i by omega]
      simp [h1]
  conv_lhs => rw [h]
  exact polyval_reverse_map_range _ _ _

theorem polyval_cons (c : ℝ) (p : List ℝ) (x : ℝ) : polyval (c :: p) x = c * x ^ p.length + polyval p x := by
  have h : ∀ (p : List ℝ) (a : ℝ), p.foldl (fun acc c => acc * x + c) a = a * x ^ p.length + polyval p x := by
    intro p
    induction p with
    | nil => intro a; simp [polyval]
    | cons d p ih =>
      intro a
      rw [polyval, List.foldl_cons, List.foldl_cons, ih, ih, List.length_cons]
      ring
  rw [polyval, List.foldl_cons, h]
  ring

theorem polyval_map_mul (a : ℝ) (p : List ℝ) (x : ℝ) : polyval (p.map fun c => a * c) x = a * polyval p x := by
  induction p with
  | nil => simp [polyval]
  | cons c p ih => rw [List.map_cons, polyval_cons, polyval_cons, ih, List.length_map]; ring

theorem polyval_pad (n : ℕ) (p : List ℝ) (x : ℝ) : polyval (List.replicate n 0 ++ p) x = polyval p x := by
  induction n with
  | zero => rfl
  | succ n ih => rw [List.replicate_succ, List.cons_append, polyval_cons, ih]; ring

theorem polyval_zipWith (p q : List ℝ) (h : p.length = q.length) (x : ℝ) :
    polyval (List.zipWith (· + ·) p q) x = polyval p x + polyval q x := by
  induction p generalizing q with
  | nil => simp at h; simp [List.eq_nil_of_length_eq_zero h.symm, polyval]
  | cons c p ih =>
    cases q with
    | nil => simp at h
    | cons d q =>
      have hl : p.length = q.length := by simpa using h
      rw [List.zipWith_cons_cons, polyval_cons, polyval_cons, polyval_cons, ih q hl, List.length_zipWith, hl, min_self]
      ring

theorem polyval_polyadd (p q : List ℝ) (x : ℝ) : polyval (polyadd p q) x = polyval p x + polyval q x := by
  rw [polyadd]
  rw [polyval_zipWith _ _ (by simp), polyval_pad, polyval_pad]

/-- `polyder` is the derivative. -/
theorem hasDerivAt_polyval (p : List ℝ) (x : ℝ) : HasDerivAt (polyval p) (polyval (polyder p) x) x := by
  induction p with
  | nil =>
    have : polyval [] = fun _ => (0 : ℝ) := rfl
    rw [this]
    simpa [polyder, polyval] using hasDerivAt_const x (0 : ℝ)
  | cons c p ih =>
    have e : polyval (c :: p) = fun x => c * x ^ p.length + polyval p x := funext fun x => polyval_cons c p x
    rw [e]
    have h := ((hasDerivAt_pow p.length x).const_mul c).add ih
    refine h.congr_deriv ?_
    cases p with
    | nil => simp [polyder, polyval]
    | cons d p =>
      have hd : polyder (c :: d :: p) = (c * ((p.length + 1 : ℕ) : ℝ)) :: polyder (d :: p) := by
        simp only [polyder, List.length_cons, Nat.add_sub_cancel]
        rw [List.range_succ_eq_map, List.map_cons, List.map_map]
        congr 1
        apply List.map_congr_left
        intro i _
        simp only [Function.comp, List.getD_cons_succ]
        rw [show p.length + 1 - (i + 1) = p.length - i by omega]
      rw [hd, polyval_cons]
      simp [polyder]
      ring

/-- **C52, what the polynomial is for.** The real roots of the polynomial built by `saddle_point` are, up to the scale, exactly the saddle
points at which the logarithm is defined. So C52 fails only because the code takes a coefficient of the polynomial for a root. -/
theorem C52_polynomial_roots (sms : List ℝ) (mean scale x s : ℝ)
    (hp : ∑ n ∈ Finset.range sms.length, sms.getD n 0 / (n.factorial : ℝ) * (s * scale) ^ n ≠ 0) :
    deriv (saddleCgf sms mean scale) s = x ↔ polyval (saddleEquationPoly sms mean scale x) (s * scale) = 0 := by
  have hpv : polyval (smsPoly sms) (s * scale) ≠ 0 := by
    rw [smsPoly, polyval_reverse_map_range]; exact hp
  have hd : HasDerivAt (saddleCgf sms mean scale)
      (mean + polyval (polyder (smsPoly sms)) (s * scale) * scale / polyval (smsPoly sms) (s * scale)) s := by
    have h1 : HasDerivAt (fun z : ℝ => z * scale) scale s := by simpa using (hasDerivAt_id s).mul_const scale
    have h2' : HasDerivAt (fun z => polyval (smsPoly sms) (z * scale)) (polyval (polyder (smsPoly sms)) (s * scale) * scale) s :=
      HasDerivAt.comp (h₂ := polyval (smsPoly sms)) s (hasDerivAt_polyval (smsPoly sms) (s * scale)) h1
    have h2 := h2'.log hpv
    have h3 : HasDerivAt (fun z : ℝ => z * mean) mean s := by simpa using (hasDerivAt_id s).mul_const mean
    exact h3.add h2
  rw [hd.deriv, saddleEquationPoly, polyval_polyadd, polyval_map_mul, polyval_map_mul]
  rw [← sub_eq_zero, ← mul_eq_zero_iff_right hpv]
  field_simp
  constructor <;> intro h <;> linarith

/-- **C52, repaired.** If `find_nearest_real_root` is given real roots of this polynomial instead of its coefficients, the `s` obtained solves
the saddle-point equation, and no other root in the list is nearer to the first guess. -/
theorem C52_repaired (sms : List ℝ) (mean scale x : ℝ) (hs : scale ≠ 0) (roots : List ℝ) (hne : roots ≠ [])
    (hr : ∀ r ∈ roots, polyval (saddleEquationPoly sms mean scale x) r = 0)
    (hp : ∀ r ∈ roots, ∑ n ∈ Finset.range sms.length, sms.getD n 0 / (n.factorial : ℝ) * r ^ n ≠ 0) :
    deriv (saddleCgf sms mean scale) (findNearestRealRoot roots ((x - mean) / scale ^ 2) / scale) = x ∧
    ∀ r ∈ roots, |findNearestRealRoot roots ((x - mean) / scale ^ 2) - (x - mean) / scale ^ 2| ≤ |r - (x - mean) / scale ^ 2| := by
  have key : ∀ (f : ℝ → ℝ) (l : List ℝ) (b : ℝ), firstArgmin f b l ∈ b :: l ∧ ∀ r ∈ b :: l, f (firstArgmin f b l) ≤ f r := by
    intro f l
    induction l with
    | nil => intro b; simp [firstArgmin]
    | cons c l ih =>
      intro b
      rw [firstArgmin]
      obtain ⟨h1, h2⟩ := ih (if f c < f b then c else b)
      refine ⟨?_, ?_⟩
      · rcases List.mem_cons.1 h1 with h | h
        · rw [h]; split_ifs <;> simp
        · simp [h]
      · have h3 := h2 _ List.mem_cons_self
        intro r hr
        rcases List.mem_cons.1 hr with rfl | hr
        · refine h3.trans ?_
          split_ifs with h
          · exact h.le
          · exact le_rfl
        · rcases List.mem_cons.1 hr with rfl | hr
          · refine h3.trans ?_
            split_ifs with h
            · exact le_rfl
            · exact not_lt.1 h
          · exact h2 r (List.mem_cons_of_mem _ hr)
  obtain ⟨c, l, rfl⟩ := List.exists_cons_of_ne_nil hne
  obtain ⟨h1, h2⟩ := key (fun c => |c - (x - mean) / scale ^ 2|) l c
  refine ⟨?_, h2⟩
  have e : findNearestRealRoot (c :: l) ((x - mean) / scale ^ 2) / scale * scale = findNearestRealRoot (c :: l) ((x - mean) / scale ^ 2) :=
    div_mul_cancel₀ _ hs
  rw [C52_polynomial_roots sms mean scale x _ (by rw [e]; exact hp _ h1), e]
  exact hr _ h1

/-- the moments of `C52_saddle_wrong`: `2 - √2` is a root of the polynomial. -/
example : polyval (saddleEquationPoly [1, 0, 1, 0] 0 1 (1 / 2)) (2 - √2) = 0 := by
  have h := (C52_polynomial_roots [1, 0, 1, 0] 0 1 (1 / 2) (2 - √2) (by
    norm_num [Finset.sum_range_succ, Nat.factorial]; positivity)).1 C52_saddle_wrong.2.2.2
  simpa using h

/-! ## C88, C89 -/

theorem trapzC_concat (l : List (ℝ × ℂ)) (a b : ℝ × ℂ) :
    trapzC (l ++ [a, b]) = trapzC (l ++ [a]) + (b.1 - a.1 : ℝ) * (a.2 + b.2) / 2 := by
  induction l with
  | nil => simp [trapzC]
  | cons c l ih =>
    cases l with
    | nil => simp [trapzC]
    | cons d l =>
      simp only [List.cons_append, trapzC] at ih ⊢
      rw [ih]
      ring

theorem trapzC_reverse (l : List (ℝ × ℂ)) : trapzC l.reverse = -trapzC l := by
  induction l with
  | nil => simp [trapzC]
  | cons a l ih =>
    cases l with
    | nil => simp [trapzC]
    | cons b l =>
      rw [List.reverse_cons, List.reverse_cons, List.append_assoc, List.singleton_append, trapzC_concat, ← List.reverse_cons, ih]
      rw [trapzC]
      push_cast
      ring

theorem trapzC_conj (l : List (ℝ × ℂ)) :
    trapzC (l.map fun q => (-q.1, (starRingEnd ℂ) q.2)) = -(starRingEnd ℂ) (trapzC l) := by
  induction l with
  | nil => simp [trapzC]
  | cons a l ih =>
    cases l with
    | nil => simp [trapzC]
    | cons b l =>
      simp only [List.map_cons, trapzC] at ih ⊢
      rw [ih]
      simp only [map_add, map_div₀, map_mul, Complex.conj_ofReal, map_ofNat]
      push_cast
      ring

/-- the trapezoidal rule over real values. -/
noncomputable def trapzR : List (ℝ × ℝ) → ℝ
  | (x₀, y₀) :: (x₁, y₁) :: l => (x₁ - x₀) * (y₀ + y₁) / 2 + trapzR ((x₁, y₁) :: l)
  | _ => 0

theorem norm_trapzC_le (l : List (ℝ × ℂ)) (hs : l.Pairwise fun p q => p.1 ≤ q.1) :
    ‖trapzC l‖ ≤ trapzR (l.map fun q => (q.1, ‖q.2‖)) := by
  induction l with
  | nil => simp [trapzC, trapzR]
  | cons a l ih =>
    cases l with
    | nil => simp [trapzC, trapzR]
    | cons b l =>
      rw [List.pairwise_cons] at hs
      have h1 := hs.1 b (by simp)
      have h2 := ih hs.2
      simp only [List.map_cons, trapzC, trapzR] at h2 ⊢
      refine (norm_add_le _ _).trans (add_le_add ?_ h2)
      rw [norm_div, norm_mul, Complex.norm_real, Real.norm_of_nonneg (by linarith), Complex.norm_ofNat]
      have := norm_add_le a.2 b.2
      gcongr

/-- **C88.** `characteristic_from_pdf` for sorted abscissae and non-negative density values: its value at zero is the
trapezoidal mass of the density, its modulus never exceeds that mass, and it is conjugated when its argument changes sign. -/
theorem C88_characteristic_from_pdf (pts : List (ℝ × ℝ)) (hs : pts.Pairwise fun p q => p.1 ≤ q.1) (hp : ∀ q ∈ pts, 0 ≤ q.2) :
    characteristicFromPdf 0 pts = (trapzR pts : ℂ) ∧
    (∀ z, ‖characteristicFromPdf z pts‖ ≤ trapzR pts) ∧
    (∀ z, characteristicFromPdf (-z) pts = (starRingEnd ℂ) (characteristicFromPdf z pts)) := by
  refine ⟨?_, fun z => ?_, fun z => ?_⟩
  · rw [characteristicFromPdf]
    have : ∀ l : List (ℝ × ℝ), trapzC (l.map fun q => (q.1, Complex.exp (Complex.I * (0 : ℝ) * q.1) * q.2)) = (trapzR l : ℂ) := by
      intro l
      induction l with
      | nil => simp [trapzC, trapzR]
      | cons a l ih =>
        cases l with
        | nil => simp [trapzC, trapzR]
        | cons b l =>
          simp only [List.map_cons, trapzC, trapzR] at ih ⊢
          rw [ih]
          push_cast
          simp
    exact this pts
  · rw [characteristicFromPdf]
    refine (norm_trapzC_le _ ?_).trans (le_of_eq ?_)
    · rw [List.pairwise_map]
      exact hs
    · rw [List.map_map]
      congr 1
      conv_rhs => rw [← List.map_id pts]
      apply List.map_congr_left
      intro q hq
      simp only [Function.comp, id, norm_mul, norm_exp_I_mul, one_mul, Complex.norm_real, Real.norm_of_nonneg (hp q hq)]
  · have : ∀ l : List (ℝ × ℝ), characteristicFromPdf (-z) l = (starRingEnd ℂ) (characteristicFromPdf z l) := by
      intro l
      induction l with
      | nil => simp [characteristicFromPdf, trapzC]
      | cons a l ih =>
        cases l with
        | nil => simp [characteristicFromPdf, trapzC]
        | cons b l =>
          simp only [characteristicFromPdf, List.map_cons, trapzC] at ih ⊢
          rw [ih]
          simp only [map_add, map_div₀, map_mul, Complex.conj_ofReal, map_ofNat, ← Complex.exp_conj, Complex.conj_I,
            Complex.ofReal_neg, mul_neg, neg_mul]
    exact this pts

example : ([(0, 1), (1, 1)] : List (ℝ × ℝ)).Pairwise (fun p q => p.1 ≤ q.1) ∧
    ∀ q ∈ ([(0, 1), (1, 1)] : List (ℝ × ℝ)), 0 ≤ q.2 := by
  simp

/-- **C89.** On a grid symmetric about zero on which the characteristic function is conjugate-symmetric, the real part taken by
`inverse_fourier` discards nothing: the trapezoidal integral is real, and equals `2π` times the returned value. -/
theorem C89_inverse_fourier (x : ℝ) (pts : List (ℝ × ℂ)) (hsym : (pts.map fun q => (-q.1, (starRingEnd ℂ) q.2)).reverse = pts) :
    trapzC (pts.map fun q => (q.1, Complex.exp (-Complex.I * x * q.1) * q.2)) = (2 * Real.pi * inverseFourier x pts : ℝ) := by
  set g : ℝ × ℂ → ℝ × ℂ := fun q => (q.1, Complex.exp (-Complex.I * x * q.1) * q.2) with hg
  have hl : ((pts.map g).map fun q => (-q.1, (starRingEnd ℂ) q.2)).reverse = pts.map g := by
    conv_rhs => rw [← hsym]
    rw [List.map_map, List.map_reverse, List.map_map]
    congr 2
    ext q
    · rfl
    · simp [hg, ← Complex.exp_conj]
  have hreal : (starRingEnd ℂ) (trapzC (pts.map g)) = trapzC (pts.map g) := by
    conv_rhs => rw [← hl]
    rw [trapzC_reverse, trapzC_conj, neg_neg]
  rw [inverseFourier, mul_div_cancel₀ _ (by positivity)]
  exact (Complex.conj_eq_iff_re.1 hreal).symm

example : ((([(-1, 1 - Complex.I), (0, 1), (1, 1 + Complex.I)] : List (ℝ × ℂ)).map
    fun q => (-q.1, (starRingEnd ℂ) q.2)).reverse = [(-1, 1 - Complex.I), (0, 1), (1, 1 + Complex.I)]) := by
  simp [sub_eq_add_neg]

end Mfs.Props

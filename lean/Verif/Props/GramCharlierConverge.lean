import Verif.Props.GramCharlier
import Verif.Lemmas.PolyDense

/-!
# Property C186: the Gram–Charlier approximation is the best polynomial correction of the normal density, and converges
-/

namespace Mfs.Props

open Mfs.Utils Mfs.Moments1 Mfs.Pdf MeasureTheory ProbabilityTheory Filter Topology Mfs.Lemmas Mfs.Quad1
open scoped Nat NNReal

theorem exp_integrable_gaussian (m : ℝ) (v : ℝ≥0) (c : ℝ) : Integrable (fun x => Real.exp (c * |x|)) (gaussianReal m v) := by
  refine ((integrable_exp_mul_gaussianReal c).add (integrable_exp_mul_gaussianReal (-c))).mono' (by fun_prop) (Eventually.of_forall fun x => ?_)
  rw [Real.norm_eq_abs, abs_of_pos (Real.exp_pos _)]
  simp only [Pi.add_apply]
  rcases abs_cases x with ⟨h, _⟩ | ⟨h, _⟩
  · rw [h]; linarith [Real.exp_pos (-c * x)]
  · rw [h, mul_neg, ← neg_mul]; linarith [Real.exp_pos (c * x)]

/-- the two first entries of `sms_to_cumulants` are the mean and the variance. -/
theorem cumulants_first_two (L : Polynomial ℝ →ₗ[ℝ] ℝ) (hL : L 1 = 1) (scale : ℝ) (hs : scale ≠ 0) (s : ℕ) (h3 : 3 ≤ s) :
    (smsToCumulants ((List.range s).map fun n =>
        L ((Polynomial.C scale⁻¹ * (Polynomial.X - Polynomial.C (L Polynomial.X))) ^ n)) (L Polynomial.X) scale).getD 0 0 = L Polynomial.X ∧
    (smsToCumulants ((List.range s).map fun n =>
        L ((Polynomial.C scale⁻¹ * (Polynomial.X - Polynomial.C (L Polynomial.X))) ^ n)) (L Polynomial.X) scale).getD 1 0
      = L ((Polynomial.X - Polynomial.C (L Polynomial.X)) ^ 2) := by
  have hLm : L (Polynomial.X - Polynomial.C (L Polynomial.X)) = 0 := by
    have : Polynomial.C (L Polynomial.X) = (L Polynomial.X) • (1 : Polynomial ℝ) := by rw [Polynomial.smul_eq_C_mul, mul_one]
    rw [map_sub, this, map_smul, hL]; simp
  have hs2 : (1 : ℕ) < s ∧ 2 < s := by omega
  constructor
  · rw [smsToCumulants, getD_map_range_real _ (by simp; omega), nthCumulant, if_pos rfl]
    split
    · rename_i h0
      rw [jget_map_range _ (by omega), pow_one, ← Polynomial.smul_eq_C_mul, map_smul, hLm, smul_zero, h0]
    · rfl
  · rw [smsToCumulants, getD_map_range_real _ (by simp; omega), nthCumulant, if_neg (by omega), scaledToCentral_law L _ hs]
    norm_num [partialBell, List.range_succ, Nat.choose]
    rw [List.getElem?_range hs2.1, List.getElem?_range hs2.2]
    simp only [Option.map_some, Option.getD_some, pow_one, hLm, mul_zero]
    ring

/-- the Gram–Charlier function is the normal density times a polynomial of degree at most the number of cumulants. -/
theorem gramCharlier_polynomial (κ : List ℝ) (h2 : 2 ≤ κ.length) (v : ℝ≥0) (hv : κ.getD 1 0 = v) (hv0 : v ≠ 0) :
    ∃ Q : Polynomial ℝ, Q.degree < (κ.length + 1 : ℕ) ∧ ∀ x, gramCharlier κ x = gaussianPDFReal (κ.getD 0 0) v x * Q.eval x := by
  set Y : Polynomial ℝ := Polynomial.C (√(v : ℝ))⁻¹ * Polynomial.X + Polynomial.C (-(√(v : ℝ))⁻¹ * κ.getD 0 0) with hY
  refine ⟨∑ j ∈ Finset.range (κ.length + 1), Polynomial.C (completeBell j ([0, 0] ++ κ.drop 2) / (j ! * √(v : ℝ) ^ j)) * (realHermite j).comp Y,
    ?_, fun x => ?_⟩
  · refine (Polynomial.degree_sum_le _ _).trans_lt ?_
    rw [Finset.sup_lt_iff (by exact WithBot.bot_lt_coe _)]
    intro k hk
    rw [Finset.mem_range] at hk
    refine (Polynomial.degree_le_natDegree).trans_lt ?_
    have hd : (realHermite k).natDegree ≤ k := by
      rw [realHermite]
      exact (Polynomial.natDegree_map_le).trans (Polynomial.natDegree_hermite).le
    have h1 : (Polynomial.C (completeBell k ([0, 0] ++ κ.drop 2) / (k ! * √(v : ℝ) ^ k)) * (realHermite k).comp Y).natDegree ≤ k := by
      refine (Polynomial.natDegree_C_mul_le _ _).trans ((Polynomial.natDegree_comp_le).trans ?_)
      have : Y.natDegree ≤ 1 := Polynomial.natDegree_linear_le
      calc (realHermite k).natDegree * Y.natDegree ≤ k * 1 := Nat.mul_le_mul hd this
        _ = k := mul_one k
    exact_mod_cast h1.trans_lt hk
  · rw [gramCharlier_eq κ h2 v hv hv0, Polynomial.eval_finsetSum, Polynomial.eval_finsetSum]
    congr 1
    refine Finset.sum_congr rfl fun k _ => ?_
    rw [Polynomial.eval_mul, Polynomial.eval_mul, Polynomial.eval_comp]
    have : Y.eval x = (x - κ.getD 0 0) / √(v : ℝ) := by
      simp only [hY, Polynomial.eval_add, Polynomial.eval_mul, Polynomial.eval_C, Polynomial.eval_X]
      rw [div_eq_inv_mul]
      ring
    rw [this, Polynomial.eval_C, Polynomial.eval_C]

/-- integrals against the normal law. -/
theorem integral_ratio {m : ℝ} {v : ℝ≥0} (hv : v ≠ 0) (f h : ℝ → ℝ) :
    ∫ x, h x * (f x / gaussianPDFReal m v x) ∂gaussianReal m v = ∫ x, h x * f x := by
  rw [integral_gaussianReal_eq_integral_smul hv]
  refine integral_congr_ae (Eventually.of_forall fun x => ?_)
  have := (gaussianPDFReal_pos m v x hv).ne'
  simp only [smul_eq_mul]
  field_simp

theorem integral_ratio_sq {m : ℝ} {v : ℝ≥0} (hv : v ≠ 0) (f : ℝ → ℝ) (p : ℝ → ℝ) :
    ∫ x, (f x / gaussianPDFReal m v x - p x) ^ 2 ∂gaussianReal m v = ∫ x, (f x - gaussianPDFReal m v x * p x) ^ 2 / gaussianPDFReal m v x := by
  rw [integral_gaussianReal_eq_integral_smul hv]
  refine integral_congr_ae (Eventually.of_forall fun x => ?_)
  have := (gaussianPDFReal_pos m v x hv).ne'
  simp only [smul_eq_mul]
  field_simp

/-- the Gram–Charlier function built from `s` scaled central moments of the function `f`. -/
noncomputable def gcOf (f : ℝ → ℝ) (m scale : ℝ) (s : ℕ) : ℝ → ℝ :=
  gramCharlier (smsToCumulants ((List.range s).map fun n => ∫ x, ((x - m) / scale) ^ n * f x) m scale)

theorem gc_match {f : ℝ → ℝ} {m : ℝ} {v : ℝ≥0} (hv : v ≠ 0) (hf : MemLp (fun x => f x / gaussianPDFReal m v x) 2 (gaussianReal m v))
    (h0 : ∫ x, f x = 1) (h1 : ∫ x, x * f x = m) (h2 : ∫ x, (x - m) ^ 2 * f x = v) {scale : ℝ} (hs : scale ≠ 0) {s : ℕ} (h3 : 3 ≤ s) :
    ∃ Q : Polynomial ℝ, Q.degree < s ∧ (∀ x, gcOf f m scale s x = gaussianPDFReal m v x * Q.eval x) ∧
      ∀ k < s, ∫ x, x ^ k * Q.eval x ∂gaussianReal m v = ∫ x, x ^ k * (f x / gaussianPDFReal m v x) ∂gaussianReal m v := by
  have hi : ∀ q : Polynomial ℝ, Integrable (fun x => q.eval x * (f x / gaussianPDFReal m v x)) (gaussianReal m v) := fun q =>
    (memLp_poly (exp_integrable_gaussian m v) q).integrable_mul hf
  let L : Polynomial ℝ →ₗ[ℝ] ℝ :=
    { toFun := fun q => ∫ x, q.eval x * (f x / gaussianPDFReal m v x) ∂gaussianReal m v
      map_add' := fun q r => by
        simp only [Polynomial.eval_add, add_mul]
        exact integral_add (hi q) (hi r)
      map_smul' := fun c q => by
        simp only [Polynomial.eval_smul, smul_eq_mul, mul_assoc, RingHom.id_apply]
        exact integral_const_mul _ _ }
  have hLd : ∀ q, L q = ∫ x, q.eval x * f x := fun q => integral_ratio hv f _
  have hL1 : L 1 = 1 := by rw [hLd]; simpa using h0
  have hLX : L Polynomial.X = m := by rw [hLd]; simpa using h1
  have hL2 : L ((Polynomial.X - Polynomial.C (L Polynomial.X)) ^ 2) = v := by rw [hLd, hLX]; simpa using h2
  have hsm : (List.range s).map (fun n => ∫ x, ((x - m) / scale) ^ n * f x)
      = (List.range s).map fun n => L ((Polynomial.C scale⁻¹ * (Polynomial.X - Polynomial.C (L Polynomial.X))) ^ n) := by
    refine List.map_congr_left fun n _ => ?_
    rw [hLd, hLX]
    refine integral_congr_ae (Eventually.of_forall fun x => ?_)
    simp only [Polynomial.eval_pow, Polynomial.eval_mul, Polynomial.eval_C, Polynomial.eval_sub, Polynomial.eval_X]
    rw [div_eq_inv_mul]
  have hvp : 0 < (v : ℝ) := by positivity
  have hmom := C49_from_scaled_moments L hL1 scale hs s h3 (by rw [hL2]; exact hvp)
  obtain ⟨k0, k1⟩ := cumulants_first_two L hL1 scale hs s h3
  have hlen : (smsToCumulants ((List.range s).map fun n =>
        L ((Polynomial.C scale⁻¹ * (Polynomial.X - Polynomial.C (L Polynomial.X))) ^ n)) (L Polynomial.X) scale).length = s - 1 := by
    simp [smsToCumulants]
  have hgc : gcOf f m scale s = gramCharlier (smsToCumulants ((List.range s).map fun n =>
        L ((Polynomial.C scale⁻¹ * (Polynomial.X - Polynomial.C (L Polynomial.X))) ^ n)) (L Polynomial.X) scale) := by
    rw [gcOf, hsm, hLX]
  rw [hL2] at k1
  obtain ⟨Q, hd, hQ⟩ := gramCharlier_polynomial _ (by rw [hlen]; omega) v k1 hv
  rw [hlen, Nat.sub_add_cancel (by omega)] at hd
  rw [k0, hLX] at hQ
  refine ⟨Q, hd, fun x => by rw [hgc, hLX, hQ], fun k hk => ?_⟩
  have := hmom k hk
  rw [hLX] at this
  simp only [hQ] at this
  rw [integral_gaussianReal_eq_integral_smul hv]
  have e : L (Polynomial.X ^ k) = ∫ x, x ^ k * (f x / gaussianPDFReal m v x) ∂gaussianReal m v := by
    change ∫ x, _ ∂_ = _
    simp
  rw [← e, ← this]
  refine integral_congr_ae (Eventually.of_forall fun x => ?_)
  simp only [smul_eq_mul]
  ring

/-- **C186 (a).** Among all functions `φ · p`, `φ` the normal density with the mean and variance of the law and `p` a polynomial of
degree below the number of scaled moments, the Gram–Charlier function is the closest to the density in the norm `∫ (·)² / φ`. -/
theorem C186_best {f : ℝ → ℝ} {m : ℝ} {v : ℝ≥0} (hv : v ≠ 0) (hf : MemLp (fun x => f x / gaussianPDFReal m v x) 2 (gaussianReal m v))
    (h0 : ∫ x, f x = 1) (h1 : ∫ x, x * f x = m) (h2 : ∫ x, (x - m) ^ 2 * f x = v) {scale : ℝ} (hs : scale ≠ 0) {s : ℕ} (h3 : 3 ≤ s)
    (p : Polynomial ℝ) (hp : p.degree < s) :
    ∫ x, (f x - gramCharlier (smsToCumulants ((List.range s).map fun n => ∫ y, ((y - m) / scale) ^ n * f y) m scale) x) ^ 2 / gaussianPDFReal m v x
      ≤ ∫ x, (f x - gaussianPDFReal m v x * p.eval x) ^ 2 / gaussianPDFReal m v x := by
  obtain ⟨Q, hd, hQ, hk⟩ := gc_match hv hf h0 h1 h2 hs h3
  change ∫ x, (f x - gcOf f m scale s x) ^ 2 / gaussianPDFReal m v x ≤ _
  simp only [hQ]
  rw [← integral_ratio_sq hv, ← integral_ratio_sq hv]
  refine best_of_orthogonal hf (memLp_poly (exp_integrable_gaussian m v) Q) (memLp_poly (exp_integrable_gaussian m v) p) ?_
  have := orth_of_moments (exp_integrable_gaussian m v) hf (memLp_poly (exp_integrable_gaussian m v) Q) s hk (Q - p)
    ((Polynomial.degree_sub_le _ _).trans_lt (max_lt hd hp))
  rw [← this]
  refine integral_congr_ae (Eventually.of_forall fun x => ?_)
  simp only [Polynomial.eval_sub]
  ring

/-- **C186 (b).** The Gram–Charlier functions converge to the density in this norm as the number of moments grows. -/
theorem C186_converge {f : ℝ → ℝ} {m : ℝ} {v : ℝ≥0} (hv : v ≠ 0) (hf : MemLp (fun x => f x / gaussianPDFReal m v x) 2 (gaussianReal m v))
    (h0 : ∫ x, f x = 1) (h1 : ∫ x, x * f x = m) (h2 : ∫ x, (x - m) ^ 2 * f x = v) {scale : ℝ} (hs : scale ≠ 0) :
    Tendsto (fun s : ℕ => ∫ x, (f x - gramCharlier (smsToCumulants ((List.range s).map fun n => ∫ y, ((y - m) / scale) ^ n * f y) m scale) x) ^ 2
      / gaussianPDFReal m v x) atTop (𝓝 0) := by
  rw [Metric.tendsto_atTop]
  intro ε hε
  obtain ⟨p, hp⟩ := poly_dense (exp_integrable_gaussian m v) hf hε
  refine ⟨p.natDegree + 3, fun s hs3 => ?_⟩
  rw [Real.dist_eq, sub_zero, abs_of_nonneg (integral_nonneg fun x => div_nonneg (sq_nonneg _) (gaussianPDFReal_nonneg m v x))]
  have hd : p.degree < s := (Polynomial.degree_le_natDegree).trans_lt (by exact_mod_cast (by omega : p.natDegree < s))
  refine (C186_best hv hf h0 h1 h2 hs (by omega) p hd).trans_lt ?_
  rw [← integral_ratio_sq hv]
  exact hp

/-- **C186 (c).** Hence they converge in mean: `∫ |f - gc|` tends to zero, so that the probabilities of all events converge
uniformly. -/
theorem C186_total_variation {f : ℝ → ℝ} {m : ℝ} {v : ℝ≥0} (hv : v ≠ 0)
    (hf : MemLp (fun x => f x / gaussianPDFReal m v x) 2 (gaussianReal m v))
    (h0 : ∫ x, f x = 1) (h1 : ∫ x, x * f x = m) (h2 : ∫ x, (x - m) ^ 2 * f x = v) {scale : ℝ} (hs : scale ≠ 0) :
    Tendsto (fun s : ℕ => ∫ x, |f x - gramCharlier (smsToCumulants ((List.range s).map fun n => ∫ y, ((y - m) / scale) ^ n * f y) m scale) x|)
      atTop (𝓝 0) := by
  have hc := (C186_converge hv hf h0 h1 h2 hs).sqrt
  rw [Real.sqrt_zero] at hc
  refine squeeze_zero' (Eventually.of_forall fun s => integral_nonneg fun x => abs_nonneg _) ?_ hc
  filter_upwards [eventually_ge_atTop 3] with s h3
  obtain ⟨Q, hd, hQ, hk⟩ := gc_match hv hf h0 h1 h2 hs h3
  change ∫ x, |f x - gcOf f m scale s x| ≤ √(∫ x, (f x - gcOf f m scale s x) ^ 2 / gaussianPDFReal m v x)
  simp only [hQ]
  rw [← integral_ratio_sq hv]
  have e : ∫ x, |f x - gaussianPDFReal m v x * Q.eval x| = ∫ x, |f x / gaussianPDFReal m v x - Q.eval x| * 1 ∂gaussianReal m v := by
    rw [integral_gaussianReal_eq_integral_smul hv]
    refine integral_congr_ae (Eventually.of_forall fun x => ?_)
    have hp := gaussianPDFReal_pos m v x hv
    simp only [smul_eq_mul, mul_one]
    rw [← abs_of_pos hp, ← abs_mul, abs_of_pos hp]
    congr 1
    field_simp
  rw [e]
  refine (le_abs_self _).trans (Real.abs_le_sqrt ?_)
  have hq := hf.sub (memLp_poly (exp_integrable_gaussian m v) Q)
  have := sq_integral_mul_le hq.abs (memLp_const (1 : ℝ))
  simpa using this

/-! ### Gaussian mixtures -/

theorem integrable_exp_quadratic {a : ℝ} (ha : 0 < a) (b c : ℝ) : Integrable fun x : ℝ => Real.exp (-a * x ^ 2 + b * x + c) := by
  have h := ((integrable_exp_neg_mul_sq ha).comp_sub_right (b / (2 * a))).const_mul (Real.exp (c + b ^ 2 / (4 * a)))
  refine h.congr (Eventually.of_forall fun x => ?_)
  simp only [← Real.exp_add]
  congr 1
  field_simp
  ring

/-- a normal density relative to another one of more than half its variance is square-integrable. -/
theorem memLp_ratio {m μ : ℝ} {v u : ℝ≥0} (hv : v ≠ 0) (hu : u ≠ 0) (huv : u < 2 * v) :
    MemLp (fun x => gaussianPDFReal μ u x / gaussianPDFReal m v x) 2 (gaussianReal m v) := by
  have hm : Measurable fun x => gaussianPDFReal μ u x / gaussianPDFReal m v x := (measurable_gaussianPDFReal _ _).div (measurable_gaussianPDFReal _ _)
  rw [memLp_two_iff_integrable_sq hm.aestronglyMeasurable, gaussianReal_of_var_ne_zero m hv,
    integrable_withDensity_iff_integrable_smul' (measurable_gaussianPDF m v) (by simp [gaussianPDF_lt_top])]
  have hup : 0 < (u : ℝ) := by positivity
  have hvp : 0 < (v : ℝ) := by positivity
  have hlt : (u : ℝ) < 2 * v := by exact_mod_cast huv
  have ha : 0 < 1 / (u : ℝ) - 1 / (2 * v) := sub_pos.2 (one_div_lt_one_div_of_lt hup hlt)
  refine ((integrable_exp_quadratic ha (2 * μ / u - m / v) (-μ ^ 2 / u + m ^ 2 / (2 * v))).const_mul
    ((√(2 * Real.pi * u))⁻¹ ^ 2 * √(2 * Real.pi * v))).congr (Eventually.of_forall fun x => ?_)
  simp only [toReal_gaussianPDF, smul_eq_mul, gaussianPDFReal]
  have h1 : √(2 * Real.pi * u) ≠ 0 := (Real.sqrt_pos.2 (by positivity)).ne'
  have h2 : √(2 * Real.pi * v) ≠ 0 := (Real.sqrt_pos.2 (by positivity)).ne'
  have e : Real.exp (-(1 / (u : ℝ) - 1 / (2 * v)) * x ^ 2 + (2 * μ / u - m / v) * x + (-μ ^ 2 / u + m ^ 2 / (2 * v))) * Real.exp (-(x - m) ^ 2 / (2 * v))
      = Real.exp (-(x - μ) ^ 2 / (2 * u)) ^ 2 := by
    rw [← Real.exp_add, ← Real.exp_nat_mul]
    congr 1
    push_cast
    field_simp
    ring
  have hE := (Real.exp_pos (-(x - m) ^ 2 / (2 * v))).ne'
  rw [div_pow, mul_pow, ← e]
  field_simp

theorem gaussian_moments (μ m : ℝ) {u : ℝ≥0} (hu : u ≠ 0) : (∫ x, gaussianPDFReal μ u x = 1) ∧ (∫ x, x * gaussianPDFReal μ u x = μ) ∧
    (∫ x, (x - m) ^ 2 * gaussianPDFReal μ u x = u + (μ - m) ^ 2) ∧ Integrable (gaussianPDFReal μ u) ∧
    Integrable (fun x => x * gaussianPDFReal μ u x) ∧ Integrable (fun x => (x - m) ^ 2 * gaussianPDFReal μ u x) := by
  have key : ∀ p : Polynomial ℝ, ∫ x, p.eval x * gaussianPDFReal μ u x = ∫ x, p.eval x ∂gaussianReal μ u := fun p => by
    rw [integral_gaussianReal_eq_integral_smul hu]
    refine integral_congr_ae (Eventually.of_forall fun x => ?_)
    simp only [smul_eq_mul]
    ring
  have keyI : ∀ p : Polynomial ℝ, Integrable fun x => p.eval x * gaussianPDFReal μ u x := fun p => by
    have h := integrable_poly_gaussianReal μ u p
    rw [gaussianReal_of_var_ne_zero μ hu,
      integrable_withDensity_iff_integrable_smul' (measurable_gaussianPDF μ u) (by simp [gaussianPDF_lt_top])] at h
    refine h.congr (Eventually.of_forall fun x => ?_)
    simp only [toReal_gaussianPDF, smul_eq_mul]
    ring
  refine ⟨integral_gaussianPDFReal_eq_one μ hu, ?_, ?_, integrable_gaussianPDFReal μ u, by simpa using keyI Polynomial.X,
    (keyI ((Polynomial.X - Polynomial.C m) ^ 2)).congr (Eventually.of_forall fun x => ?_)⟩
  rotate_left 2
  · simp only [Polynomial.eval_pow, Polynomial.eval_sub, Polynomial.eval_X, Polynomial.eval_C]
  · have := key Polynomial.X
    simp only [Polynomial.eval_X] at this
    rw [this, integral_id_gaussianReal]
  · have := key ((Polynomial.X - Polynomial.C m) ^ 2)
    simp only [Polynomial.eval_pow, Polynomial.eval_sub, Polynomial.eval_X, Polynomial.eval_C] at this
    rw [this]
    have hvar : ∫ x, (x - μ) ^ 2 ∂gaussianReal μ u = u := by
      have := variance_fun_id_gaussianReal (μ := μ) (v := u)
      rw [variance_eq_integral (by fun_prop), integral_id_gaussianReal] at this
      exact this
    have e : ∀ x : ℝ, (x - m) ^ 2 = (x - μ) ^ 2 + (2 * (μ - m) * x + ((μ - m) ^ 2 - 2 * (μ - m) * μ)) := fun x => by ring
    have i1 : Integrable (fun x => (x - μ) ^ 2) (gaussianReal μ u) := by
      have := integrable_poly_gaussianReal μ u ((Polynomial.X - Polynomial.C μ) ^ 2)
      simp only [Polynomial.eval_pow, Polynomial.eval_sub, Polynomial.eval_X, Polynomial.eval_C] at this
      exact this
    have i2 : Integrable (fun x : ℝ => 2 * (μ - m) * x) (gaussianReal μ u) := by
      have := (integrable_poly_gaussianReal μ u Polynomial.X).const_mul (2 * (μ - m))
      simp only [Polynomial.eval_X] at this
      exact this
    have i3 : Integrable (fun x : ℝ => 2 * (μ - m) * x + ((μ - m) ^ 2 - 2 * (μ - m) * μ)) (gaussianReal μ u) := i2.add (integrable_const _)
    rw [integral_congr_ae (Eventually.of_forall e), integral_add i1 i3, integral_add i2 (integrable_const _), hvar, integral_const_mul, integral_id_gaussianReal]
    simp

/-- **C186 (d).** For a Gaussian mixture whose component variances are below twice the variance of the mixture – in particular
for every mixture of normals of one common variance – the Gram–Charlier approximations converge to the density in mean. -/
theorem C186_mixture {ι : Type} [Fintype ι] (w μ : ι → ℝ) (u : ι → ℝ≥0) (m : ℝ) (v : ℝ≥0) (hu : ∀ i, u i ≠ 0) (hw : ∑ i, w i = 1)
    (hm : m = ∑ i, w i * μ i) (hv : (v : ℝ) = ∑ i, w i * (u i + (μ i - m) ^ 2)) (hv0 : v ≠ 0) (huv : ∀ i, u i < 2 * v) {scale : ℝ} (hs : scale ≠ 0) :
    Tendsto (fun s : ℕ => ∫ x, |∑ i, w i * gaussianPDFReal (μ i) (u i) x - gramCharlier (smsToCumulants ((List.range s).map fun n =>
      ∫ y, ((y - m) / scale) ^ n * ∑ i, w i * gaussianPDFReal (μ i) (u i) y) m scale) x|) atTop (𝓝 0) := by
  refine C186_total_variation hv0 ?_ ?_ ?_ ?_ hs
  · have : (fun x => (∑ i, w i * gaussianPDFReal (μ i) (u i) x) / gaussianPDFReal m v x)
        = fun x => ∑ i, w i * (gaussianPDFReal (μ i) (u i) x / gaussianPDFReal m v x) := by
      funext x
      rw [Finset.sum_div]
      exact Finset.sum_congr rfl fun i _ => by ring
    rw [this]
    exact memLp_finsetSum _ fun i _ => (memLp_ratio hv0 (hu i) (huv i)).const_mul _
  · rw [integral_finsetSum _ fun i _ => (gaussian_moments (μ i) m (hu i)).2.2.2.1.const_mul _]
    simp only [integral_const_mul, (gaussian_moments _ m (hu _)).1, mul_one, hw]
  · have e : ∀ x : ℝ, x * ∑ i, w i * gaussianPDFReal (μ i) (u i) x = ∑ i, w i * (x * gaussianPDFReal (μ i) (u i) x) := fun x => by
      rw [Finset.mul_sum]
      exact Finset.sum_congr rfl fun i _ => by ring
    simp only [e]
    rw [integral_finsetSum _ fun i _ => (gaussian_moments (μ i) m (hu i)).2.2.2.2.1.const_mul _]
    simp only [integral_const_mul, (gaussian_moments _ m (hu _)).2.1, hm]
  · have e : ∀ x : ℝ, (x - m) ^ 2 * ∑ i, w i * gaussianPDFReal (μ i) (u i) x = ∑ i, w i * ((x - m) ^ 2 * gaussianPDFReal (μ i) (u i) x) := fun x => by
      rw [Finset.mul_sum]
      exact Finset.sum_congr rfl fun i _ => by ring
    simp only [e]
    rw [integral_finsetSum _ fun i _ => (gaussian_moments (μ i) m (hu i)).2.2.2.2.2.const_mul _]
    simp only [integral_const_mul, (gaussian_moments _ m (hu _)).2.2.1, hv]

/-- a mixture meeting the hypotheses: `½ N(-1, 1) + ½ N(1, 1)`, of variance `2`. -/
example : (∑ i : Fin 2, (fun _ => (1 / 2 : ℝ)) i = 1) ∧ (0 : ℝ) = ∑ i : Fin 2, (1 / 2 : ℝ) * ![-1, 1] i ∧
    ((2 : ℝ≥0) : ℝ) = ∑ i : Fin 2, (1 / 2 : ℝ) * (((1 : ℝ≥0) : ℝ) + (![-1, 1] i - 0) ^ 2) ∧ (1 : ℝ≥0) < 2 * 2 := by
  refine ⟨by norm_num, by norm_num [Fin.sum_univ_two], by norm_num [Fin.sum_univ_two], by norm_num⟩

/-! ### Negative values -/

/-- **C186 (e).** With three cumulants, the third not zero, the Gram–Charlier function takes negative values: it is not a
density. -/
theorem C186_negative (m v c : ℝ) (hv : 0 < v) (hc : c ≠ 0) : ∃ x, gramCharlier [m, v, c] x < 0 := by
  have hs : 0 < √v := Real.sqrt_pos.2 hv
  have key : ∀ h : ℝ, gramCharlier [m, v, c] (m + √v * h)
      = 1 / √(2 * Real.pi * v) * Real.exp (-(m + √v * h - m) ^ 2 / 2 / v) * (1 + c / (6 * v ^ ((3 : ℝ) / 2)) * (h ^ 3 - 3 * h)) := by
    intro h
    have e : √v * h / √v = h := by field_simp
    norm_num [gramCharlier, jget, List.range_succ, completeBell, hermiteProbabilist, Nat.choose, Nat.factorial, e, partialBell]
    left
    left
    ring
  set q := c / (6 * v ^ ((3 : ℝ) / 2)) with hq
  have hq0 : q ≠ 0 := div_ne_zero hc (by positivity)
  have hpos : ∀ h, 0 < 1 / √(2 * Real.pi * v) * Real.exp (-(m + √v * h - m) ^ 2 / 2 / v) := fun h => by positivity
  have hfin : ∃ h : ℝ, 1 + q * (h ^ 3 - 3 * h) < 0 := by
    have ht : 0 < 2 + 1 / |q| := by positivity
    have hcube : 1 / |q| < (2 + 1 / |q|) ^ 3 - 3 * (2 + 1 / |q|) := by
      have : 0 < 1 / |q| := by positivity
      nlinarith [sq_nonneg (1 / |q|)]
    have hmul : 1 < |q| * ((2 + 1 / |q|) ^ 3 - 3 * (2 + 1 / |q|)) := by
      have := mul_lt_mul_of_pos_left hcube (abs_pos.2 hq0)
      rwa [mul_one_div_cancel (abs_pos.2 hq0).ne'] at this
    rcases abs_cases q with ⟨h1, _⟩ | ⟨h1, _⟩
    · refine ⟨-(2 + 1 / |q|), ?_⟩
      rw [← h1] at hmul ⊢
      rw [abs_abs] at hmul ⊢
      nlinarith
    · refine ⟨2 + 1 / |q|, ?_⟩
      have : q = -|q| := by rw [h1]; ring
      have e2 : q * ((2 + 1 / |q|) ^ 3 - 3 * (2 + 1 / |q|)) = -(|q| * ((2 + 1 / |q|) ^ 3 - 3 * (2 + 1 / |q|))) := by
        conv_lhs => rw [this]
        rw [abs_neg, abs_abs]
        ring
      rw [e2]
      linarith
  obtain ⟨h, hh⟩ := hfin
  refine ⟨m + √v * h, ?_⟩
  rw [key]
  exact mul_neg_of_pos_of_neg (hpos h) hh

end Mfs.Props

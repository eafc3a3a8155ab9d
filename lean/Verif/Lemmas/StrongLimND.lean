import Verif.Lemmas.StrongConvND

/-!
# Limits of the vectors of the multidimensional rule
-/

namespace Mfs.StrongND

open MeasureTheory Filter Topology Matrix Mfs.Converge Mfs.Spec Mfs.Lemmas

variable {d : ℕ} {μ : Measure (Fin d → ℝ)}

/-- the data of the rules of all orders for one law. -/
structure VecSeq (μ : Measure (Fin d → ℝ)) (L : MvPolynomial (Fin d) ℝ →ₗ[ℝ] ℝ) (z : ℕ → ℕ)
    (K U : ∀ N, Fin d → Matrix (Fin (z N)) (Fin (z N)) ℝ) (lam : ∀ N, Fin d → Fin (z N) → ℝ)
    (vec : ∀ N, MvPolynomial (Fin d) ℝ →ₗ[ℝ] (Fin (z N) → ℝ)) : Prop where
  expo : SomeExpMomentND μ
  eigh : ∀ N, 2 ≤ N → ∀ j, IsEigh (K N j) (U N j) (lam N j)
  pv : ∀ N, 2 ≤ N → PolyVec N L (K N) (vec N)
  law : ∀ p, L p = ∫ x, MvPolynomial.eval x p ∂μ

variable {L : MvPolynomial (Fin d) ℝ →ₗ[ℝ] ℝ} {z : ℕ → ℕ} {K U : ∀ N, Fin d → Matrix (Fin (z N)) (Fin (z N)) ℝ}
  {lam : ∀ N, Fin d → Fin (z N) → ℝ} {vec : ∀ N, MvPolynomial (Fin d) ℝ →ₗ[ℝ] (Fin (z N) → ℝ)}

theorem VecSeq.dot (S : VecSeq μ L z K U lam vec) (p q : MvPolynomial (Fin d) ℝ) :
    ∀ᶠ N in atTop, vec N p ⬝ᵥ vec N q = ∫ x, MvPolynomial.eval x p * MvPolynomial.eval x q ∂μ := by
  filter_upwards [eventually_ge_atTop (max 2 (max p.totalDegree q.totalDegree + 1))] with N hN
  rw [(S.pv N (by omega)).dot p q (by omega) (by omega), S.law]
  simp

theorem eval_aeval_coord (p : Polynomial ℝ) (j : Fin d) (x : Fin d → ℝ) :
    MvPolynomial.eval x (Polynomial.aeval (MvPolynomial.X j) p) = p.eval (x j) := by
  rw [Polynomial.aeval_eq_sum_range, map_sum, Polynomial.eval_eq_sum_range]
  simp

/-- normalised case. -/
theorem VecSeq.spec_one (S : VecSeq μ L z K U lam vec) (q : MvPolynomial (Fin d) ℝ) (hq : ∫ x, MvPolynomial.eval x q ^ 2 ∂μ = 1) (j : Fin d)
    {f : ℝ → ℝ} (hf : Continuous f) (hg : PolyGrowth f) :
    Tendsto (fun N => vec N q ⬝ᵥ (funMat (U N j) (lam N j) f *ᵥ vec N q)) atTop (𝓝 (∫ x, f (x j) * MvPolynomial.eval x q ^ 2 ∂μ)) := by
  set n0 := q.totalDegree + 2 with hn0
  rw [← tendsto_add_atTop_iff_nat n0]
  set ν : ℕ → Measure ℝ := fun n => ruleMeas (fun i => ((U (n + n0) j)ᵀ *ᵥ vec (n + n0) q) i ^ 2, lam (n + n0) j) with hν
  have hval : ∀ n (g : ℝ → ℝ), ∫ t, g t ∂ν n = vec (n + n0) q ⬝ᵥ (funMat (U (n + n0) j) (lam (n + n0) j) g *ᵥ vec (n + n0) q) := fun n g => by
    rw [hν, dot_funMat, integral_ruleMeas_nonneg fun i => sq_nonneg _]
  have hone : ∀ n, vec (n + n0) q ⬝ᵥ vec (n + n0) q = 1 := fun n => by
    rw [(S.pv (n + n0) (by omega)).dot q q (by omega) (by omega), S.law, ← hq]
    simp [sq]
  have hprob : ∀ n, IsProbabilityMeasure (ν n) := fun n => by
    refine isProb_ruleMeas (fun i => sq_nonneg _) ?_
    have h1 := dot_funMat (U := U (n + n0) j) (lam := lam (n + n0) j) (fun _ => 1) (vec (n + n0) q)
    have h2 : funMat (U (n + n0) j) (lam (n + n0) j) (fun _ => (1 : ℝ)) = 1 := by
      rw [funMat, Matrix.diagonal_one, Matrix.mul_one, (S.eigh _ (by omega) j).orth]
    rw [h2, Matrix.one_mulVec, hone] at h1
    simpa using h1.symm
  have hfin := finite_sqLaw S.expo q j
  have hprob' : IsProbabilityMeasure (sqLaw μ q j) := by
    have h1 := integral_sqLaw (μ := μ) q j (f := fun _ => 1) continuous_const
    simp only [one_mul, hq] at h1
    constructor
    rw [integral_const, smul_eq_mul, mul_one, Measure.real] at h1
    rw [← ENNReal.ofReal_toReal (measure_ne_top (sqLaw μ q j) Set.univ), h1, ENNReal.ofReal_one]
  have key := tendsto_integral_of_someMoments (ν := ν) (μ := sqLaw μ q j) (fun n k => integrable_ruleMeas _ _) (some_sqLaw S.expo q j)
    (fun k => by
      refine tendsto_const_nhds.congr' ?_
      filter_upwards [eventually_ge_atTop k] with n hn
      rw [hval, integral_sqLaw q j (by fun_prop)]
      have h1 : funMat (U (n + n0) j) (lam (n + n0) j) (fun t => t ^ k) = K (n + n0) j ^ k := by
        rw [(S.eigh _ (by omega) j).pow, funMat]
      rw [h1, (S.pv _ (by omega)).pow j k q (by omega), (S.pv _ (by omega)).dot _ _ (by omega)
        (by have := totalDegree_X_pow_mul j k q; omega), S.law]
      refine integral_congr_ae (.of_forall fun x => ?_)
      simp only [map_mul, map_pow, MvPolynomial.eval_X]
      ring) hf hg
  rw [integral_sqLaw q j hf] at key
  exact key.congr fun n => hval n f

/-- **the spectral measures converge.** -/
theorem VecSeq.spec (S : VecSeq μ L z K U lam vec) (q : MvPolynomial (Fin d) ℝ) (j : Fin d) {f : ℝ → ℝ} (hf : Continuous f)
    (hg : PolyGrowth f) :
    Tendsto (fun N => vec N q ⬝ᵥ (funMat (U N j) (lam N j) f *ᵥ vec N q)) atTop (𝓝 (∫ x, f (x j) * MvPolynomial.eval x q ^ 2 ∂μ)) := by
  set s := ∫ x, MvPolynomial.eval x q ^ 2 ∂μ with hs
  have hs0 : 0 ≤ s := integral_nonneg fun x => sq_nonneg (MvPolynomial.eval x q)
  have hi : Integrable (fun x => MvPolynomial.eval x q ^ 2) μ := (SubExp.poly q).sq.integrable S.expo ((MvPolynomial.continuous_eval q).pow 2)
  rcases hs0.eq_or_lt with h0 | h0
  · have hae := (integral_eq_zero_iff_of_nonneg (fun x => sq_nonneg (MvPolynomial.eval x q)) hi).1 h0.symm
    have e : ∫ x, f (x j) * MvPolynomial.eval x q ^ 2 ∂μ = 0 := by
      rw [integral_eq_zero_of_ae]
      filter_upwards [hae] with x hx
      simp only [Pi.zero_apply] at hx ⊢
      rw [hx, mul_zero]
    rw [e]
    refine tendsto_const_nhds.congr' ?_
    filter_upwards [S.dot q q] with N hN
    have h1 : vec N q ⬝ᵥ vec N q = 0 := by
      rw [hN, h0, hs]
      exact integral_congr_ae (.of_forall fun x => by simp only [sq])
    rw [dotProduct_self_eq_zero.1 h1, zero_dotProduct]
  · set c := (√s)⁻¹ with hc
    have hc2 : c ^ 2 * s = 1 := by
      rw [hc, inv_pow, Real.sq_sqrt hs0, inv_mul_cancel₀ h0.ne']
    have h1 : ∫ x, MvPolynomial.eval x (c • q) ^ 2 ∂μ = 1 := by
      simp only [MvPolynomial.smul_eval, mul_pow]
      rw [integral_const_mul, ← hs, hc2]
    have h2 := (S.spec_one (c • q) h1 j hf hg).const_mul s
    have e : s * ∫ x, f (x j) * MvPolynomial.eval x (c • q) ^ 2 ∂μ = ∫ x, f (x j) * MvPolynomial.eval x q ^ 2 ∂μ := by
      rw [← integral_const_mul]
      refine integral_congr_ae (.of_forall fun x => ?_)
      simp only [MvPolynomial.smul_eval]
      linear_combination (f (x j) * MvPolynomial.eval x q ^ 2) * hc2
    rw [e] at h2
    refine h2.congr fun N => ?_
    rw [map_smul, Matrix.mulVec_smul, smul_dotProduct, dotProduct_smul, smul_eq_mul, smul_eq_mul]
    linear_combination (vec N q ⬝ᵥ (funMat (U N j) (lam N j) f *ᵥ vec N q)) * hc2

/-! ### vectors that converge to a function -/

/-- the square of the Euclidean norm. -/
def nsq {n : ℕ} (v : Fin n → ℝ) : ℝ := v ⬝ᵥ v

theorem nsq_nonneg {n : ℕ} (v : Fin n → ℝ) : 0 ≤ nsq v := by
  rw [nsq, dotProduct]
  exact Finset.sum_nonneg fun i _ => mul_self_nonneg (v i)

theorem nsq_add_le {n : ℕ} (v w : Fin n → ℝ) : nsq (v + w) ≤ 2 * nsq v + 2 * nsq w := by
  have h := nsq_nonneg (v - w)
  simp only [nsq, add_dotProduct, dotProduct_add, sub_dotProduct, dotProduct_sub] at h ⊢
  rw [dotProduct_comm w v] at h ⊢
  linarith

theorem dot_le_nsq {n : ℕ} (v w : Fin n → ℝ) : (v ⬝ᵥ w) ^ 2 ≤ nsq v * nsq w := by
  simp only [nsq, dotProduct]
  simpa [sq] using Finset.sum_mul_sq_le_sq_mul_sq Finset.univ v w

/-- vectors `v N` that are approximated by polynomials which approximate `g` in the mean square. -/
structure Approx (μ : Measure (Fin d → ℝ)) (vec : ∀ N, MvPolynomial (Fin d) ℝ →ₗ[ℝ] (Fin (z N) → ℝ)) (v : ∀ N, Fin (z N) → ℝ)
    (g : (Fin d → ℝ) → ℝ) : Prop where
  lp : MemLp g 2 μ
  approx : ∀ ε : ℝ, 0 < ε → ∃ q : MvPolynomial (Fin d) ℝ, ∫ x, (g x - MvPolynomial.eval x q) ^ 2 ∂μ < ε ∧
    ∀ᶠ N in atTop, nsq (v N - vec N q) < ε

theorem memLp_poly_nd (hμ : SomeExpMomentND μ) (q : MvPolynomial (Fin d) ℝ) : MemLp (fun x => MvPolynomial.eval x q) 2 μ :=
  (SubExp.poly q).memLp hμ (MvPolynomial.continuous_eval q)

theorem Approx.poly (hμ : SomeExpMomentND μ) {v : ∀ N, Fin (z N) → ℝ} (q : MvPolynomial (Fin d) ℝ) (hv : ∀ᶠ N in atTop, v N = vec N q) :
    Approx μ vec v fun x => MvPolynomial.eval x q := by
  refine ⟨memLp_poly_nd hμ q, fun ε hε => ⟨q, by simpa using hε, ?_⟩⟩
  filter_upwards [hv] with N hN
  simpa [hN, nsq] using hε

/-- functions of polynomial growth of one coordinate on polynomials. -/
theorem Approx.growth (S : VecSeq μ L z K U lam vec) {v : ∀ N, Fin (z N) → ℝ} (q : MvPolynomial (Fin d) ℝ)
    (hv : ∀ᶠ N in atTop, v N = vec N q) (j : Fin d) {h : ℝ → ℝ} (hc : Continuous h) (hg : PolyGrowth h) :
    Approx μ vec (fun N => funMat (U N j) (lam N j) h *ᵥ v N) fun x => h (x j) * MvPolynomial.eval x q := by
  have hlp : MemLp (fun x => h (x j) * MvPolynomial.eval x q) 2 μ :=
    ((SubExp.growth hg j).mul (SubExp.poly q)).memLp S.expo ((hc.comp (continuous_apply j)).mul (MvPolynomial.continuous_eval q))
  refine ⟨hlp, fun ε hε => ?_⟩
  have hfin := finite_sqLaw S.expo q j
  have hL2 : MemLp h 2 (sqLaw μ q j) := by
    rw [memLp_two_iff_integrable_sq hc.aestronglyMeasurable]
    refine integrable_sqLaw q j (hc.pow 2) ?_
    exact ((SubExp.growth hg j).sq.mul (SubExp.poly q).sq).integrable S.expo
      (((hc.comp (continuous_apply j)).pow 2).mul ((MvPolynomial.continuous_eval q).pow 2))
  obtain ⟨r, hr⟩ := poly_dense_some (some_sqLaw S.expo q j) hL2 hε
  have hrc : Continuous fun t => (h t - r.eval t) ^ 2 := (hc.sub r.continuous).pow 2
  have hrg : PolyGrowth fun t => (h t - r.eval t) ^ 2 := by
    have h1 : PolyGrowth fun t => r.eval t := by
      have e : (fun t : ℝ => r.eval t) = fun t => ∑ k ∈ Finset.range (r.natDegree + 1), r.coeff k * t ^ k := by
        funext t; rw [Polynomial.eval_eq_sum_range]
      rw [e]
      exact PolyGrowth.sum fun k _ => (PolyGrowth.const _).mul (PolyGrowth.pow k)
    have h2 : PolyGrowth fun t => h t + (-1) * r.eval t := hg.add ((PolyGrowth.const (-1)).mul h1)
    obtain ⟨C, k, h3⟩ := h2.npow 2
    refine ⟨C, k, fun t => ?_⟩
    refine (le_of_eq ?_).trans (h3 t)
    simp only
    congr 2
    ring
  rw [integral_sqLaw q j hrc] at hr
  refine ⟨Polynomial.aeval (MvPolynomial.X j) r * q, ?_, ?_⟩
  · refine lt_of_eq_of_lt (integral_congr_ae (.of_forall fun x => ?_)) hr
    simp only [map_mul, eval_aeval_coord]
    ring
  · filter_upwards [(S.spec q j hrc hrg).eventually (gt_mem_nhds hr), hv, eventually_ge_atTop (max 2 (q.totalDegree + r.natDegree + 1))]
      with N hN hvN hlarge
    have hE := S.eigh N (by omega) j
    have e : funMat (U N j) (lam N j) h *ᵥ v N - vec N (Polynomial.aeval (MvPolynomial.X j) r * q)
        = funMat (U N j) (lam N j) (fun t => h t - r.eval t) *ᵥ vec N q := by
      rw [hvN, ← (S.pv N (by omega)).poly j r q (by omega), ← hE.funMat_poly, ← Matrix.sub_mulVec, funMat_sub]
    rw [nsq, e, normSq_funMat hE]
    exact hN

/-- bounded functions of one coordinate. -/
theorem Approx.bdd (S : VecSeq μ L z K U lam vec) {v : ∀ N, Fin (z N) → ℝ} {g : (Fin d → ℝ) → ℝ} (hv : Approx μ vec v g) (j : Fin d)
    {h : ℝ → ℝ} (hc : Continuous h) {C : ℝ} (hC : ∀ t, |h t| ≤ C) :
    Approx μ vec (fun N => funMat (U N j) (lam N j) h *ᵥ v N) fun x => h (x j) * g x := by
  have hC0 : 0 ≤ C := (abs_nonneg _).trans (hC 0)
  have hm : AEStronglyMeasurable (fun x : Fin d → ℝ => h (x j)) μ := (hc.comp (continuous_apply j)).aestronglyMeasurable
  have hmul : ∀ {g : (Fin d → ℝ) → ℝ}, MemLp g 2 μ → MemLp (fun x => h (x j) * g x) 2 μ := fun {g} hg =>
    (hg.const_mul C).mono (hm.mul hg.aestronglyMeasurable) (.of_forall fun x => by
      rw [norm_mul, norm_mul, Real.norm_eq_abs C, abs_of_nonneg hC0]
      exact mul_le_mul_of_nonneg_right (hC _) (norm_nonneg _))
  refine ⟨hmul hv.lp, fun ε hε => ?_⟩
  set δ := ε / (4 * (C ^ 2 + 1)) with hδ
  have hδ0 : 0 < δ := by positivity
  have hδε : C ^ 2 * δ ≤ ε / 4 := by
    rw [hδ, mul_div_assoc', div_le_iff₀ (by positivity)]
    nlinarith
  obtain ⟨q, hq1, hq2⟩ := hv.approx δ hδ0
  obtain ⟨p, hp1, hp2⟩ := (Approx.growth S q (v := fun N => vec N q) (.of_forall fun _ => rfl) j hc ⟨C, 0, fun t => by
    simpa using (hC t).trans (by linarith)⟩).approx (ε / 4) (by positivity)
  have hlq := memLp_poly_nd S.expo q
  have hlp := memLp_poly_nd S.expo p
  refine ⟨p, ?_, ?_⟩
  · have i1 : Integrable (fun x => (g x - MvPolynomial.eval x q) ^ 2) μ := (hv.lp.sub hlq).integrable_sq
    have i2 : Integrable (fun x => (h (x j) * MvPolynomial.eval x q - MvPolynomial.eval x p) ^ 2) μ := ((hmul hlq).sub hlp).integrable_sq
    have i3 : Integrable (fun x => (h (x j) * g x - MvPolynomial.eval x p) ^ 2) μ := ((hmul hv.lp).sub hlp).integrable_sq
    have hle : ∫ x, (h (x j) * g x - MvPolynomial.eval x p) ^ 2 ∂μ ≤ ∫ x, (2 * C ^ 2 * (g x - MvPolynomial.eval x q) ^ 2
        + 2 * (h (x j) * MvPolynomial.eval x q - MvPolynomial.eval x p) ^ 2) ∂μ := by
      refine integral_mono i3 ((i1.const_mul _).add (i2.const_mul _)) fun x => ?_
      simp only
      have h1 : h (x j) ^ 2 ≤ C ^ 2 := sq_le_sq' (abs_le.1 (hC _)).1 (abs_le.1 (hC _)).2
      have h2 := mul_le_mul_of_nonneg_right h1 (sq_nonneg (g x - MvPolynomial.eval x q))
      nlinarith [sq_nonneg (h (x j) * (g x - MvPolynomial.eval x q) - (h (x j) * MvPolynomial.eval x q - MvPolynomial.eval x p))]
    rw [integral_add (i1.const_mul _) (i2.const_mul _), integral_const_mul, integral_const_mul] at hle
    nlinarith [sq_nonneg C]
  · filter_upwards [hq2, hp2, eventually_ge_atTop 2] with N h1 h2 hN
    have hE := S.eigh N hN j
    have e : funMat (U N j) (lam N j) h *ᵥ v N - vec N p
        = funMat (U N j) (lam N j) h *ᵥ (v N - vec N q) + (funMat (U N j) (lam N j) h *ᵥ vec N q - vec N p) := by
      rw [Matrix.mulVec_sub]; abel
    have h3 : nsq (funMat (U N j) (lam N j) h *ᵥ (v N - vec N q)) ≤ C ^ 2 * nsq (v N - vec N q) := by
      rw [nsq, normSq_funMat hE, dot_funMat]
      have h4 := dot_funMat (U := U N j) (lam := lam N j) (fun _ => (1 : ℝ)) (v N - vec N q)
      have h5 : funMat (U N j) (lam N j) (fun _ => (1 : ℝ)) = 1 := by
        rw [funMat, Matrix.diagonal_one, Matrix.mul_one, hE.orth]
      rw [h5, Matrix.one_mulVec] at h4
      rw [nsq, h4, Finset.mul_sum]
      refine Finset.sum_le_sum fun i _ => ?_
      have h1 : h (lam N j i) ^ 2 ≤ C ^ 2 := sq_le_sq' (abs_le.1 (hC _)).1 (abs_le.1 (hC _)).2
      nlinarith [sq_nonneg (((U N j)ᵀ *ᵥ (v N - vec N q)) i)]
    rw [e]
    refine (nsq_add_le _ _).trans_lt ?_
    nlinarith [nsq_nonneg (v N - vec N q), sq_nonneg C]

theorem sq_integral_mul_le_nd {f g : (Fin d → ℝ) → ℝ} (hf : MemLp f 2 μ) (hg : MemLp g 2 μ) :
    (∫ x, f x * g x ∂μ) ^ 2 ≤ (∫ x, f x ^ 2 ∂μ) * ∫ x, g x ^ 2 ∂μ := by
  have i1 : Integrable (fun x => f x ^ 2) μ := hf.integrable_sq
  have i2 : Integrable (fun x => g x ^ 2) μ := hg.integrable_sq
  have i3 : Integrable (fun x => f x * g x) μ := hf.integrable_mul hg
  have h : ∀ t : ℝ, 0 ≤ (∫ x, g x ^ 2 ∂μ) * (t * t) + (2 * ∫ x, f x * g x ∂μ) * t + ∫ x, f x ^ 2 ∂μ := by
    intro t
    have h1 : 0 ≤ ∫ x, (f x + t * g x) ^ 2 ∂μ := integral_nonneg fun x => sq_nonneg (f x + t * g x)
    have e : ∀ x, (f x + t * g x) ^ 2 = f x ^ 2 + (2 * t * (f x * g x) + t ^ 2 * g x ^ 2) := fun x => by ring
    have i4 : Integrable (fun x => 2 * t * (f x * g x) + t ^ 2 * g x ^ 2) μ := (i3.const_mul _).add (i2.const_mul _)
    simp only [e] at h1
    rw [integral_add i1 i4, integral_add (i3.const_mul _) (i2.const_mul _), integral_const_mul, integral_const_mul] at h1
    nlinarith
  have := discrim_le_zero h
  rw [discrim] at this
  nlinarith

/-- **inner products converge.** -/
theorem Approx.dot (S : VecSeq μ L z K U lam vec) {v w : ∀ N, Fin (z N) → ℝ} {g h : (Fin d → ℝ) → ℝ} (hv : Approx μ vec v g)
    (hw : Approx μ vec w h) : Tendsto (fun N => v N ⬝ᵥ w N) atTop (𝓝 (∫ x, g x * h x ∂μ)) := by
  -- a bound of `w`
  obtain ⟨Bw, hBw0, hBw⟩ : ∃ B : ℝ, 0 ≤ B ∧ ∀ᶠ N in atTop, nsq (w N) ≤ B := by
    obtain ⟨q, _, hq⟩ := hw.approx 1 one_pos
    have h0 : 0 ≤ ∫ x, MvPolynomial.eval x q * MvPolynomial.eval x q ∂μ := integral_nonneg fun x => mul_self_nonneg (MvPolynomial.eval x q)
    refine ⟨2 + 2 * ∫ x, MvPolynomial.eval x q * MvPolynomial.eval x q ∂μ, by linarith, ?_⟩
    filter_upwards [hq, S.dot q q] with N h1 h2
    have := nsq_add_le (w N - vec N q) (vec N q)
    rw [sub_add_cancel] at this
    rw [← h2]
    change nsq (w N) ≤ 2 + 2 * nsq (vec N q)
    linarith
  set Bg := 2 * (∫ x, g x ^ 2 ∂μ) + 2 with hBg
  set Bh := ∫ x, h x ^ 2 ∂μ with hBh
  have hBh0 : 0 ≤ Bh := integral_nonneg fun x => sq_nonneg (h x)
  have hBg0 : 0 ≤ Bg := by
    have : 0 ≤ ∫ x, g x ^ 2 ∂μ := integral_nonneg fun x => sq_nonneg (g x)
    linarith
  set Q := 4 * Bw + 8 * Bg + 4 * Bh + 1 with hQ
  have hQ0 : 0 < Q := by linarith
  rw [Metric.tendsto_atTop']
  intro ε hε
  set δ := min 1 (ε ^ 2 / (2 * Q)) with hδ
  have hδ0 : 0 < δ := by positivity
  have hδ1 : δ ≤ 1 := min_le_left _ _
  have hδε : δ * Q ≤ ε ^ 2 / 2 := by
    have := min_le_right 1 (ε ^ 2 / (2 * Q))
    calc δ * Q ≤ ε ^ 2 / (2 * Q) * Q := by gcongr
      _ = ε ^ 2 / 2 := by field_simp
  obtain ⟨p, hp1, hp2⟩ := hv.approx δ hδ0
  obtain ⟨q, hq1, hq2⟩ := hw.approx δ hδ0
  have lp := memLp_poly_nd S.expo p
  have lq := memLp_poly_nd S.expo q
  have hp0 : 0 ≤ ∫ x, MvPolynomial.eval x p ^ 2 ∂μ := integral_nonneg fun x => sq_nonneg (MvPolynomial.eval x p)
  have hpB : ∫ x, MvPolynomial.eval x p ^ 2 ∂μ ≤ Bg := by
    have i1 : Integrable (fun x => (g x - MvPolynomial.eval x p) ^ 2) μ := (hv.lp.sub lp).integrable_sq
    have hle : ∫ x, MvPolynomial.eval x p ^ 2 ∂μ ≤ ∫ x, (2 * (g x - MvPolynomial.eval x p) ^ 2 + 2 * g x ^ 2) ∂μ := by
      refine integral_mono lp.integrable_sq ((i1.const_mul 2).add (hv.lp.integrable_sq.const_mul 2)) fun x => ?_
      simp only
      nlinarith [sq_nonneg (2 * g x - MvPolynomial.eval x p)]
    rw [integral_add (i1.const_mul 2) (hv.lp.integrable_sq.const_mul 2), integral_const_mul, integral_const_mul] at hle
    linarith
  have hI : ((∫ x, MvPolynomial.eval x p * MvPolynomial.eval x q ∂μ) - ∫ x, g x * h x ∂μ) ^ 2 ≤ 2 * (δ * Bh) + 2 * (Bg * δ) := by
    have e : (∫ x, MvPolynomial.eval x p * MvPolynomial.eval x q ∂μ) - ∫ x, g x * h x ∂μ
        = -((∫ x, (g x - MvPolynomial.eval x p) * h x ∂μ) + ∫ x, MvPolynomial.eval x p * (h x - MvPolynomial.eval x q) ∂μ) := by
      have i1 : Integrable (fun x => MvPolynomial.eval x p * MvPolynomial.eval x q) μ := lp.integrable_mul lq
      have i2 : Integrable (fun x => g x * h x) μ := hv.lp.integrable_mul hw.lp
      have i3 : Integrable (fun x => (g x - MvPolynomial.eval x p) * h x) μ := (hv.lp.sub lp).integrable_mul hw.lp
      have i4 : Integrable (fun x => MvPolynomial.eval x p * (h x - MvPolynomial.eval x q)) μ := lp.integrable_mul (hw.lp.sub lq)
      rw [← integral_sub i1 i2, ← integral_add i3 i4, ← integral_neg]
      refine integral_congr_ae (.of_forall fun x => ?_)
      simp only
      ring
    have c1 := sq_integral_mul_le_nd (hv.lp.sub lp) hw.lp
    have c2 := sq_integral_mul_le_nd lp (hw.lp.sub lq)
    simp only [Pi.sub_apply] at c1 c2
    have c3 := mul_le_mul_of_nonneg_right hp1.le hBh0
    have c4 : (∫ x, MvPolynomial.eval x p ^ 2 ∂μ) * ∫ x, (h x - MvPolynomial.eval x q) ^ 2 ∂μ ≤ Bg * δ :=
      mul_le_mul hpB hq1.le (integral_nonneg fun x => sq_nonneg (h x - MvPolynomial.eval x q)) hBg0
    rw [e, neg_sq]
    generalize (∫ x, (g x - MvPolynomial.eval x p) * h x ∂μ) = A at c1 ⊢
    generalize (∫ x, MvPolynomial.eval x p * (h x - MvPolynomial.eval x q) ∂μ) = A' at c2 ⊢
    nlinarith [sq_nonneg (A - A')]
  obtain ⟨N0, hN0⟩ := eventually_atTop.1 (hBw.and (hp2.and (hq2.and ((S.dot p q).and (S.dot p p)))))
  refine ⟨N0, fun N hN => ?_⟩
  obtain ⟨h1, h2, h3, h4, h5⟩ := hN0 N hN.le
  have hV : (v N ⬝ᵥ w N - vec N p ⬝ᵥ vec N q) ^ 2 ≤ 2 * (δ * Bw) + 2 * (Bg * δ) := by
    have e : v N ⬝ᵥ w N - vec N p ⬝ᵥ vec N q = (v N - vec N p) ⬝ᵥ w N + vec N p ⬝ᵥ (w N - vec N q) := by
      rw [sub_dotProduct, dotProduct_sub]; ring
    have c1 := dot_le_nsq (v N - vec N p) (w N)
    have c2 := dot_le_nsq (vec N p) (w N - vec N q)
    have c3 : nsq (v N - vec N p) * nsq (w N) ≤ δ * Bw := mul_le_mul h2.le h1 (nsq_nonneg _) hδ0.le
    have c5 : nsq (vec N p) ≤ Bg := by
      rw [nsq, h5]
      simpa [sq] using hpB
    have c4 : nsq (vec N p) * nsq (w N - vec N q) ≤ Bg * δ := mul_le_mul c5 h3.le (nsq_nonneg _) hBg0
    rw [e]
    generalize (v N - vec N p) ⬝ᵥ w N = A at c1 ⊢
    generalize vec N p ⬝ᵥ (w N - vec N q) = A' at c2 ⊢
    nlinarith [sq_nonneg (A - A')]
  rw [h4] at hV
  rw [Real.dist_eq]
  refine abs_lt_of_sq_lt_sq ?_ hε.le
  generalize (∫ x, MvPolynomial.eval x p * MvPolynomial.eval x q ∂μ) = I at hV hI
  have e : v N ⬝ᵥ w N - ∫ x, g x * h x ∂μ = (v N ⬝ᵥ w N - I) + (I - ∫ x, g x * h x ∂μ) := by ring
  rw [e]
  generalize v N ⬝ᵥ w N - I = A at hV ⊢
  generalize I - ∫ x, g x * h x ∂μ = A' at hI ⊢
  nlinarith [sq_nonneg (A - A'), sq_nonneg ε]

end Mfs.StrongND

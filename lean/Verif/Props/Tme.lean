import Verif.Model.Tme
import Verif.Props.Models1
import Verif.Props.PolyProcess
import Mathlib.Analysis.Calculus.ContDiff.Polynomial
import Mathlib.Analysis.Calculus.IteratedDeriv.Lemmas
import Mathlib.Algebra.Polynomial.Taylor
import Mathlib.Algebra.Polynomial.HasseDeriv

/-!
# Properties C129 and C130: moments of the Taylor moment expansion
-/

namespace Mfs.Props

open Matrix Mfs.Spec Mfs.Quad1 Mfs.Filter1 Mfs.Moments1 Mfs.Tme Polynomial ProbabilityTheory MeasureTheory
open scoped NNReal ContDiff

variable {Y : Type}

theorem contDiff_generator {a b phi : ℝ → ℝ} (ha : ContDiff ℝ ∞ a) (hb : ContDiff ℝ ∞ b) (hphi : ContDiff ℝ ∞ phi) :
    ContDiff ℝ ∞ (generator a b phi) := by
  have h1 : ContDiff ℝ ∞ (deriv phi) := (contDiff_infty_iff_deriv.1 hphi).2
  have h2 : ContDiff ℝ ∞ (deriv (deriv phi)) := (contDiff_infty_iff_deriv.1 h1).2
  exact (ha.mul h1).add (((hb.pow 2).div_const 2).mul h2)

theorem contDiff_generator_iter {a b phi : ℝ → ℝ} (ha : ContDiff ℝ ∞ a) (hb : ContDiff ℝ ∞ b) (hphi : ContDiff ℝ ∞ phi) (r : ℕ) :
    ContDiff ℝ ∞ ((generator a b)^[r] phi) := by
  induction r with
  | zero => exact hphi
  | succ r ih => rw [Function.iterate_succ_apply']; exact contDiff_generator ha hb ih

theorem generator_add {a b f g : ℝ → ℝ} (hf : ContDiff ℝ ∞ f) (hg : ContDiff ℝ ∞ g) :
    generator a b (f + g) = generator a b f + generator a b g := by
  have h1 : deriv (f + g) = deriv f + deriv g := by
    funext x
    exact deriv_add (hf.differentiable (by simp) x) (hg.differentiable (by simp) x)
  have h2 : deriv (deriv f + deriv g) = deriv (deriv f) + deriv (deriv g) := by
    funext x
    exact deriv_add ((contDiff_infty_iff_deriv.1 hf).2.differentiable (by simp) x)
      ((contDiff_infty_iff_deriv.1 hg).2.differentiable (by simp) x)
  funext x
  simp only [generator, h1, h2, Pi.add_apply]
  ring

theorem generator_smul {a b f : ℝ → ℝ} (c : ℝ) : generator a b (c • f) = c • generator a b f := by
  have h1 : ∀ g : ℝ → ℝ, deriv (c • g) = c • deriv g := fun g => by
    funext x
    exact deriv_const_mul_field c
  funext x
  simp only [generator, h1, Pi.smul_apply, smul_eq_mul]
  ring

theorem generator_iter_add {a b f g : ℝ → ℝ} (ha : ContDiff ℝ ∞ a) (hb : ContDiff ℝ ∞ b) (hf : ContDiff ℝ ∞ f) (hg : ContDiff ℝ ∞ g)
    (r : ℕ) : (generator a b)^[r] (f + g) = (generator a b)^[r] f + (generator a b)^[r] g := by
  induction r with
  | zero => rfl
  | succ r ih =>
    rw [Function.iterate_succ_apply', ih, generator_add (contDiff_generator_iter ha hb hf r) (contDiff_generator_iter ha hb hg r),
      Function.iterate_succ_apply', Function.iterate_succ_apply']

theorem generator_iter_smul {a b f : ℝ → ℝ} (c : ℝ) (r : ℕ) : (generator a b)^[r] (c • f) = c • (generator a b)^[r] f := by
  induction r with
  | zero => rfl
  | succ r ih => rw [Function.iterate_succ_apply', ih, generator_smul, Function.iterate_succ_apply']

theorem contDiff_eval (p : ℝ[X]) : ContDiff ℝ ∞ fun u => p.eval u := by
  simpa using p.contDiff_aeval (𝕜 := ℝ) ∞

/-- the expansion as a functional on polynomials. -/
noncomputable def tmeL (a b : ℝ → ℝ) (ha : ContDiff ℝ ∞ a) (hb : ContDiff ℝ ∞ b) (dt : ℝ) (M : ℕ) (x : ℝ) : ℝ[X] →ₗ[ℝ] ℝ where
  toFun p := expectation a b dt M (fun u => p.eval u) x
  map_add' p q := by
    have : (fun u => (p + q).eval u) = (fun u => p.eval u) + fun u => q.eval u := by
      funext u
      simp
    simp only [expectation, this, generator_iter_add ha hb (contDiff_eval p) (contDiff_eval q), Pi.add_apply, mul_add, Finset.sum_add_distrib]
  map_smul' c p := by
    have : (fun u => (c • p).eval u) = c • fun u => p.eval u := by
      funext u
      simp
    simp only [expectation, this, generator_iter_smul, Pi.smul_apply, smul_eq_mul, RingHom.id_apply, Finset.mul_sum]
    exact Finset.sum_congr rfl fun i _ => by ring

theorem generator_const (a b : ℝ → ℝ) (c : ℝ) : generator a b (fun _ => c) = fun _ => 0 := by
  funext x
  have : deriv (fun _ : ℝ => c) = fun _ => 0 := by
    funext u
    simp
  simp [generator, this]

theorem expectation_const (a b : ℝ → ℝ) (dt : ℝ) (M : ℕ) (x c : ℝ) : expectation a b dt M (fun _ => c) x = c := by
  have h : ∀ r : ℕ, (generator a b)^[r + 1] (fun _ => c) = fun _ => 0 := by
    intro r
    induction r with
    | zero => simp [generator_const]
    | succ r ih => rw [Function.iterate_succ_apply', ih, generator_const]
  rw [expectation, Finset.sum_range_succ', Finset.sum_eq_zero fun r _ => by rw [h]; simp]
  simp

/-- **C129, consistency.** For a smooth drift and dispersion, any step and any order of the expansion, the functions returned by
`sde_cond_moments_tme` are the raw moments, the central moments, the scaled central moments and the mean of one linear functional of
total mass one, which is all that the equivalence of the filters (C27) asks of them. -/
theorem C129_tme_consistent (a b : ℝ → ℝ) (ha : ContDiff ℝ ∞ a) (hb : ContDiff ℝ ∞ b) (dt : ℝ) (M : ℕ) (meanCov : ℝ → ℝ × ℝ) :
    ∃ E : ℝ → ℝ[X] →ₗ[ℝ] ℝ, (∀ x, E x 1 = 1) ∧
      (∀ x k, (sdeCondMomentsTme (expectation a b dt M) meanCov).raw x k = E x (X ^ k)) ∧
      (∀ x k m, (sdeCondMomentsTme (expectation a b dt M) meanCov).central x k m = E x ((X - C m) ^ k)) ∧
      (∀ x k m s, (sdeCondMomentsTme (expectation a b dt M) meanCov).scaled x k m s = E x ((C s⁻¹ * (X - C m)) ^ k)) ∧
      ∀ x, (sdeCondMomentsTme (expectation a b dt M) meanCov).mean x = E x X := by
  refine ⟨tmeL a b ha hb dt M, fun x => ?_, fun x k => ?_, fun x k m => ?_, fun x k m s => ?_, fun x => ?_⟩
  · change expectation a b dt M (fun u => (1 : ℝ[X]).eval u) x = 1
    simp only [eval_one, expectation_const]
  · change _ = expectation a b dt M (fun u => (X ^ k : ℝ[X]).eval u) x
    simp [sdeCondMomentsTme]
  · change _ = expectation a b dt M (fun u => ((X - C m) ^ k : ℝ[X]).eval u) x
    simp [sdeCondMomentsTme]
  · change _ = expectation a b dt M (fun u => ((C s⁻¹ * (X - C m)) ^ k : ℝ[X]).eval u) x
    simp [sdeCondMomentsTme, div_eq_inv_mul]
  · change _ = expectation a b dt M (fun u => (X : ℝ[X]).eval u) x
    simp [sdeCondMomentsTme]

theorem sum_range_two_mul (f : ℕ → ℝ) (n : ℕ) : ∑ k ∈ Finset.range (2 * n), f k = ∑ r ∈ Finset.range n, (f (2 * r) + f (2 * r + 1)) := by
  induction n with
  | zero => simp
  | succ n ih => rw [show 2 * (n + 1) = 2 * n + 1 + 1 by ring, Finset.sum_range_succ, Finset.sum_range_succ, ih, Finset.sum_range_succ]; ring

/-- the heat semigroup on polynomials. -/
theorem gaussL_heat (x : ℝ) (v : ℝ≥0) (n : ℕ) (p : ℝ[X]) (hp : p.natDegree < 2 * n) :
    gaussL x v p = ∑ r ∈ Finset.range n, ((v : ℝ) / 2) ^ r / (r.factorial : ℝ) * (derivative^[2 * r] p).eval x := by
  have h1 : ∀ z : ℝ, p.eval (x + √v * z) = ∑ k ∈ Finset.range (2 * n), (hasseDeriv k p).eval x * √v ^ k * z ^ k := by
    intro z
    rw [show x + √v * z = √v * z + x by ring, ← taylor_eval, eval_eq_sum_range' (by rw [natDegree_taylor]; exact hp)]
    refine Finset.sum_congr rfl fun k _ => ?_
    rw [taylor_coeff, mul_pow]
    ring
  rw [gaussL_apply, integral_gaussianReal_std x v _ p.continuous]
  simp only [h1]
  rw [integral_finsetSum _ fun k _ => (integrable_pow_gaussianReal 0 1 k).const_mul _]
  simp only [integral_const_mul]
  rw [sum_range_two_mul]
  refine Finset.sum_congr rfl fun r _ => ?_
  have h3 : (derivative^[2 * r] p).eval x = ((2 * r).factorial : ℝ) * (hasseDeriv (2 * r) p).eval x := by
    rw [← factorial_smul_hasseDeriv]
    simp
  rw [std_moment_even, std_moment_odd, mul_zero, add_zero, pow_mul, Real.sq_sqrt v.coe_nonneg, h3, div_pow]
  have h2 : ((r.factorial : ℕ) : ℝ) ≠ 0 := by positivity
  field_simp

/-- the expansion for Brownian motion. -/
theorem expectation_brownian (sigma dt : ℝ) (M : ℕ) (p : ℝ[X]) (x : ℝ) :
    expectation (fun _ => 0) (fun _ => sigma) dt M (fun u => p.eval u) x
      = ∑ r ∈ Finset.range (M + 1), (sigma ^ 2 * dt / 2) ^ r / (r.factorial : ℝ) * (derivative^[2 * r] p).eval x := by
  have h : ∀ r : ℕ, (generator (fun _ => 0) fun _ => sigma)^[r] (fun u => p.eval u)
      = fun u => (sigma ^ 2 / 2) ^ r * (derivative^[2 * r] p).eval u := by
    intro r
    induction r with
    | zero => simp
    | succ r ih =>
      rw [Function.iterate_succ_apply', ih]
      funext u
      have e1 : ∀ q : ℝ[X], deriv (fun u => (sigma ^ 2 / 2) ^ r * q.eval u) = fun u => (sigma ^ 2 / 2) ^ r * (derivative q).eval u := by
        intro q
        funext w
        rw [deriv_const_mul _ q.differentiableAt, Polynomial.deriv]
      rw [generator, e1, e1, show 2 * (r + 1) = 2 * r + 1 + 1 by ring, Function.iterate_succ_apply', Function.iterate_succ_apply']
      ring
  rw [expectation]
  refine Finset.sum_congr rfl fun r _ => ?_
  rw [h, div_pow, div_pow, mul_pow]
  ring

/-- **C129, exactness.** For Brownian motion the moments of `sde_cond_moments_tme` of order up to `2 M + 1` (`M` is `tme_order`) are
those of the transition law `N(x, sigma² dt)`. -/
theorem C129_tme_exact (sigma dt : ℝ) (hdt : 0 ≤ dt) (M : ℕ) (meanCov : ℝ → ℝ × ℝ) (x c : ℝ) (k : ℕ) (hk : k ≤ 2 * M + 1) :
    let F := sdeCondMomentsTme (expectation (fun _ => 0) (fun _ => sigma) dt M) meanCov
    F.raw x k = ∫ u, u ^ k ∂gaussianReal x (sigma ^ 2 * dt).toNNReal ∧
    F.central x k c = ∫ u, (u - c) ^ k ∂gaussianReal x (sigma ^ 2 * dt).toNNReal := by
  have hv : ((sigma ^ 2 * dt).toNNReal : ℝ) = sigma ^ 2 * dt := Real.coe_toNNReal _ (by positivity)
  have key : ∀ p : ℝ[X], p.natDegree ≤ k → expectation (fun _ => 0) (fun _ => sigma) dt M (fun u => p.eval u) x
      = gaussL x (sigma ^ 2 * dt).toNNReal p := by
    intro p hp
    rw [gaussL_heat x _ (M + 1) p (by omega), expectation_brownian, hv]
  have e1 := key (X ^ k) (by simp)
  have e2 := key ((X - C c) ^ k) (by simp)
  rw [gaussL_apply] at e1 e2
  simp only [eval_pow, eval_X, eval_sub, eval_C] at e1 e2
  exact ⟨e1, e2⟩

/-- **C130, partial.** For Brownian motion and `N ≤ M + 1`, from any Gaussian sum with positive variances and with any positive
measurement density, the filters of raw and of central moments with `sde_cond_moments_tme` run forever and agree. Missing: other models (false in general, see `C130_tme_valid_refuted`). -/
theorem C130_tme_valid_partial (B : Backend) (hB : B.Valid) (l₁ l₂ : Bool) (pdf : Y → ℝ → ℝ) (hpdf : ∀ y x, 0 < pdf y x)
    (comps : List Component) (hw : ∀ c ∈ comps, 0 ≤ c.weight) (h1 : (comps.map (·.weight)).sum = 1)
    (hvar : ∀ c ∈ comps, 0 < c.variance) (N M : ℕ) (hN : 2 ≤ N) (hM : N ≤ M + 1) (sigma dt : ℝ) (hdt : 0 < dt) (hs : sigma ≠ 0)
    (meanCov : ℝ → ℝ × ℝ) (ys : List Y) :
    ValidRun B l₁ l₂ pdf (sdeCondMomentsTme (expectation (fun _ => 0) (fun _ => sigma) dt M) meanCov)
      (GaussianSum1D.new comps N) N ys := by
  have hx := fun x c k (hk : k < 2 * N) => C129_tme_exact sigma dt hdt.le M meanCov x c k (by omega)
  refine run_valid B hB l₁ l₂ pdf hpdf comps hw h1 hvar N hN (fun x => x) (fun _ => sigma ^ 2 * dt) (fun _ => by positivity)
    _ _ _ (fun x k hk => ?_) (fun x c k hk => ?_) (fun x => ?_) ys
  · rw [gaussL_apply, (hx x 0 k hk).1]
    simp
  · rw [gaussL_apply, (hx x c k hk).2]
    simp
  · have := (hx x 0 1 (by omega)).1
    simpa [sdeCondMomentsTme] using this

/-- the law predicted for Brownian motion from `N(0, s)`. -/
noncomputable def tmePred (c : ℕ → ℝ) (M : ℕ) (L : ℝ[X] →ₗ[ℝ] ℝ) : ℝ[X] →ₗ[ℝ] ℝ :=
  ∑ r ∈ Finset.range (M + 1), c r • L.comp (derivative ^ (2 * r))

theorem tmePred_apply (c : ℕ → ℝ) (M : ℕ) (L : ℝ[X] →ₗ[ℝ] ℝ) (p : ℝ[X]) :
    tmePred c M L p = ∑ r ∈ Finset.range (M + 1), c r * L (derivative^[2 * r] p) := by
  rw [tmePred, LinearMap.sum_apply]
  refine Finset.sum_congr rfl fun r _ => ?_
  rw [LinearMap.smul_apply, LinearMap.comp_apply, Module.End.pow_apply, smul_eq_mul]

theorem posSemidef_hankel_sq (L : ℝ[X] →ₗ[ℝ] ℝ) (n : ℕ) (m : ℕ → ℝ) (hm : ∀ k < 2 * n, m k = L (X ^ k)) (h : (hankelMat n m).PosSemidef)
    (q : ℝ[X]) (hd : q.natDegree < n) : 0 ≤ L (q ^ 2) := by
  have := h.dotProduct_mulVec_nonneg fun i : Fin n => q.coeff i
  rw [star_trivial, quadForm_hankel L n m hm] at this
  have e : (∑ i : Fin n, C (q.coeff i) * X ^ (i : ℕ)) = q := by
    rw [Fin.sum_univ_eq_sum_range (fun i => C (q.coeff i) * X ^ i) n]
    conv_rhs => rw [q.as_sum_range' n hd]
    exact Finset.sum_congr rfl (fun i _ => C_mul_X_pow_eq_monomial)
  rwa [e] at this

theorem natDegree_iterate_derivative_le' (p : ℝ[X]) (k : ℕ) : (derivative^[k] p).natDegree ≤ p.natDegree :=
  (natDegree_iterate_derivative p k).trans (Nat.sub_le _ _)

/-- **C130, refuted.** Let `M ≥ 1` be the order of the expansion and `N ≥ M + 2`. For Brownian motion and the initial law `N(0, s)` with
`s > 0` small, whose moments are a valid initial vector, the moments predicted by `moment_filter_rms` with `sde_cond_moments_tme` are not
the moments of any law: their Gram matrix, which the update factorises, is not positive semi-definite. -/
theorem C130_tme_valid_refuted (B : Backend) (hB : B.Valid) (stable : Bool) (M N : ℕ) (hM : 1 ≤ M) (hN : M + 2 ≤ N) (sigma dt : ℝ)
    (hdt : 0 < dt) (hs : sigma ≠ 0) (meanCov : ℝ → ℝ × ℝ) :
    ∃ s0 > 0, ∀ s, 0 < s → s < s0 →
      let rms := (GaussianSum1D.new [⟨0, s, 1⟩] N).rms
      (gramOf rms).PosDef ∧
      ¬ (gramOf (predRms B stable (sdeCondMomentsTme (expectation (fun _ => 0) (fun _ => sigma) dt M) meanCov).raw (2 * N) rms)).PosSemidef := by
  let c : ℕ → ℝ := fun r => (sigma ^ 2 * dt / 2) ^ r / (r.factorial : ℝ)
  have hc : ∀ r, 0 < c r := fun r => by positivity
  -- the polynomial whose square gets a negative expectation
  let A : ℝ := c M * ((2 * M).factorial : ℝ)
  let D : ℝ := c (M - 1) * ((2 * (M - 1)).factorial : ℝ)
  have hA : 0 < A := mul_pos (hc _) (by positivity)
  have hD : 0 < D := mul_pos (hc _) (by positivity)
  let q : ℝ[X] := X ^ (M + 1) - C (A / D) * X ^ (M - 1)
  have hqd : q.natDegree ≤ M + 1 := by
    refine (natDegree_sub_le _ _).trans (max_le (natDegree_X_pow _).le ?_)
    exact (natDegree_C_mul_X_pow_le _ _).trans (by omega)
  have hq2 : q ^ 2 = X ^ (2 * (M + 1)) - C (2 * (A / D)) * X ^ (2 * M) + C ((A / D) ^ 2) * X ^ (2 * (M - 1)) := by
    obtain ⟨m, rfl⟩ : ∃ m, M = m + 1 := ⟨M - 1, by omega⟩
    simp only [q, Nat.add_sub_cancel, map_mul, map_pow, map_ofNat]
    ring
  let G : ℝ → ℝ := fun s => ∑ r ∈ Finset.range (M + 1), c r *
    ∑ j ∈ Finset.range (M + 2), (s / 2) ^ j / (j.factorial : ℝ) * (derivative^[2 * j] (derivative^[2 * r] (q ^ 2))).eval 0
  have hG : ∀ s, 0 ≤ s → tmePred c M (gaussL 0 s.toNNReal) (q ^ 2) = G s := by
    intro s hs0
    rw [tmePred_apply]
    refine Finset.sum_congr rfl fun r _ => ?_
    rw [gaussL_heat 0 _ (M + 2) _ ?_, Real.coe_toNNReal _ hs0]
    refine (natDegree_iterate_derivative_le' _ _).trans_lt ?_
    rw [natDegree_pow]
    omega
  have hev : ∀ (p : ℝ[X]) (k : ℕ), (derivative^[k] p).eval 0 = (k.factorial : ℝ) * p.coeff k := by
    intro p k
    rw [← coeff_zero_eq_eval_zero, coeff_iterate_derivative, zero_add, Nat.descFactorial_self, nsmul_eq_mul]
  have hG0 : G 0 < 0 := by
    have e1 : G 0 = ∑ r ∈ Finset.range (M + 1), c r * ((2 * r).factorial : ℝ) * (q ^ 2).coeff (2 * r) := by
      refine Finset.sum_congr rfl fun r _ => ?_
      rw [Finset.sum_range_succ', Finset.sum_eq_zero fun j _ => by simp]
      simp [hev, mul_assoc]
    have e2 : ∀ r ∈ Finset.range (M + 1), c r * ((2 * r).factorial : ℝ) * (q ^ 2).coeff (2 * r)
        = (if r = M then -(2 * (A / D)) * A else 0) + if r = M - 1 then (A / D) ^ 2 * D else 0 := by
      intro r hr
      have hr := Finset.mem_range.1 hr
      rw [hq2]
      simp only [coeff_add, coeff_sub, coeff_C_mul, coeff_X_pow]
      rcases eq_or_ne r M with rfl | h1
      · rw [if_neg (by omega), if_pos rfl, if_neg (by omega), if_pos rfl, if_neg (by omega)]
        simp only [A]
        ring
      · rcases eq_or_ne r (M - 1) with h2 | h2
        · rw [if_neg (by omega), if_neg (by omega), if_pos (by omega), if_neg h1, if_pos h2, h2]
          simp only [D]
          ring
        · rw [if_neg (by omega), if_neg (by omega), if_neg (by omega), if_neg h1, if_neg h2]
          ring
    rw [e1, Finset.sum_congr rfl e2, Finset.sum_add_distrib, Finset.sum_ite_eq', Finset.sum_ite_eq', if_pos (by simp),
      if_pos (Finset.mem_range.2 (by omega))]
    have : -(2 * (A / D)) * A + (A / D) ^ 2 * D = -(A ^ 2 / D) := by
      field_simp
      ring
    rw [this]
    have : 0 < A ^ 2 / D := by positivity
    linarith
  have hGc : Continuous G := by
    simp only [G]
    fun_prop
  obtain ⟨s0, hs0, hneg⟩ := Metric.eventually_nhds_iff.1 ((hGc.tendsto 0).eventually (gt_mem_nhds hG0))
  refine ⟨s0, hs0, fun s hsp hlt => ?_⟩
  intro rms
  have hmix : ∀ p, mixL [⟨0, s, 1⟩] p = gaussL 0 s.toNNReal p := fun p => by simp [mixL_apply]
  obtain ⟨hg, hlaw, -⟩ := gaussianSum_valid [⟨0, s, 1⟩] (by simp) (by simp) (by simpa using hsp) N (by omega)
  refine ⟨hg, fun hpsd => ?_⟩
  have hlen : rms.length = 2 * N := hlaw.len_raw
  have hL : ∀ k < 2 * N, rms.getD k 0 = gaussL 0 s.toNNReal (X ^ k) := fun k hk => (hlaw.raw k hk).trans (hmix _)
  have hspos : ∀ q : ℝ[X], q ≠ 0 → 0 < gaussL 0 s.toNNReal (q ^ 2) := fun q hq =>
    gaussL_sq_pos _ (by rw [Ne, Real.toNNReal_eq_zero, not_le]; exact hsp) q hq
  have hrule := rule_of_squares B hB (gaussL 0 s.toNNReal) (by simp [gaussL_apply]) rms (fun q hq _ => hspos q hq) (by omega) 0 1
    one_ne_zero (by rw [hlen, affPoly_zero_one]; exact hL) false stable
  have hpred : ∀ k < 2 * N, (predRms B stable (sdeCondMomentsTme (expectation (fun _ => 0) (fun _ => sigma) dt M) meanCov).raw (2 * N)
      rms).getD k 0 = tmePred c M (gaussL 0 s.toNNReal) (X ^ k) := by
    intro k hk
    have e : ∀ x, (sdeCondMomentsTme (expectation (fun _ => 0) (fun _ => sigma) dt M) meanCov).raw x k
        = (∑ r ∈ Finset.range (M + 1), C (c r) * derivative^[2 * r] (X ^ k : ℝ[X])).eval x := by
      intro x
      have := expectation_brownian sigma dt M (X ^ k) x
      simp only [eval_pow, eval_X] at this
      refine this.trans ?_
      rw [eval_finsetSum]
      simp only [eval_mul, eval_C, c]
    rw [predRms, getD_map_range _ hk]
    simp only [e]
    rw [hrule, map_sum, tmePred_apply]
    · refine Finset.sum_congr rfl fun r _ => ?_
      rw [← smul_eq_C_mul, map_smul, smul_eq_mul]
    · refine lt_of_le_of_lt (natDegree_sum_le_of_forall_le (n := k) _ _ fun r _ => ?_) (by omega)
      refine (natDegree_C_mul_le _ _).trans ((natDegree_iterate_derivative_le' _ _).trans ?_)
      rw [natDegree_X_pow]
  have hlp : (predRms B stable (sdeCondMomentsTme (expectation (fun _ => 0) (fun _ => sigma) dt M) meanCov).raw (2 * N) rms).length / 2 = N := by
    simp [predRms]
  rw [gramOf, hlp] at hpsd
  have := posSemidef_hankel_sq _ N _ hpred hpsd q (by omega)
  rw [hG s hsp.le] at this
  have h2 := hneg (y := s) (by rw [Real.dist_eq, sub_zero, abs_of_pos hsp]; exact hlt)
  linarith

/-- the hypotheses: order three and `N = 15`, the values of `reproduce_paper_plots/plot_benes_bernoulli_estimation.py`. -/
example : (1 : ℕ) ≤ 3 ∧ 3 + 2 ≤ 15 ∧ (0 : ℝ) < 0.01 ∧ (1 : ℝ) ≠ 0 ∧ (∃ B : Backend, B.Valid) ∧ ContDiff ℝ ∞ (fun x : ℝ => -x) :=
  ⟨by norm_num, by norm_num, by norm_num, by norm_num, ⟨_, theBackend_valid⟩, contDiff_neg⟩

end Mfs.Props

import Verif.Lemmas.DriftHeat
import Verif.Lemmas.BenesLaw
import Verif.Props.ChapmanConv

/-!
# C153, C154: the Taylor moment expansion of the Beneš model is exact
-/

namespace Mfs.Props

open Polynomial Mfs.Tme Mfs.Spec Mfs.Benes Mfs.SsModels Mfs.Moments1 Mfs.Filter1 Mfs.Quad1 Mfs.Converge Mfs.BruteForce Mfs.GridConv
open MeasureTheory ProbabilityTheory Filter Topology
open scoped NNReal

theorem generator_benes (P Q : ℝ[X]) :
    generator benesDrift dispersion1 (fun u => pr u * P.eval u + pl u * Q.eval u)
      = fun u => pr u * (driftD 1 P).eval u + pl u * (driftD (-1) Q).eval u := by
  have d1 : ∀ x, HasDerivAt (fun u => pr u * P.eval u + pl u * Q.eval u)
      (pr x * ((1 - Real.tanh x) * P.eval x + (derivative P).eval x) + pl x * ((-1 - Real.tanh x) * Q.eval x + (derivative Q).eval x)) x := by
    intro x
    refine (((hasDerivAt_pr x).mul (P.hasDerivAt x)).add ((hasDerivAt_pl x).mul (Q.hasDerivAt x))).congr_deriv ?_
    ring
  have e1 := funext fun x => (d1 x).deriv
  have d2 : ∀ x, HasDerivAt (fun x => pr x * ((1 - Real.tanh x) * P.eval x + (derivative P).eval x)
        + pl x * ((-1 - Real.tanh x) * Q.eval x + (derivative Q).eval x))
      (pr x * (1 - Real.tanh x) * ((1 - Real.tanh x) * P.eval x + (derivative P).eval x)
        + pr x * (-(1 - Real.tanh x ^ 2) * P.eval x + (1 - Real.tanh x) * (derivative P).eval x + (derivative (derivative P)).eval x)
        + (pl x * (-1 - Real.tanh x) * ((-1 - Real.tanh x) * Q.eval x + (derivative Q).eval x)
        + pl x * (-(1 - Real.tanh x ^ 2) * Q.eval x + (-1 - Real.tanh x) * (derivative Q).eval x + (derivative (derivative Q)).eval x))) x := by
    intro x
    have hp := (((hasDerivAt_tanh x).const_sub 1).mul (P.hasDerivAt x)).add ((derivative P).hasDerivAt x)
    have hq := (((hasDerivAt_tanh x).const_sub (-1)).mul (Q.hasDerivAt x)).add ((derivative Q).hasDerivAt x)
    exact ((hasDerivAt_pr x).mul hp).add ((hasDerivAt_pl x).mul hq)
  funext x
  rw [generator, e1, (d2 x).deriv, benesDrift, dispersion1, driftD_apply, driftD_apply]
  simp only [eval_add, eval_smul, smul_eq_mul]
  ring

theorem generator_benes_iter (P Q : ℝ[X]) (r : ℕ) :
    (generator benesDrift dispersion1)^[r] (fun u => pr u * P.eval u + pl u * Q.eval u)
      = fun u => pr u * ((driftD 1)^[r] P).eval u + pl u * ((driftD (-1))^[r] Q).eval u := by
  induction r generalizing P Q with
  | zero => rfl
  | succ r ih => rw [Function.iterate_succ_apply, generator_benes, ih, ← Function.iterate_succ_apply, ← Function.iterate_succ_apply]

theorem generator_benes_poly (p : ℝ[X]) (r : ℕ) (x : ℝ) : (generator benesDrift dispersion1)^[r] (fun u => p.eval u) x
    = pr x * ((driftD 1)^[r] p).eval x + pl x * ((driftD (-1))^[r] p).eval x := by
  have e : (fun u => p.eval u) = fun u => pr u * p.eval u + pl u * p.eval u := funext fun u => by rw [← add_mul, pr_add_pl, one_mul]
  rw [e, generator_benes_iter]

theorem integral_poly_benes {t : ℝ} (ht : 0 < t) (x : ℝ) (p : ℝ[X]) : Integrable (fun y => p.eval y) (benesKernel t x) ∧
    ∫ y, p.eval y ∂benesKernel t x = pr x * gaussL (x + t) t.toNNReal p + pl x * gaussL (x - t) t.toNNReal p := by
  simp only [gaussL_apply]
  exact integral_benesKernel ht x (integrable_poly_gaussianReal _ _ p) (integrable_poly_gaussianReal _ _ p)

theorem expectation_benes {t : ℝ} (ht : 0 < t) (order : ℕ) (p : ℝ[X]) (hp : p.natDegree ≤ order) (x : ℝ) :
    expectation benesDrift dispersion1 t order (fun u => p.eval u) x = ∫ y, p.eval y ∂benesKernel t x := by
  rw [(integral_poly_benes ht x p).2, expectation]
  simp only [generator_benes_poly, mul_add, Finset.sum_add_distrib]
  have h1 := driftS_eq 1 x ht.le order p hp
  have h2 := driftS_eq (-1) x ht.le order p hp
  rw [one_mul] at h1
  rw [show x + -1 * t = x - t by ring] at h2
  rw [← h1, ← h2, driftS, driftS, Finset.mul_sum, Finset.mul_sum]
  congr 1 <;> exact Finset.sum_congr rfl fun r _ => by ring

/-- **C153, the law.** The kernel of `Spec.benesKernel` is the transition law of the equation `dX = tanh(X) dt + dW` of the Beneš model
(`benes_bernoulli`): its density is positive and integrates to one, satisfies the Fokker–Planck equation
`∂q/∂t = -∂(tanh(y) q)/∂y + ½ ∂²q/∂y²` at every time `t > 0` and state `y`, and its law converges weakly to the point mass at the
starting state as the time goes to zero. -/
theorem C153_benes_law (x : ℝ) :
    (∀ t > 0, (∀ y, 0 < benesDens t x y) ∧ IsProbabilityMeasure (benesKernel t x) ∧
      benesKernel t x = volume.withDensity (fun y => ENNReal.ofReal (benesDens t x y)) ∧
      ∀ y, HasDerivAt (fun s => benesDens s x y)
        (-deriv (fun z => benesDrift z * benesDens t x z) y + 1 / 2 * deriv (deriv fun z => dispersion1 z ^ 2 * benesDens t x z) y) t) ∧
    ∀ f : ℝ → ℝ, Continuous f → (∃ G, ∀ y, |f y| ≤ G) → Tendsto (fun t => ∫ y, f y ∂benesKernel t x) (𝓝[>] 0) (𝓝 (f x)) := by
  refine ⟨fun t ht => ⟨benesDens_pos ht x, (isMarkov_benesKernel ht).isProbabilityMeasure x, ?_, fun y => ?_⟩,
    fun f hf ⟨G, hG⟩ => benesKernel_initial x hf hG⟩
  · rw [benesKernel, Kernel.withDensity_apply _ (by exact ENNReal.measurable_ofReal.comp (measurable_benesDens t)), Kernel.const_apply]
  · simp only [dispersion1, one_pow, one_mul, benesDrift]
    exact benesDens_forward ht x y

/-- **C153, the moments.** For the Beneš model and any step `dt > 0`, the raw, central and scaled central conditional moments of
`sde_cond_moments_tme` are those of the exact transition law, up to the order of the expansion, and so is the conditional mean if the
order is at least one. -/
theorem C153_benes_moments (dt : ℝ) (hdt : 0 < dt) (order : ℕ) (meanCov : ℝ → ℝ × ℝ) (x c s : ℝ) (k : ℕ) (hk : k ≤ order) :
    let F := sdeCondMomentsTme (expectation benesDrift dispersion1 dt order) meanCov
    F.raw x k = ∫ y, y ^ k ∂benesKernel dt x ∧ F.central x k c = ∫ y, (y - c) ^ k ∂benesKernel dt x ∧
      F.scaled x k c s = ∫ y, ((y - c) / s) ^ k ∂benesKernel dt x ∧ (1 ≤ order → F.mean x = ∫ y, y ∂benesKernel dt x) := by
  intro F
  have d1 : (X ^ k : ℝ[X]).natDegree ≤ order := by rwa [natDegree_X_pow]
  have d2 : ((X - C c) ^ k : ℝ[X]).natDegree ≤ order := by rwa [natDegree_pow, natDegree_X_sub_C, mul_one]
  have d3 : ((C s⁻¹ * (X - C c)) ^ k : ℝ[X]).natDegree ≤ order := by
    refine natDegree_pow_le.trans ?_
    have : (C s⁻¹ * (X - C c)).natDegree ≤ 1 := (natDegree_C_mul_le _ _).trans_eq (natDegree_X_sub_C c)
    nlinarith
  have h1 := expectation_benes hdt order _ d1 x
  have h2 := expectation_benes hdt order _ d2 x
  have h3 := expectation_benes hdt order _ d3 x
  simp only [eval_pow, eval_X, eval_sub, eval_C, eval_mul] at h1 h2 h3
  refine ⟨h1, h2, ?_, fun h => ?_⟩
  · simp only [F, sdeCondMomentsTme, div_eq_inv_mul]
    exact h3
  · have h4 := expectation_benes hdt order X (natDegree_X_le.trans h) x
    simp only [eval_X] at h4
    exact h4

/-- the expansion of order three of the experiment gives the exact third moment. -/
example (meanCov : ℝ → ℝ × ℝ) (x : ℝ) :
    (sdeCondMomentsTme (expectation benesDrift dispersion1 0.01 3) meanCov).raw x 3 = ∫ y, y ^ 3 ∂benesKernel 0.01 x :=
  (C153_benes_moments 0.01 (by norm_num) 3 meanCov x 0 1 3 le_rfl).1

theorem driftD_iter_X (c : ℝ) : ∀ r, (driftD c)^[r] X = if r = 0 then X else if r = 1 then C c else 0
  | 0 => by simp
  | 1 => by
    apply Polynomial.funext
    intro u
    simp [driftD_apply]
  | r + 2 => by
    have h1 : driftD c X = C c := by simp [driftD_apply, smul_eq_C_mul]
    have h2 : driftD c (C c) = 0 := by simp [driftD_apply]
    rw [Function.iterate_add_apply, Function.iterate_succ_apply, Function.iterate_one, h1, h2, ← Module.End.pow_apply, map_zero]
    simp

theorem driftD_iter_sq (c : ℝ) : ∀ r, (driftD c)^[r] (X ^ 2) = if r = 0 then X ^ 2 else if r = 1 then C (2 * c) * X + C 1 else if r = 2 then C (2 * c ^ 2) else 0
  | 0 => by simp
  | 1 => by
    simp only [Function.iterate_one, one_ne_zero, if_false, if_true]
    apply Polynomial.funext
    intro u
    simp [driftD_apply]
    ring
  | 2 => by
    simp only [OfNat.ofNat_ne_zero, OfNat.ofNat_ne_one, if_false, if_true]
    apply Polynomial.funext
    intro u
    simp [driftD_apply]
    ring
  | r + 3 => by
    have h2 : (driftD c)^[2] (X ^ 2) = C (2 * c ^ 2) := driftD_iter_sq c 2
    have h3 : driftD c (C (2 * c ^ 2)) = 0 := by simp only [driftD_apply, derivative_C, smul_zero, add_zero, derivative_zero]
    rw [Function.iterate_add_apply, Function.iterate_succ_apply' _ 2, h2, h3, ← Module.End.pow_apply, map_zero]
    simp

theorem generator_benes_id (r : ℕ) (x : ℝ) : (generator benesDrift dispersion1)^[r] (fun u => u) x
    = if r = 0 then x else if r = 1 then Real.tanh x else 0 := by
  have h := generator_benes_poly X r x
  simp only [eval_X] at h
  rw [h, driftD_iter_X, driftD_iter_X]
  have h1 := pr_add_pl x
  have h2 := pr_sub_pl x
  rcases r with _ | _ | r
  · simp; linear_combination x * h1
  · simp; linear_combination h2
  · simp

theorem generator_benes_sq (r : ℕ) (x : ℝ) : (generator benesDrift dispersion1)^[r] (fun u => u ^ 2) x
    = if r = 0 then x ^ 2 else if r = 1 then 2 * x * Real.tanh x + 1 else if r = 2 then 2 else 0 := by
  have h := generator_benes_poly (X ^ 2) r x
  simp only [eval_X, eval_pow] at h
  rw [h, driftD_iter_sq, driftD_iter_sq]
  have h1 := pr_add_pl x
  have h2 := pr_sub_pl x
  rcases r with _ | _ | _ | r
  · simp; linear_combination x ^ 2 * h1
  · simp; linear_combination h1 + 2 * x * h2
  · simp; linear_combination 2 * h1
  · simp

/-- **C153, mean and variance.** For the Beneš model `tme.mean_and_cov` returns the mean `x + tanh(x) dt` at every order from one, and
the variance `dt` at order one and `dt + (1 - tanh(x)²) dt²` at every order from two; the latter are exactly the mean and the variance
of the transition law. In particular the variance is positive. -/
theorem C153_benes_mean_cov (dt : ℝ) (hdt : 0 < dt) (order : ℕ) (ho : 1 ≤ order) (x : ℝ) :
    Tme.meanCov benesDrift dispersion1 dt order x
        = (x + Real.tanh x * dt, if order = 1 then dt else dt + (1 - Real.tanh x ^ 2) * dt ^ 2) ∧
      x + Real.tanh x * dt = ∫ y, y ∂benesKernel dt x ∧
      dt + (1 - Real.tanh x ^ 2) * dt ^ 2 = ∫ y, (y - ∫ z, z ∂benesKernel dt x) ^ 2 ∂benesKernel dt x := by
  have hE : ∀ M, expectation benesDrift dispersion1 dt (M + 1) (fun u => u) x = x + Real.tanh x * dt := by
    intro M
    rw [expectation, Finset.sum_range_succ', Finset.sum_range_succ', Finset.sum_eq_zero]
    · simp only [generator_benes_id]
      simp
      ring
    · intro r _
      rw [generator_benes_id]
      simp
  have hmean : x + Real.tanh x * dt = ∫ y, y ∂benesKernel dt x := by
    have h := expectation_benes hdt 1 X natDegree_X_le x
    simp only [eval_X] at h
    rw [← h]
    exact (hE 0).symm
  refine ⟨?_, hmean, ?_⟩
  · obtain ⟨M, rfl⟩ : ∃ M, order = M + 1 := ⟨order - 1, by omega⟩
    rw [Tme.meanCov, hE]
    congr 1
    have hr : ∀ r : ℕ, (generator benesDrift dispersion1)^[r + 1] (fun u => u ^ 2) x
        - ∑ s ∈ Finset.range (r + 2), ((r + 1).choose s : ℝ) * (generator benesDrift dispersion1)^[s] (fun u => u) x
          * (generator benesDrift dispersion1)^[r + 1 - s] (fun u => u) x = if r = 0 then 1 else if r = 1 then 2 - 2 * Real.tanh x ^ 2 else 0 := by
      intro r
      simp only [generator_benes_id, generator_benes_sq]
      rcases r with _ | _ | r
      · simp [Finset.sum_range_succ]
        ring
      · simp [Finset.sum_range_succ]
        ring
      · rw [Finset.sum_eq_zero]
        · simp
        · intro s _
          rcases s with _ | _ | s
          · simp
          · simp
          · simp
    simp only [hr]
    rcases M with _ | M
    · simp
    · rw [Finset.sum_range_succ', Finset.sum_range_succ', Finset.sum_eq_zero]
      · simp
        ring
      · intro r _
        simp
  · rw [← hmean]
    have h := expectation_benes hdt 2 ((X - C (x + Real.tanh x * dt)) ^ 2) (by rw [natDegree_pow, natDegree_X_sub_C]) x
    simp only [eval_pow, eval_sub, eval_X, eval_C] at h
    rw [← h, expectation]
    have e : ∀ r, (generator benesDrift dispersion1)^[r] (fun u => (u - (x + Real.tanh x * dt)) ^ 2) x
        = (generator benesDrift dispersion1)^[r] (fun u => u ^ 2) x - 2 * (x + Real.tanh x * dt) * (generator benesDrift dispersion1)^[r] (fun u => u) x
          + (x + Real.tanh x * dt) ^ 2 * (generator benesDrift dispersion1)^[r] (fun _ => 1) x := by
      intro r
      set c := x + Real.tanh x * dt
      have h0 := generator_benes_poly ((X - C c) ^ 2) r x
      have h1 := generator_benes_poly (X ^ 2) r x
      have h2 := generator_benes_poly X r x
      have h3 := generator_benes_poly 1 r x
      simp only [eval_pow, eval_sub, eval_X, eval_C, eval_one] at h0 h1 h2 h3
      rw [h0, h1, h2, h3]
      have e2 : ((X - C c) ^ 2 : ℝ[X]) = X ^ 2 - (2 * c) • X + (c ^ 2) • 1 := by
        rw [smul_eq_C_mul, smul_eq_C_mul, C_mul, C_pow]
        simp only [mul_one, map_ofNat]
        ring
      rw [e2]
      simp only [← Module.End.pow_apply, map_add, map_sub, map_smul, eval_add, eval_sub, eval_smul, smul_eq_mul]
      ring
    have g1 : ∀ r, (generator benesDrift dispersion1)^[r] (fun _ : ℝ => (1 : ℝ)) x = if r = 0 then 1 else 0 := by
      intro r
      rcases r with _ | r
      · simp
      · rw [Function.iterate_succ_apply, generator_const]
        have : ∀ n, (generator benesDrift dispersion1)^[n] (fun _ : ℝ => (0 : ℝ)) = fun _ => 0 := by
          intro n
          induction n with
          | zero => rfl
          | succ n ih => rw [Function.iterate_succ_apply, generator_const, ih]
        rw [this]
        simp
    simp only [e, g1, generator_benes_id, generator_benes_sq, Finset.sum_range_succ, Finset.sum_range_zero]
    simp [Nat.factorial]
    ring

/-- the mean and the variance of the expansion meet the conditions of the convergence theorems. -/
theorem benes_meanCov_props (dt : ℝ) (hdt : 0 < dt) (order : ℕ) (ho : 1 ≤ order) :
    Continuous (Tme.meanCov benesDrift dispersion1 dt order) ∧ (∀ x, dt ≤ (Tme.meanCov benesDrift dispersion1 dt order x).2) ∧
    ∀ x, |(Tme.meanCov benesDrift dispersion1 dt order x).1| ≤ (1 + dt + dt ^ 2) * (1 + |x|) ∧
      (Tme.meanCov benesDrift dispersion1 dt order x).2 ≤ (1 + dt + dt ^ 2) * (1 + |x|) := by
  have e := fun x => (C153_benes_mean_cov dt hdt order ho x).1
  have ht : ∀ x, Real.tanh x ^ 2 ≤ 1 := fun x => (sq_le_one_iff_abs_le_one _).2 (abs_tanh_le x)
  have hc : Continuous Real.tanh := continuous_iff_continuousAt.2 fun x => (hasDerivAt_tanh x).continuousAt
  refine ⟨?_, fun x => ?_, fun x => ?_⟩
  · rw [funext e]
    split_ifs <;> fun_prop
  · rw [e]
    dsimp only
    split_ifs
    · exact le_rfl
    · have := mul_nonneg (sub_nonneg.2 (ht x)) (sq_nonneg dt)
      linarith
  · rw [e]
    dsimp only
    have h0 := abs_nonneg x
    have h1 := sq_nonneg dt
    have h2 := sq_nonneg (Real.tanh x)
    constructor
    · have := mul_le_mul_of_nonneg_right (abs_tanh_le x) hdt.le
      calc |x + Real.tanh x * dt| ≤ |x| + |Real.tanh x| * dt := by
            refine (abs_add_le _ _).trans_eq ?_
            rw [abs_mul, abs_of_pos hdt]
        _ ≤ |x| + 1 * dt := by linarith
        _ ≤ _ := by nlinarith
    · split_ifs
      · nlinarith
      · nlinarith [ht x, mul_nonneg h2 h1]

/-- **C153, the experiment.** The assumptions of C136 and C152 about the package `tme` hold for the Beneš experiment at every order from
one: the errors of the means and of the characteristic functions of the filters with `sde_cond_moments_tme_normal` relative to the exact
filter of the chain that they discretise go to zero as the number of moments grows, and the reference solution of the Chapman–Kolmogorov
filter agrees with them in the limit. -/
theorem C153_benes_experiment (B : Backend) (hB : B.Valid) (stable : Bool) (order : ℕ) (ho : 1 ≤ order) (ys : List Bool) {m : ℕ}
    (zs : Fin (m + 1) → ℝ) (t : ℕ) (ht : t < ys.length) (method : String) (hm : isIn "chapman-tme" method = true)
    (pyInt : String → Option ℤ) (hp : pyInt (lastPart method) = some order) :
    let F := fun N => sdeCondMomentsTmeNormal (expectation benesDrift dispersion1 dt1 order) (Tme.meanCov benesDrift dispersion1 dt1 order) N
    let comps : List Component := [⟨-0.5, 0.05, 0.5⟩, ⟨0.5, 0.05, 0.5⟩]
    ∃ K : Kernel ℝ ℝ, (∀ x, K x = gaussianReal (x + Real.tanh x * 0.01)
        (if order = 1 then 0.01 else 0.01 + (1 - Real.tanh x ^ 2) * 0.01 ^ 2 : ℝ).toNNReal) ∧
    ∀ out : ℕ → List (ℝ × (Fin (m + 1) → ℂ)),
      (out = (fun N => Experiments.postRaw B zs (filterRms B (F N).raw benesBool (init1 N).rms ys stable).1) ∨
        out = fun N => Experiments.postCentral B zs (filterCms B (F N).central (F N).mean benesBool (init1 N).cms (init1 N).mean ys stable).1) →
      let lik := fun (y : Bool) (x : ℝ) => if y then 1 / (1 + Real.exp (-x ^ 3 / 5)) else 1 - 1 / (1 + Real.exp (-x ^ 3 / 5))
      let o := fun N => (out N).getD t (0, fun _ => 0)
      Tendsto (fun N => |(posterior K lik (mixture comps) ys t fun x => x) - (o N).1|) atTop (𝓝 0) ∧
      Tendsto (fun N => Experiments.errSup (fun i => posteriorCf K lik (mixture comps) ys t (zs i)) (o N).2) atTop (𝓝 0) ∧
      ∀ ε > 0, ∃ N₀ : ℕ, ∃ L : ℝ, ∀ N ≥ N₀, ∀ a ≤ -L, ∀ b ≥ L, ∃ h > 0, ∀ (n : ℕ) (xs : Fin (n + 2) → ℝ), Grid a b h xs →
        ∃ p, bruteForceFilter (fun r dt => Tme.meanCov benesDrift dispersion1 dt r.toNat) pyInt benesDrift dispersion1
            (fun y xs i => benesBool y (xs i)) (fun i => (GaussianSum.pdf1 comps (List.ofFn xs)).getD i 0) xs ys dt1 1 method = .ok p ∧
          |trapz (fun i => xs i * p.getD t 0 i) xs - (o N).1| ≤ ε ∧
          Experiments.errSup (fun j => characteristicFromPdf (zs j) (List.ofFn fun i => (xs i, p.getD t 0 i))) (o N).2 ≤ ε := by
  intro F comps
  have hdt : (0 : ℝ) < dt1 := by norm_num [dt1]
  obtain ⟨h1, h2, h3⟩ := benes_meanCov_props dt1 hdt order ho
  refine ⟨normalKernel (fun x => (Tme.meanCov benesDrift dispersion1 dt1 order x).1)
    (fun x => (Tme.meanCov benesDrift dispersion1 dt1 order x).2.toNNReal) h1.measurable.fst h1.measurable.snd.real_toNNReal, fun x => ?_, ?_⟩
  · rw [normalKernel_apply, (C153_benes_mean_cov dt1 hdt order ho x).1]
    rfl
  · intro out hout lik o
    obtain ⟨-, c2, -, -, c5⟩ := C136_benes_errors B hB stable (expectation benesDrift dispersion1 dt1 order)
      (Tme.meanCov benesDrift dispersion1 dt1 order) h1 (fun x => hdt.trans_le (h2 x)) _ h3 ys zs t ht out hout
    refine ⟨c2, c5, ?_⟩
    exact C152_benes_agree B hB stable (expectation benesDrift dispersion1 dt1 order) (fun r dt => Tme.meanCov benesDrift dispersion1 dt r.toNat)
      pyInt method hm order hp h1 dt1 hdt h2 _ h3 ys zs t ht out hout

/-- the default method of the experiment. -/
example : isIn "chapman-tme" "chapman-tme-3" = true ∧ lastPart "chapman-tme-3" = "3" ∧ ∃ B : Backend, B.Valid :=
  ⟨by decide, by decide, _, theBackend_valid⟩

/-- **C154.** For the Beneš model with `sde_cond_moments_tme` at an order of at least `2 N - 1`, the filters run forever and agree
whatever the number `2 N` of moments, the measurements and the step `dt > 0`; and as the number of moments grows they converge to the
exact filter of the continuous-time equation `dX = tanh(X) dt + dW` observed at the times `dt, 2 dt, …`: negative log-likelihood,
moments, means and expectations. No discretisation error remains, in contrast to the Euler scheme and to the normal approximation. -/
theorem C154_benes_exact_filter (B : Backend) (hB : B.Valid) (stable : Bool) (dt : ℝ) (hdt : 0 < dt) (order : ℕ → ℕ)
    (ho : ∀ N, 2 * N ≤ order N + 1) (meanCov : ℝ → ℝ × ℝ) (ys : List Bool) :
    let μ := mixture [⟨-0.5, 0.05, 0.5⟩, ⟨0.5, 0.05, 0.5⟩]
    let lik := fun (y : Bool) (x : ℝ) => if y then 1 / (1 + Real.exp (-x ^ 3 / 5)) else 1 - 1 / (1 + Real.exp (-x ^ 3 / 5))
    let F := fun N => sdeCondMomentsTme (expectation benesDrift dispersion1 dt (order N)) meanCov
    let a := fun N => filterRms B (F N).raw benesBool (init1 N).rms ys stable
    let b := fun N => filterCms B (F N).central (F N).mean benesBool (init1 N).cms (init1 N).mean ys stable
    (∀ N, 2 ≤ N → ∀ l₁ l₂ : Bool, ValidRun B l₁ l₂ benesBool (F N) (init1 N) N ys) ∧
    RawConverges B (benesKernel dt) lik μ ys a ∧ CentralConverges B (benesKernel dt) lik μ ys b := by
  intro μ lik F a b
  have hlik : benesBool = lik := benesBool_eq
  have hmk := isMarkov_benesKernel hdt
  have hgood := goodKernel_benes hdt
  have hF := fun (N : ℕ) x c k (hk : k < 2 * N) => C153_benes_moments dt hdt (order N) meanCov x c 1 k (by have := ho N; omega)
  constructor
  · intro N hN l₁ l₂
    have hint : ∀ x (p : ℝ[X]), Integrable (fun y => p.eval y) (benesKernel dt x) := fun x p => (integral_poly_benes hdt x p).1
    let E : ℝ → ℝ[X] →ₗ[ℝ] ℝ := fun x =>
      { toFun := fun p => ∫ y, p.eval y ∂benesKernel dt x
        map_add' := fun p q => by simp only [eval_add]; exact integral_add (hint x p) (hint x q)
        map_smul' := fun c p => by simp only [eval_smul, smul_eq_mul, integral_const_mul, RingHom.id_apply] }
    have hE : ∀ x p, E x p = ∫ y, p.eval y ∂benesKernel dt x := fun _ _ => rfl
    refine run_valid_of B hB l₁ l₂ benesBool benesBool_pos _ init1_ok.1 init1_ok.2.1 init1_ok.2.2 N hN E (fun x => ?_) (fun x q hq => ?_)
      _ _ _ (fun x k hk => ?_) (fun x c k hk => ?_) (fun x => ?_) ys
    · rw [hE]
      simp
    · rw [hE, (integral_poly_benes hdt x _).2]
      have hv : dt.toNNReal ≠ 0 := by rw [Ne, Real.toNNReal_eq_zero, not_le]; exact hdt
      have h1 := mul_pos (pr_pos x) (gaussL_sq_pos (x + dt) hv q hq)
      have h2 := mul_pos (pl_pos x) (gaussL_sq_pos (x - dt) hv q hq)
      linarith
    · rw [(hF N x 0 k hk).1, hE]
      simp
    · rw [(hF N x c k hk).2.1, hE]
      simp
    · rw [(hF N x 0 0 (by omega)).2.2.2 (by have := ho N; omega), hE]
      simp
  · have := mixture_prob _ init1_ok.1 init1_ok.2.1
    obtain ⟨h0, hr, hc, -⟩ := C133_filters_converge B hB stable (benesKernel dt) hgood.exp hgood.cont hgood.growth hgood.inf μ
      (mixture_expMoments _ init1_ok.1) (mixture_inf _ init1_ok.2.1 init1_ok.2.2) benesBool benesBool_continuous benesBool_pos
      (fun y => ⟨1, benesBool_le y⟩) ys
    obtain ⟨hr1, hr2⟩ := hr _ fun _ _ => rfl
    obtain ⟨hc1, hc2⟩ := hc (fun x k c => ∫ z, (z - c) ^ k ∂benesKernel dt x) (fun x => ∫ z, z ∂benesKernel dt x) (∫ x, x ∂μ) fun _ _ _ => rfl
    have hg := fun (N : ℕ) (hN : 2 ≤ N) => C47_gaussian_sum [⟨-0.5, 0.05, 0.5⟩, ⟨0.5, 0.05, 0.5⟩] init1_ok.1 init1_ok.2.1
      (fun c hc => (init1_ok.2.2 c hc).le) N hN
    rw [← hlik]
    constructor
    · refine RawConverges.congr (a := fun N => filterRms B (fun x k => ∫ z, z ^ k ∂benesKernel dt x) benesBool
        ((List.range (2 * N)).map fun k => ∫ x, x ^ k ∂μ) ys stable) ⟨h0, hr1.comp two_mul_atTop, fun t ht =>
          ⟨fun k => ((hr2 t ht).1 k).comp two_mul_atTop, fun f sort ldl hf hg => ((hr2 t ht).2 f sort ldl hf hg).comp two_mul_atTop⟩⟩ ?_
      filter_upwards [eventually_ge_atTop 2] with N hN
      obtain ⟨-, -, -, hr, -⟩ := hg N hN
      change _ = filterRms B (F N).raw benesBool (GaussianSum1D.new _ N).rms ys stable
      rw [hr]
      exact (filterRms_congr B _ _ benesBool _ ys stable fun x k hk => (hF N x 0 k (by simpa using hk)).1).symm
    · refine CentralConverges.congr (a := fun N => filterCms B (fun x k c => ∫ z, (z - c) ^ k ∂benesKernel dt x) (fun x => ∫ z, z ∂benesKernel dt x)
        benesBool ((List.range (2 * N)).map fun k => ∫ x, (x - ∫ y, y ∂μ) ^ k ∂μ) (∫ x, x ∂μ) ys stable) ⟨h0, hc1.comp two_mul_atTop, fun t ht =>
          ⟨(hc2 t ht).1.comp two_mul_atTop, fun k => ((hc2 t ht).2.1 k).comp two_mul_atTop,
            fun f sort ldl hf hg => ((hc2 t ht).2.2 f sort ldl hf hg).comp two_mul_atTop⟩⟩ ?_
      filter_upwards [eventually_ge_atTop 2] with N hN
      obtain ⟨-, hm, -, -, hc, -⟩ := hg N hN
      change _ = filterCms B (F N).central (F N).mean benesBool (GaussianSum1D.new _ N).cms (GaussianSum1D.new _ N).mean ys stable
      have em : (F N).mean = fun x => ∫ z, z ∂benesKernel dt x :=
        funext fun x => (hF N x 0 0 (by omega)).2.2.2 (by have := ho N; omega)
      rw [hc, hm, em]
      exact (filterCms_congr B _ _ _ benesBool _ _ ys stable fun x c k hk => (hF N x c k (by simpa using hk)).2.1).symm

/-- the hypotheses: the order `2 N`, the step of the experiment. -/
example : (∀ N : ℕ, 2 * N ≤ 2 * N + 1) ∧ (0 : ℝ) < 0.01 ∧ ∃ B : Backend, B.Valid := ⟨fun _ => by omega, by norm_num, _, theBackend_valid⟩

end Mfs.Props

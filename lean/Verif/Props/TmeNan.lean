import Verif.Props.TmeSmooth
import Verif.Props.Tme
import Mathlib.Analysis.Calculus.Deriv.Pow

/-!
# C177: when the objective of the parameter estimation is NaN
-/

namespace Mfs.Props

open Matrix Mfs.Spec Filter Topology Mfs.Quad1 Mfs.Filter1 Mfs.Cont Mfs.Smooth Mfs.Jvp Mfs.Moments1 Mfs.SsModels Polynomial
open scoped ContDiff

variable {B : Backend} {Y : Type} {n : ℕ}

/-- **C177, moments.** `raw_moment_of_normal` is NaN for every negative variance and every order from one on, and a number in all other cases: then the
moment of the normal law if the variance is not negative. -/
theorem C177_moment_nan_iff (mean v : ℝ) (p : ℕ) :
    (TmeNan.rawMoment mean v p = none ↔ v < 0 ∧ 1 ≤ p) ∧
    (0 ≤ v → TmeNan.rawMoment mean v p = some (∫ x, x ^ p ∂ProbabilityTheory.gaussianReal mean v.toNNReal)) := by
  rw [TmeNan.rawMoment_eq]
  refine ⟨by split_ifs with h <;> simp [h], fun hv => ?_⟩
  rw [if_neg fun h => (h.1.trans_le hv).false, ← rawNormal_eq, Real.coe_toNNReal _ hv]

/-- the expansion of order two of the mean and the variance for unit dispersion. -/
theorem meanCov_two (a : ℝ → ℝ) (ha : ContDiff ℝ ∞ a) (dt x : ℝ) :
    (Tme.meanCov a (fun _ => 1) dt 2 x).2 = dt + dt ^ 2 * deriv a x := by
  have d1 : ∀ x, HasDerivAt a (deriv a x) x := fun x => (ha.differentiable (by simp) x).hasDerivAt
  have ha' : ContDiff ℝ ∞ (deriv a) := (contDiff_infty_iff_deriv.1 ha).2
  have d2 : ∀ x, HasDerivAt (deriv a) (deriv (deriv a) x) x := fun x => (ha'.differentiable (by simp) x).hasDerivAt
  have g1 : Tme.generator a (fun _ => 1) (fun u => u) = a := by
    funext x
    simp [Tme.generator]
  have g2 : Tme.generator a (fun _ => 1) (fun u => u ^ 2) = fun x => 2 * x * a x + 1 := by
    funext x
    have e : deriv (fun u : ℝ => u ^ 2) = fun x => 2 * x := by
      funext x
      simp
    rw [Tme.generator, e]
    simp
    ring
  have d3 : ∀ x, HasDerivAt (fun x => 2 * x * a x + 1) (2 * a x + 2 * x * deriv a x) x := fun x => by
    have := ((((hasDerivAt_id x).const_mul 2).mul (d1 x)).add_const 1)
    simpa using this
  have d4 : ∀ x, HasDerivAt (fun x => 2 * a x + 2 * x * deriv a x) (4 * deriv a x + 2 * x * deriv (deriv a) x) x := fun x => by
    have := (((d1 x).const_mul 2).add (((hasDerivAt_id x).const_mul 2).mul (d2 x)))
    refine this.congr_deriv ?_
    simp
    ring
  have g3 : Tme.generator a (fun _ => 1) (fun x => 2 * x * a x + 1) x = a x * (2 * a x + 2 * x * deriv a x) + 1 / 2 * (4 * deriv a x + 2 * x * deriv (deriv a) x) := by
    rw [Tme.generator, funext fun x => (d3 x).deriv, (d4 x).deriv]
    simp
  rw [Tme.meanCov]
  simp only [Finset.sum_range_succ, Finset.sum_range_zero, Function.iterate_succ, Function.iterate_zero, Function.comp_apply, id, g1, g2, g3, Nat.sub_self]
  simp [Tme.generator, Nat.factorial]
  ring

/-- **C177, variance.** For the double-well model, the conditional variance of order two is `dt + dt² (1 - 3 p x²)`: it is negative exactly for
`3 p x² > 1 + 1 / dt`. -/
theorem C177_well_variance (p x : ℝ) :
    (Tme.meanCov (fun x => wellDrift x p) dispersion1 dt1 2 x).2 = dt1 + dt1 ^ 2 * (1 - 3 * p * x ^ 2) ∧
    ((Tme.meanCov (fun x => wellDrift x p) dispersion1 dt1 2 x).2 < 0 ↔ 1 + 1 / dt1 < 3 * p * x ^ 2) := by
  have h1 : (Tme.meanCov (fun x => wellDrift x p) dispersion1 dt1 2 x).2 = dt1 + dt1 ^ 2 * (1 - 3 * p * x ^ 2) := by
    have := meanCov_two (fun x => wellDrift x p) (by unfold wellDrift; fun_prop) dt1 x
    refine this.trans ?_
    have hd : HasDerivAt (fun x => wellDrift x p) (1 - 3 * p * x ^ 2) x := by
      unfold wellDrift
      have := (hasDerivAt_id x).mul ((hasDerivAt_const x (1 : ℝ)).sub (((hasDerivAt_id x).pow 2).const_mul p))
      refine this.congr_deriv ?_
      simp
      ring
    rw [hd.deriv]
  refine ⟨h1, ?_⟩
  rw [h1]
  have hdt : (0 : ℝ) < dt1 := by norm_num [dt1]
  have e : dt1 + dt1 ^ 2 * (1 - 3 * p * x ^ 2) = dt1 ^ 2 * (1 + 1 / dt1 - 3 * p * x ^ 2) := by
    field_simp
    ring
  rw [e]
  constructor
  · intro h
    by_contra h'
    exact absurd h (not_lt.2 (mul_nonneg (sq_nonneg _) (by linarith)))
  · intro h
    exact mul_neg_of_pos_of_neg (by positivity) (by linarith)

/-- **C177, objective.** The objective of `dardel/parameter_estimation/mf.py` without `--euler` is a number exactly when no conditional variance met along the
run is negative. -/
theorem C177_objective_iff (N : ℕ) (hN : 2 ≤ N) (ys : List ℕ) (params : ℝ × ℝ) :
    TmeNan.objWell B N ys params ≠ none ↔ WellVariances (fun v => 0 ≤ v) B N ys (softplus params.1, softplus params.2) := by
  obtain ⟨hl, -⟩ := init1_cms N hN
  set drift := fun x => wellDrift x (softplus params.1) with hdrift
  set P := (sdeCondMomentsTmeNormal (Tme.expectation drift dispersion1 dt1 2) (Tme.meanCov drift dispersion1 dt1 2) N).central with hP
  set cm := Tme.expectation drift dispersion1 dt1 2 fun u => u with hcm
  set pdf := fun (y : ℕ) x => wellPmf y x (softplus params.2) with hpdf
  have hob : TmeNan.objWell B N ys params = TmeNan.nellCms B (TmeNan.central drift dispersion1 dt1 2) cm pdf (init1 N).cms (init1 N).mean ys := rfl
  constructor
  · intro hne
    by_contra hno
    refine hne ?_
    rw [hob]
    refine (TmeNan.nellCms_eq _ _ _ _ _ _).2 fun hfin => hno ?_
    rw [hl] at hfin
    have key : ∀ (ys : List ℕ) (s : List ℝ × ℝ), RunOK (fun s _ => TmeNan.Finite B (TmeNan.central drift dispersion1 dt1 2) cm (2 * N) s)
        (nextCms B false (fun x k c => (TmeNan.central drift dispersion1 dt1 2 x k c).getD 0) cm pdf (2 * N)) s ys →
        RunOK (fun s _ => ∀ i, 0 ≤ (Tme.meanCov drift dispersion1 dt1 2 ((momentQuadrature B s.1 s.2 1 false false).2 i)).2) (nextCms B false P cm pdf (2 * N)) s ys := by
      intro ys
      induction ys with
      | nil => intro s _; trivial
      | cons y ys ih =>
        rintro s ⟨h1, h2⟩
        have hv : ∀ i, 0 ≤ (Tme.meanCov drift dispersion1 dt1 2 ((momentQuadrature B s.1 s.2 1 false false).2 i)).2 := fun i => by
          by_contra hneg
          have h3 := h1 i 1 (by omega)
          rw [TmeNan.central_eq _ _ _ _ N _ 1 (by omega), if_pos ⟨not_le.1 hneg, le_rfl⟩] at h3
          cases h3
        have hpr : predCms B false (fun x k c => (TmeNan.central drift dispersion1 dt1 2 x k c).getD 0) cm (2 * N) s = predCms B false P cm (2 * N) s :=
          TmeNan.predCms_congr cm s fun i k hk c => by
            rw [TmeNan.central_eq _ _ _ _ N _ k hk, if_neg fun h => (h.1.trans_le (hv i)).false]
            rfl
        have hlik : likCms B false (fun x k c => (TmeNan.central drift dispersion1 dt1 2 x k c).getD 0) cm pdf (2 * N) s y = likCms B false P cm pdf (2 * N) s y := by
          rw [likCms, likCms, hpr]
        have hnx : nextCms B false (fun x k c => (TmeNan.central drift dispersion1 dt1 2 x k c).getD 0) cm pdf (2 * N) s y = nextCms B false P cm pdf (2 * N) s y := by
          rw [nextCms, nextCms, hpr, hlik]
        rw [hnx] at h2
        exact ⟨hv, ih _ h2⟩
    exact key ys _ hfin
  · intro hv
    rw [hob, TmeNan.nellCms_of_run (fun x => 0 ≤ (Tme.meanCov drift dispersion1 dt1 2 x).2) _ P cm pdf _ _ (fun x hx k hk c => ?_) ys (by rw [hl]; exact hv)]
    · exact Option.some_ne_none _
    · rw [TmeNan.central_eq _ _ _ _ N x k (by omega), if_neg fun h => (h.1.trans_le hx).false]

/-- **C177, large parameters.** For every order and every non-empty sequence of measurements, the objective is NaN for all sufficiently large first
parameters, whatever the second. -/
theorem C177_nan_large (hB : B.Valid) (N : ℕ) (hN : 2 ≤ N) (ys : List ℕ) (hy : ys ≠ []) :
    ∃ P, ∀ params : ℝ × ℝ, P < params.1 → TmeNan.objWell B N ys params = none := by
  obtain ⟨hl, hpd⟩ := init1_cms N hN
  obtain ⟨j, hj⟩ : ∃ j, (momentQuadrature B (init1 N).cms (init1 N).mean 1 false false).2 j ≠ 0 := by
    by_contra hno
    push Not at hno
    have h1 := (TmeNan.forall_nodes_iff hB _ hl hpd (init1 N).mean 1 false false (fun x => x = 0)).1 hno
    obtain ⟨-, -, hx, -⟩ := nw_spec B hB false (init1 N).cms hl ((gram_posDef_iff hl).1 hpd)
    have h2 := hx.injective (a₁ := ⟨0, by omega⟩) (a₂ := ⟨1, by omega⟩) (by linarith [h1 ⟨0, by omega⟩, h1 ⟨1, by omega⟩])
    simp at h2
  set x := (momentQuadrature B (init1 N).cms (init1 N).mean 1 false false).2 j with hx
  have hx2 : 0 < x ^ 2 := by positivity
  refine ⟨(1 + 1 / dt1) / (3 * x ^ 2), fun params hp => ?_⟩
  by_contra hne
  rw [← Ne, C177_objective_iff N hN] at hne
  obtain ⟨y, ys, rfl⟩ := List.exists_cons_of_ne_nil hy
  have h3 : 0 ≤ (Tme.meanCov (fun x => wellDrift x (softplus params.1)) dispersion1 dt1 2 x).2 := hne.1 j
  rw [← not_lt, (C177_well_variance _ _).2] at h3
  refine h3 ?_
  have h4 : params.1 ≤ softplus params.1 := by
    rw [softplus, Real.le_log_iff_exp_le (by positivity)]
    linarith
  have h5 := hp.trans_le h4
  rw [div_lt_iff₀ (by positivity)] at h5
  calc 1 + 1 / dt1 < softplus params.1 * (3 * x ^ 2) := h5
    _ = 3 * softplus params.1 * x ^ 2 := by ring

/-- **C177, small parameters.** For every order, sequence of measurements and second parameter, all conditional variances are positive, so that the objective
is finite and analytic, for all sufficiently small first parameters. -/
theorem C177_finite_small (hB : B.Valid) (N : ℕ) (hN : 2 ≤ N) (ys : List ℕ) (q : ℝ) :
    ∃ P, ∀ p < P, WellVariances (fun v => 0 < v) B N ys (softplus p, softplus q) := by
  obtain ⟨hl, hpd⟩ := init1_cms N hN
  have hdr : Joint ω (0 : ℝ) fun (p : ℝ) x => wellDrift x p := fun x => (wellDrift_smooth.comp (contDiff_snd.prodMk contDiff_fst)).contDiffAt
  have hdi : Joint ω (0 : ℝ) fun (_ : ℝ) x => dispersion1 x := fun x => contDiffAt_const
  have h := fun x c k hk => (C176_moments (θ := (0 : ℝ)) (Or.inr rfl) _ _ hdr hdi dt1 2 N x c 1 one_pos k).2 hk
  have hdt : (0 : ℝ) < dt1 := by norm_num [dt1]
  have hV0 : ∀ x, 0 < (Tme.meanCov (fun x => wellDrift x 0) dispersion1 dt1 2 x).2 := fun x => by
    rw [(C177_well_variance 0 x).1]
    simp only [mul_zero, zero_mul, sub_zero, mul_one]
    positivity
  have hev := TmeNan.run_eventually (θ := (0 : ℝ)) (r := ω) (n := 2 * N) hB (by omega) (fun p => (sdeCondMomentsTmeNormal (Tme.expectation (fun x => wellDrift x p) dispersion1 dt1 2)
      (Tme.meanCov (fun x => wellDrift x p) dispersion1 dt1 2) N).central) (fun k hk x c => (h x c k hk).2.1)
    (fun p => Tme.expectation (fun x => wellDrift x p) dispersion1 dt1 2 fun u => u) (fun p x => (Tme.meanCov (fun x => wellDrift x p) dispersion1 dt1 2 x).2)
    (fun x => (h x 0 0 (by omega)).2.2.2.1) (fun x => contDiffAt_snd.comp _ (h x 0 0 (by omega)).2.2.2.2)
    (fun x => (Tme.meanCov (fun x => wellDrift x 0) dispersion1 dt1 2 x).1) (fun x hx k hk c => TmeNan.tmeNormal_central _ _ N k hk x c hx.le)
    (fun _ y x => wellPmf y x (softplus q)) (fun y x => wellPmf_pos y x _) ys
    (fun y _ x => ((wellPmf_smooth (r := ω) y).comp (contDiff_snd.prodMk contDiff_const)).contDiffAt) (fun _ => ((init1 N).cms, (init1 N).mean))
    ⟨fun _ => hl, fun _ _ => contDiffAt_const⟩ contDiffAt_const hpd (runOK_of_inv (fun _ => True) (fun s _ _ => ⟨fun i => hV0 _, trivial⟩) ys _ trivial)
  obtain ⟨δ, hδ, hball⟩ := Metric.eventually_nhds_iff.1 hev
  refine ⟨Real.log δ, fun p hp => hball ?_⟩
  have h1 : 0 < softplus p := Real.log_pos (by linarith [Real.exp_pos p])
  have h2 : softplus p ≤ Real.exp p := by
    have := Real.log_le_sub_one_of_pos (show 0 < Real.exp p + 1 by positivity)
    rw [softplus]
    linarith
  rw [Real.dist_eq, sub_zero, abs_of_pos h1]
  exact h2.trans_lt ((Real.lt_log_iff_exp_lt hδ).1 hp)

/-- the hypotheses of `C176_moments`: a drift and a dispersion, analytic in parameter and state. -/
example (θ : ℝ) : Joint ω θ (fun p x => wellDrift x p) ∧ Joint ω θ (fun p x => 1 + p ^ 2 * x) :=
  ⟨fun _ => (wellDrift_smooth.comp (contDiff_snd.prodMk contDiff_fst)).contDiffAt,
    fun _ => ContDiff.contDiffAt (contDiff_const.add ((contDiff_fst.pow 2).mul contDiff_snd))⟩

/-- the hypotheses of `C176_tme_smooth`: valid runs with the moments of the expansion of order one, for Brownian motion. -/
example (ys : List ℝ) :
    let F := sdeCondMomentsTme (Tme.expectation (fun _ => 0) (fun _ => 1) (1 / 10) 1) (Tme.meanCov (fun _ => 0) (fun _ => 1) (1 / 10) 1)
    (RunOK (OkRms theBackend false F.raw (fun y x : ℝ => Real.exp (-(y - x) ^ 2 / 2)) 4)
      (nextRms theBackend false F.raw (fun y x : ℝ => Real.exp (-(y - x) ^ 2 / 2)) 4) (List.ofFn ![1, 0, 1, 0]) ys) ∧
    RunOK (OkCms theBackend false F.central F.mean (fun y x : ℝ => Real.exp (-(y - x) ^ 2 / 2)) 4)
      (nextCms theBackend false F.central F.mean (fun y x : ℝ => Real.exp (-(y - x) ^ 2 / 2)) 4) (List.ofFn ![1, 0, 1, 0], 0) ys := by
  intro F
  have hpd : (gramOf (List.ofFn ![(1 : ℝ), 0, 1, 0])).PosDef := by
    have : List.ofFn ![(1 : ℝ), 0, 1, 0] = [1, 0, 1, 0] := by simp [List.ofFn_succ]
    exact (congrArg (fun l => (gramOf l).PosDef) this).mpr gramOf_example
  have h := C168_runs_valid theBackend_valid false (fun y x : ℝ => Real.exp (-(y - x) ^ 2 / 2)) (fun _ _ => Real.exp_pos _) (n := 4) (by norm_num)
    (fun x => gaussL x ((1 : ℝ) ^ 2 * (1 / 10)).toNNReal) (fun x q hq _ => gaussL_sq_pos _ (by norm_num) q hq) ![1, 0, 1, 0] hpd ys
  have e := fun x c k (hk : k < 4) => C129_tme_exact 1 (1 / 10) (by norm_num) 1 (Tme.meanCov (fun _ => 0) (fun _ => 1) (1 / 10) 1) x c k (by omega)
  refine ⟨h.1 _ fun x k hk => ?_, h.2.1 _ _ (fun x c k hk => ?_) 0⟩
  · rw [gaussL_apply]
    simp only [eval_pow, eval_X]
    exact (e x 0 k hk).1
  · rw [gaussL_apply]
    simp only [eval_pow, eval_sub, eval_X, eval_C]
    exact (e x c k hk).2

/-- the hypotheses of `C176_estimation`, and so of `C176_normal_smooth`, which proves it: parameters at which all variances along the run are positive. -/
example : theBackend.Valid ∧ ∃ p : ℝ, WellVariances (fun v => 0 < v) theBackend 3 [0, 2, 1] (softplus p, softplus 1) := by
  obtain ⟨P, hP⟩ := C177_finite_small theBackend_valid 3 (by norm_num) [0, 2, 1] 1
  exact ⟨theBackend_valid, P - 1, hP _ (by linarith)⟩

/-- a negative variance at an ordinary state: the conditional moments of the double well at `x = 4` for the parameter `3` of the experiments. -/
example : TmeNan.central (fun x => wellDrift x 3) dispersion1 dt1 2 4 1 0 = none := by
  refine (C177_moment_nan_iff _ _ _).1.2 ⟨(C177_well_variance 3 4).2.2 ?_, le_rfl⟩
  norm_num [dt1]

end Mfs.Props

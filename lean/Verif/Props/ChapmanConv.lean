import Verif.Lemmas.ChapmanLim
import Verif.Props.BruteForce
import Verif.Props.CfConverge
import Verif.Props.GaussianSum
import Verif.Props.OuConverge

/-!
# C152: the Chapman methods of the brute-force filter converge to the exact Bayes filter
-/

namespace Mfs.Props

open Mfs.Spec Mfs.BruteForce Mfs.Moments1 Mfs.SsModels Mfs.GridConv MeasureTheory ProbabilityTheory Filter Topology
open scoped NNReal

variable {Y : Type}

/-- The outputs on grids converge to the exact filter of the Markov chain with initial law `μ` and transition kernel `K`. After every
measurement the exact filtering law has a density. The outputs are close to its values at all the points of the grid, and the
trapezoidal integrals of the outputs against a continuous function close to the exact posterior expectation (if that exists), on every
sufficiently fine grid of every sufficiently long interval. -/
def GridConverges (K : Kernel ℝ ℝ) (lik : Y → ℝ → ℝ) (μ : Measure ℝ) (ys : List Y)
    (out : (N : ℕ) → (Fin (N + 2) → ℝ) → Except Err (List (Fin (N + 2) → ℝ))) : Prop :=
  ∃ dens : ℕ → ℝ → ℝ,
    (∀ t < ys.length, Continuous (dens t) ∧ (∀ x, 0 ≤ dens t x) ∧ Integrable (dens t) ∧ ∫ x, dens t x = 1 ∧
      ∀ f : ℝ → ℝ, Integrable (fun x => f x * dens t x) → posterior K lik μ ys t f = ∫ x, f x * dens t x) ∧
    (∀ ε > 0, ∃ L : ℝ, ∀ a ≤ -L, ∀ b ≥ L, ∃ h > 0, ∀ (N : ℕ) (xs : Fin (N + 2) → ℝ), Grid a b h xs →
      ∃ o, out N xs = .ok o ∧ o.length = ys.length ∧ ∀ t < ys.length, ∀ i, |o.getD t 0 i - dens t (xs i)| ≤ ε) ∧
    ∀ t < ys.length, ∀ f : ℝ → ℝ, Continuous f → Integrable (fun x => f x * dens t x) →
      ∀ ε > 0, ∃ L : ℝ, ∀ a ≤ -L, ∀ b ≥ L, ∃ h > 0, ∀ (N : ℕ) (xs : Fin (N + 2) → ℝ), Grid a b h xs →
        ∃ o, out N xs = .ok o ∧ |trapz (fun i => f (xs i) * o.getD t 0 i) xs - posterior K lik μ ys t f| ≤ ε

theorem bfNormPdf_eq {s : ℝ} (hs : s ≠ 0) (x m : ℝ) : normPdf x m s = gaussianPDFReal m (Real.toNNReal (s ^ 2)) x :=
  (C81_ingredients (N := 0) x m s hs (fun _ => 0) 0 0).1

/-- normal transition densities with continuous mean and scale. -/
theorem transDens_normal {m s : ℝ → ℝ} (hm : Continuous m) (hs : Continuous s) {c : ℝ} (hc : 0 < c) (hsc : ∀ u, c ≤ s u ^ 2) :
    TransDens (fun x u => normPdf x (m u) (s u)) (Real.exp (-Real.log (2 * Real.pi * c) / 2)) := by
  have hs0 : ∀ u, s u ≠ 0 := fun u h => by
    have := hsc u
    rw [h] at this
    norm_num at this
    linarith
  have hv : ∀ u, Real.toNNReal (s u ^ 2) ≠ 0 := fun u => by
    have := hs0 u
    rw [Ne, Real.toNNReal_eq_zero, not_le]
    positivity
  refine ⟨?_, fun x u => (Real.exp_pos _).le, fun x u => ?_, fun u => ?_, fun u => ?_⟩
  · simp only [Function.uncurry_def, normPdf]
    refine Real.continuous_exp.comp ((Continuous.neg (Continuous.add ?_ ?_)).div_const 2)
    · refine Continuous.log (by fun_prop) fun p => ?_
      have := hs0 p.2
      positivity
    · exact ((continuous_fst.sub (hm.comp continuous_snd)).pow 2).div ((hs.comp continuous_snd).pow 2) fun p => pow_ne_zero 2 (hs0 p.2)
  · rw [normPdf, Real.exp_le_exp]
    have h1 : Real.log (2 * Real.pi * c) ≤ Real.log (2 * Real.pi * s u ^ 2) :=
      Real.log_le_log (by positivity) (mul_le_mul_of_nonneg_left (hsc u) (by positivity))
    have h2 : 0 ≤ (x - m u) ^ 2 / s u ^ 2 := by positivity
    linarith
  · simp only [bfNormPdf_eq (hs0 u)]
    exact integrable_gaussianPDFReal _ _
  · simp only [bfNormPdf_eq (hs0 u)]
    exact integral_gaussianPDFReal_eq_one _ (hv u)

theorem wd_normal {s : ℝ} (hs : s ≠ 0) (m : ℝ) : wd (fun x => normPdf x m s) = gaussianReal m (Real.toNNReal (s ^ 2)) := by
  rw [gaussianReal_of_var_ne_zero]
  · rw [wd]
    refine congrArg _ (funext fun x => ?_)
    rw [bfNormPdf_eq hs, gaussianPDF]
  · rw [Ne, Real.toNNReal_eq_zero, not_le]
    positivity

section core
variable {m s : ℝ → ℝ} {C : ℝ} {lik : Y → ℝ → ℝ} {p : ℝ → ℝ}

theorem posterior_dn (hk : TransDens (fun x u => normPdf x (m u) (s u)) C) (K : Kernel ℝ ℝ) [IsMarkovKernel K]
    (hK : ∀ u, K u = wd fun x => normPdf x (m u) (s u)) (hlc : ∀ y, Continuous (lik y)) (hl0 : ∀ y x, 0 < lik y x)
    (hlb : ∀ y, ∃ M, ∀ x, lik y x ≤ M) (steps : ℕ) (hp : Close (fun _ => p) p) (hp1 : 0 < ∫ x, p x) (ys : List Y) (t : ℕ) (f : ℝ → ℝ)
    (hf : Integrable fun x => f x * dn m s lik steps p ys t x) :
    posterior (iterK K steps) lik (wd p) ys t f = ∫ x, f x * dn m s lik steps p ys t x := by
  have hpos := run_pos hk hlc hl0 hlb steps hp hp1 (ys.take (t + 1))
  have hcl := close_run hk hlc (fun y x => (hl0 y x).le) hlb steps hp (ys.take (t + 1))
  have hfi' : Integrable fun x => un m s lik steps p (ys.take (t + 1)) x * f x := by
    refine (hf.mul_const (∫ x, un m s lik steps p (ys.take (t + 1)) x)).congr (Eventually.of_forall fun x => ?_)
    simp only [dn]
    field_simp
  have h1 := (run_markovE hk K hK hlc (fun y x => (hl0 y x).le) hlb steps hp (ys.take (t + 1)) f hfi').2
  have h2 := (run_markovE hk K hK hlc (fun y x => (hl0 y x).le) hlb steps hp (ys.take (t + 1)) (fun _ => 1) (by simpa using hcl.int)).2
  rw [posterior, h1, h2]
  simp only [mul_one, dn, ← mul_div_assoc]
  rw [integral_div]
  congr 1
  exact integral_congr_ae (Eventually.of_forall fun x => mul_comm _ _)

theorem gridConverges_core (hm : Continuous m) (hs : Continuous s) {c : ℝ} (hc : 0 < c) (hsc : ∀ u, c ≤ s u ^ 2) (K : Kernel ℝ ℝ)
    [IsMarkovKernel K] (hK : ∀ u, K u = gaussianReal (m u) (Real.toNNReal (s u ^ 2))) (hlc : ∀ y, Continuous (lik y)) (hl0 : ∀ y x, 0 < lik y x)
    (hlb : ∀ y, ∃ M, ∀ x, lik y x ≤ M) (steps : ℕ) (hpc : Continuous p) (hp0 : ∀ x, 0 ≤ p x) (hpi : ∫ x, p x = 1) (hpb : ∃ D, ∀ x, p x ≤ D)
    (ys : List Y) (out : (N : ℕ) → (Fin (N + 2) → ℝ) → Except Err (List (Fin (N + 2) → ℝ)))
    (hout : ∀ N xs, out N xs = .ok (scan (updateBody (predChapman (fun i => m (xs i)) (fun i => s (xs i)) xs steps)
      (fun y xs i => lik y (xs i)) xs) (fun i => p (xs i)) ys).2) :
    GridConverges (iterK K steps) lik (volume.withDensity fun x => ENNReal.ofReal (p x)) ys out := by
  have hk := transDens_normal hm hs hc hsc
  have hs0 : ∀ u, s u ≠ 0 := fun u h => by
    have := hsc u
    rw [h] at this
    norm_num at this
    linarith
  have hK' : ∀ u, K u = wd fun x => normPdf x (m u) (s u) := fun u => by rw [wd_normal (hs0 u), hK]
  have hint : Integrable p := by
    by_contra h
    rw [integral_undef h] at hpi
    exact zero_ne_one hpi
  have hp : Close (fun _ => p) p := close_self hpc hp0 hint hpb
  have hp1 : 0 < ∫ x, p x := by rw [hpi]; exact one_pos
  refine ⟨dn m s lik steps p ys, fun t ht => ?_, fun ε hε => ?_, fun t ht f hf hfi ε hε => ?_⟩
  · have hpos := run_pos hk hlc hl0 hlb steps hp hp1 (ys.take (t + 1))
    have hcl := close_run hk hlc (fun y x => (hl0 y x).le) hlb steps hp (ys.take (t + 1))
    refine ⟨hcl.cont.div_const _, fun x => div_nonneg (hcl.pos x) hpos.le, hcl.int.div_const _, ?_, fun f hf => ?_⟩
    · simp only [dn]
      rw [integral_div, div_self hpos.ne']
    · exact posterior_dn hk K hK' hlc hl0 hlb steps hp hp1 ys t f hf
  · obtain ⟨L, hL⟩ := exists_long_fine (scan_unif hk hlc hl0 hlb steps hp hp1 ys hε)
    refine ⟨L, fun a ha b hb => ?_⟩
    obtain ⟨h, hh, H⟩ := hL a ha b hb
    exact ⟨h, hh, fun N xs hg => ⟨_, hout N xs, length_scan_out _ _ _, H N xs hg⟩⟩
  · obtain ⟨L, hL⟩ := exists_long_fine (scan_test hk hlc hl0 hlb steps hp hp1 ys ht hf hfi hε)
    refine ⟨L, fun a ha b hb => ?_⟩
    obtain ⟨h, hh, H⟩ := hL a ha b hb
    refine ⟨h, hh, fun N xs hg => ⟨_, hout N xs, ?_⟩⟩
    have e := posterior_dn hk K hK' hlc hl0 hlb steps hp hp1 ys t f hfi
    rw [wd] at e
    rw [e]
    exact H N xs hg

end core

/-- **C152, `chapman-euler`.** -/
theorem C152_chapman_euler (tmeMeanCov : ℤ → ℝ → ℝ → ℝ × ℝ) (pyInt : String → Option ℤ) (drift dispersion : ℝ → ℝ) (hdc : Continuous drift)
    (hsc : Continuous dispersion) (c : ℝ) (hc : 0 < c) (hs : ∀ x, c ≤ |dispersion x|) (dt : ℝ) (hdt : 0 < dt) (steps : ℕ) (hst : 0 < steps)
    (lik : Y → ℝ → ℝ) (hlc : ∀ y, Continuous (lik y)) (hl0 : ∀ y x, 0 < lik y x) (hlb : ∀ y, ∃ M, ∀ x, lik y x ≤ M)
    (p : ℝ → ℝ) (hpc : Continuous p) (hp0 : ∀ x, 0 ≤ p x) (hp1 : ∫ x, p x = 1) (hpb : ∃ D, ∀ x, p x ≤ D) (ys : List Y) :
    let K := normalKernel (fun x => x + drift x * (dt / steps)) (fun x => (dispersion x ^ 2 * (dt / steps)).toNNReal) (by fun_prop) (by fun_prop)
    GridConverges (iterK K steps) lik (volume.withDensity fun x => ENNReal.ofReal (p x)) ys fun _ xs =>
      bruteForceFilter tmeMeanCov pyInt drift dispersion (fun y xs i => lik y (xs i)) (fun i => p (xs i)) xs ys dt steps "chapman-euler" := by
  intro K
  have hst' : (0 : ℝ) < steps := by exact_mod_cast hst
  have hdd : 0 < dt / steps := div_pos hdt hst'
  have hsq : ∀ u, (dispersion u * Real.sqrt (dt / steps)) ^ 2 = dispersion u ^ 2 * (dt / steps) := fun u => by
    rw [mul_pow, Real.sq_sqrt hdd.le]
  refine gridConverges_core (m := fun x => x + drift x * (dt / steps)) (s := fun x => dispersion x * Real.sqrt (dt / steps))
    (by fun_prop) (by fun_prop) (c := c ^ 2 * (dt / steps)) (by positivity) (fun u => ?_) K (fun u => ?_) hlc hl0 hlb steps hpc hp0 hp1 hpb ys
    _ (fun N xs => ?_)
  · rw [hsq]
    refine mul_le_mul_of_nonneg_right ?_ hdd.le
    rw [← sq_abs (dispersion u)]
    exact pow_le_pow_left₀ hc.le (hs u) 2
  · rw [hsq]
    rfl
  · have e1 : isIn "chapman" "chapman-euler" = true := by decide
    simp [bruteForceFilter, chooseTransition, choosePrediction, e1]

/-- **C152, `chapman-tme`.** The mean and the variance of the package `tme` are assumed continuous and the variance bounded from below. -/
theorem C152_chapman_tme (tmeMeanCov : ℤ → ℝ → ℝ → ℝ × ℝ) (pyInt : String → Option ℤ) (drift dispersion : ℝ → ℝ) (dt : ℝ) (steps : ℕ)
    (method : String) (hm : isIn "chapman-tme" method = true) (order : ℤ) (ho : pyInt (lastPart method) = some order)
    (htc : Continuous (tmeMeanCov order (dt / steps))) (c : ℝ) (hc : 0 < c) (hv : ∀ x, c ≤ (tmeMeanCov order (dt / steps) x).2)
    (lik : Y → ℝ → ℝ) (hlc : ∀ y, Continuous (lik y)) (hl0 : ∀ y x, 0 < lik y x) (hlb : ∀ y, ∃ M, ∀ x, lik y x ≤ M)
    (p : ℝ → ℝ) (hpc : Continuous p) (hp0 : ∀ x, 0 ≤ p x) (hp1 : ∫ x, p x = 1) (hpb : ∃ D, ∀ x, p x ≤ D) (ys : List Y) :
    let K := normalKernel (fun x => (tmeMeanCov order (dt / steps) x).1) (fun x => (tmeMeanCov order (dt / steps) x).2.toNNReal)
      (by fun_prop) (by fun_prop)
    GridConverges (iterK K steps) lik (volume.withDensity fun x => ENNReal.ofReal (p x)) ys fun _ xs =>
      bruteForceFilter tmeMeanCov pyInt drift dispersion (fun y xs i => lik y (xs i)) (fun i => p (xs i)) xs ys dt steps method := by
  intro K
  have hsq : ∀ u, Real.sqrt (tmeMeanCov order (dt / steps) u).2 ^ 2 = (tmeMeanCov order (dt / steps) u).2 := fun u =>
    Real.sq_sqrt (hc.le.trans (hv u))
  refine gridConverges_core (m := fun x => (tmeMeanCov order (dt / steps) x).1) (s := fun x => Real.sqrt (tmeMeanCov order (dt / steps) x).2)
    (by fun_prop) (by fun_prop) (c := c) hc (fun u => by rw [hsq]; exact hv u) K (fun u => by rw [hsq]; rfl) hlc hl0 hlb steps hpc hp0 hp1 hpb ys
    _ (fun N xs => ?_)
  have e1 : method ≠ "chapman-euler" := by rintro rfl; revert hm; decide
  have e2 : method ≠ "kolmogorov" := by rintro rfl; revert hm; decide
  have e3 : isIn "chapman" method = true := isIn_trans (by decide) hm
  simp [bruteForceFilter, chooseTransition, choosePrediction, e1, e2, e3, hm, ho]

/-! ## The reference solution of the Beneš–Bernoulli experiment -/

theorem integrable_w2_normal {s : ℝ} (hs : s ≠ 0) (m : ℝ) :
    Integrable (fun x => normPdf x m s * (1 + x ^ 2)) ∧ ∫ x, normPdf x m s * (1 + x ^ 2) = 1 + s ^ 2 + m ^ 2 := by
  have hc : Measurable fun x => normPdf x m s := by unfold normPdf; fun_prop
  have h0 : ∀ x, 0 ≤ normPdf x m s := fun x => (Real.exp_pos _).le
  have hi : Integrable (fun x : ℝ => x ^ 2) (gaussianReal m (Real.toNNReal (s ^ 2))) := integrable_pow_gaussianReal _ _ 2
  rw [← integrable_wd hc h0, ← integral_wd hc h0, wd_normal hs]
  refine ⟨(integrable_const 1).add hi, ?_⟩
  rw [integral_add (integrable_const 1) hi]
  have := integral_sub_sq_gaussian m 0 (sq_nonneg s)
  simp only [sub_zero] at this
  rw [this]
  simp
  ring

/-- finite second moments are preserved by a transition. -/
theorem op_w2 {m s : ℝ → ℝ} {C : ℝ} (hk : TransDens (fun x u => normPdf x (m u) (s u)) C) (hs0 : ∀ u, s u ≠ 0) {b : ℝ}
    (hb : ∀ u, 1 + s u ^ 2 + m u ^ 2 ≤ b * (1 + u ^ 2)) {f : ℝ → ℝ} (hf : Continuous f)
    (hi : Integrable fun x => (1 + x ^ 2) * f x) : Integrable fun x => (1 + x ^ 2) * op (fun x u => normPdf x (m u) (s u)) volume f x := by
  have hcont : Continuous fun z : ℝ × ℝ => normPdf z.1 (m z.2) (s z.2) * (1 + z.1 ^ 2) * f z.2 :=
    (hk.cont.mul (by fun_prop)).mul (hf.comp continuous_snd)
  have hnn : ∀ x u, 0 ≤ normPdf x (m u) (s u) * (1 + x ^ 2) := fun x u => mul_nonneg (hk.nonneg x u) (by positivity)
  have hbig : Integrable (fun z : ℝ × ℝ => normPdf z.1 (m z.2) (s z.2) * (1 + z.1 ^ 2) * f z.2) (volume.prod volume) := by
    rw [integrable_prod_iff' hcont.aestronglyMeasurable]
    refine ⟨Eventually.of_forall fun u => (integrable_w2_normal (hs0 u) (m u)).1.mul_const (f u), ?_⟩
    have e : (fun u => ∫ x, ‖normPdf x (m u) (s u) * (1 + x ^ 2) * f u‖) = fun u => (1 + s u ^ 2 + m u ^ 2) * ‖f u‖ := by
      funext u
      simp only [norm_mul _ (f u), Real.norm_of_nonneg (hnn _ u)]
      rw [integral_mul_const, (integrable_w2_normal (hs0 u) (m u)).2]
    rw [e]
    refine (hi.norm.const_mul b).mono' (AEStronglyMeasurable.mul ?_ hf.norm.aestronglyMeasurable) (Eventually.of_forall fun u => ?_)
    · have : (fun u => 1 + s u ^ 2 + m u ^ 2) = fun u => ∫ x, normPdf x (m u) (s u) * (1 + x ^ 2) :=
        funext fun u => ((integrable_w2_normal (hs0 u) (m u)).2).symm
      rw [this]
      have h2 : Continuous fun z : ℝ × ℝ => normPdf z.2 (m z.1) (s z.1) * (1 + z.2 ^ 2) :=
        (hk.cont.comp continuous_swap).mul (by fun_prop)
      exact h2.aestronglyMeasurable.integral_prod_right'
    · rw [norm_mul, norm_norm, norm_mul, Real.norm_of_nonneg (show 0 ≤ 1 + s u ^ 2 + m u ^ 2 by positivity),
        Real.norm_of_nonneg (show 0 ≤ 1 + u ^ 2 by positivity), ← mul_assoc]
      exact mul_le_mul_of_nonneg_right (hb u) (norm_nonneg _)
  refine hbig.integral_prod_left.congr (Eventually.of_forall fun x => ?_)
  simp only [op]
  rw [← integral_const_mul]
  exact integral_congr_ae (Eventually.of_forall fun u => by beta_reduce; ring)

theorem run_w2 {m s : ℝ → ℝ} {C : ℝ} (hk : TransDens (fun x u => normPdf x (m u) (s u)) C) (hs0 : ∀ u, s u ≠ 0) {b : ℝ}
    (hb : ∀ u, 1 + s u ^ 2 + m u ^ 2 ≤ b * (1 + u ^ 2)) {lik : Y → ℝ → ℝ} (hlc : ∀ y, Continuous (lik y)) (hl0 : ∀ y x, 0 < lik y x)
    (hlb : ∀ y, ∃ M, ∀ x, lik y x ≤ M) (steps : ℕ) {p : ℝ → ℝ} {A : ℝ × ℝ → ℝ → ℝ} (hp : Close A p) (hi : Integrable fun x => (1 + x ^ 2) * p x) (ys : List Y) :
    Integrable fun x => (1 + x ^ 2) * un m s lik steps p ys x := by
  induction ys generalizing p A with
  | nil => exact hi
  | cons y ys ih =>
    obtain ⟨M, hM⟩ := hlb y
    have hit : ∀ n, Integrable fun x => (1 + x ^ 2) * (op (fun x u => normPdf x (m u) (s u)) volume)^[n] p x := by
      intro n
      induction n with
      | zero => exact hi
      | succ n ih2 =>
        simp only [Function.iterate_succ_apply']
        exact op_w2 hk hs0 hb (hp.iterate hk n).cont ih2
    simp only [un, run_cons]
    refine ih ((hp.iterate hk steps).mul (hlc y) (fun x => (hl0 y x).le) hM) ?_
    refine ((hit steps).bdd_mul (c := M) (hlc y).aestronglyMeasurable (Eventually.of_forall fun x => ?_)).congr (Eventually.of_forall fun x => ?_)
    · rw [Real.norm_of_nonneg (hl0 y x).le]
      exact hM x
    · beta_reduce
      ring

theorem trapzC_ofFn {N : ℕ} (xs : Fin (N + 2) → ℝ) (w : Fin (N + 2) → ℂ) :
    trapzC (List.ofFn fun i => (xs i, w i)) = ∑ i : Fin (N + 1), ((xs i.succ - xs i.castSucc : ℝ) : ℂ) * (w i.succ + w i.castSucc) / 2 := by
  induction N with
  | zero => simp [List.ofFn_succ, trapzC, add_comm]
  | succ N ih =>
    rw [List.ofFn_succ, Fin.sum_univ_succ]
    have h := ih (fun i => xs i.succ) (fun i => w i.succ)
    rw [List.ofFn_succ] at h ⊢
    rw [trapzC, h]
    simp
    left
    ring

theorem characteristicFromPdf_ofFn {N : ℕ} (z : ℝ) (xs ps : Fin (N + 2) → ℝ) :
    characteristicFromPdf z (List.ofFn fun i => (xs i, ps i))
      = ⟨trapz (fun i => Real.cos (z * xs i) * ps i) xs, trapz (fun i => Real.sin (z * xs i) * ps i) xs⟩ := by
  have h : ∀ x w : ℝ, Complex.exp (Complex.I * z * x) * w = ⟨Real.cos (z * x) * w, Real.sin (z * x) * w⟩ := by
    intro x w
    have : Complex.I * z * x = ((z * x : ℝ) : ℂ) * Complex.I := by push_cast; ring
    rw [this]
    generalize z * x = u
    apply Complex.ext <;> simp [Complex.exp_ofReal_mul_I_re, Complex.exp_ofReal_mul_I_im]
  rw [characteristicFromPdf, List.map_ofFn]
  have e : ((fun q : ℝ × ℝ => (q.1, Complex.exp (Complex.I * z * q.1) * q.2)) ∘ fun i => (xs i, ps i))
      = fun i => (xs i, (⟨Real.cos (z * xs i) * ps i, Real.sin (z * xs i) * ps i⟩ : ℂ)) := by
    funext i
    simp only [Function.comp, h]
  rw [e, trapzC_ofFn]
  apply Complex.ext
  · rw [Complex.re_sum]
    refine Finset.sum_congr rfl fun i _ => ?_
    rw [show (2 : ℂ) = ((2 : ℝ) : ℂ) by norm_num, Complex.div_ofReal_re, Complex.re_ofReal_mul]
    rfl
  · rw [Complex.im_sum]
    refine Finset.sum_congr rfl fun i _ => ?_
    rw [show (2 : ℂ) = ((2 : ℝ) : ℂ) by norm_num, Complex.div_ofReal_im, Complex.im_ofReal_mul]
    rfl

/-- the density of a Gaussian sum as a function. -/
theorem pdf1_props (comps : List Component) (hw : ∀ c ∈ comps, 0 ≤ c.weight) (h1 : (comps.map (·.weight)).sum = 1)
    (hv : ∀ c ∈ comps, 0 < c.variance) :
    let p := fun x => (GaussianSum.pdf1 comps [x]).getD 0 0
    Continuous p ∧ (∀ x, 0 ≤ p x) ∧ ∫ x, p x = 1 ∧ (∃ D, ∀ x, p x ≤ D) ∧ (volume.withDensity fun x => ENNReal.ofReal (p x)) = mixture comps ∧
    (Integrable fun x => (1 + x ^ 2) * p x) ∧
    ∀ {N : ℕ} (xs : Fin (N + 2) → ℝ) (i : Fin (N + 2)), (GaussianSum.pdf1 comps (List.ofFn xs)).getD i 0 = p (xs i) := by
  intro p
  obtain ⟨ha, hb, hc, -⟩ := C102_gaussian_sum_density comps hw h1
  obtain ⟨hmix, hone, -⟩ := hc hv
  have hp : p = fun x => (comps.map fun c => GaussianSum.normPdf x c.mean (Real.sqrt c.variance) * c.weight).sum := by
    funext x
    simp [p, GaussianSum.pdf1]
  have hcont : Continuous p := by
    rw [hp]
    clear hp hmix hone hc ha hb p h1 hw hv
    induction comps with
    | nil => simpa using continuous_const
    | cons c cs ih =>
      simp only [List.map_cons, List.sum_cons]
      refine Continuous.add ?_ ih
      unfold GaussianSum.normPdf
      fun_prop
  have hnn : ∀ x, 0 ≤ p x := fun x => (hb [x]).2 _ (by simp [p, GaussianSum.pdf1])
  refine ⟨hcont, hnn, hone, ?_, hmix.symm, ?_, fun xs i => ?_⟩
  · rw [hp]
    clear hp hmix hone hc ha hb hcont hnn p h1
    induction comps with
    | nil => exact ⟨0, fun x => by simp⟩
    | cons c cs ih =>
      obtain ⟨D, hD⟩ := ih (fun c' hc' => hw c' (List.mem_cons_of_mem _ hc')) (fun c' hc' => hv c' (List.mem_cons_of_mem _ hc'))
      refine ⟨Real.exp (-Real.log (2 * Real.pi * Real.sqrt c.variance ^ 2) / 2) * c.weight + D, fun x => ?_⟩
      simp only [List.map_cons, List.sum_cons]
      refine add_le_add (mul_le_mul_of_nonneg_right ?_ (hw c (by simp))) (hD x)
      rw [GaussianSum.normPdf, Real.exp_le_exp]
      have : 0 ≤ (x - c.mean) ^ 2 / Real.sqrt c.variance ^ 2 := by positivity
      linarith
  · have hm : mixture comps = wd p := hmix
    have h2 : Integrable (fun x : ℝ => 1 + x ^ 2) (mixture comps) :=
      (integral_mixture comps hw (fun x => 1 + x ^ 2) fun m v => (integrable_const 1).add (integrable_pow_gaussianReal m v 2)).1
    rw [hm, integrable_wd hcont.measurable hnn] at h2
    exact h2.congr (Eventually.of_forall fun x => mul_comm _ _)
  · have hi : (i : ℕ) < (List.ofFn xs).length := by rw [List.length_ofFn]; exact i.2
    rw [ha (List.ofFn xs) i hi, List.getD_eq_getElem _ _ hi, List.getElem_ofFn]

/-- posterior expectations of continuous functions of at most quadratic growth. -/
theorem gridConverges_quadratic {m s : ℝ → ℝ} (hm : Continuous m) (hs : Continuous s) {c : ℝ} (hc : 0 < c) (hsc : ∀ u, c ≤ s u ^ 2) {b : ℝ}
    (hb : ∀ u, 1 + s u ^ 2 + m u ^ 2 ≤ b * (1 + u ^ 2)) (K : Kernel ℝ ℝ) [IsMarkovKernel K]
    (hK : ∀ u, K u = gaussianReal (m u) (Real.toNNReal (s u ^ 2))) {lik : Y → ℝ → ℝ} (hlc : ∀ y, Continuous (lik y)) (hl0 : ∀ y x, 0 < lik y x)
    (hlb : ∀ y, ∃ M, ∀ x, lik y x ≤ M) (steps : ℕ) (comps : List Component) (hw : ∀ c ∈ comps, 0 ≤ c.weight)
    (h1 : (comps.map (·.weight)).sum = 1) (hv : ∀ c ∈ comps, 0 < c.variance) (ys : List Y)
    (out : (N : ℕ) → (Fin (N + 2) → ℝ) → Except Err (List (Fin (N + 2) → ℝ)))
    (hout : ∀ N xs, out N xs = .ok (scan (updateBody (predChapman (fun i => m (xs i)) (fun i => s (xs i)) xs steps)
      (fun y xs i => lik y (xs i)) xs) (fun i => (GaussianSum.pdf1 comps [xs i]).getD 0 0) ys).2)
    (f : ℝ → ℝ) (hf : Continuous f) (D : ℝ) (hfD : ∀ x, |f x| ≤ D * (1 + x ^ 2)) (t : ℕ) (ht : t < ys.length) (ε : ℝ) (hε : 0 < ε) :
    ∀ᶠ ab in long, ∀ᶠ g in fine ab.1 ab.2, ∃ o, out g.1 g.2 = .ok o ∧ o.length = ys.length ∧
      |trapz (fun i => f (g.2 i) * o.getD t 0 i) g.2 - posterior (iterK K steps) lik (mixture comps) ys t f| ≤ ε := by
  obtain ⟨q1, q2, q3, q4, q5, q6, -⟩ := pdf1_props comps hw h1 hv
  set p := fun x => (GaussianSum.pdf1 comps [x]).getD 0 0 with hpdef
  have hk := transDens_normal hm hs hc hsc
  have hs0 : ∀ u, s u ≠ 0 := fun u h => by
    have := hsc u
    rw [h] at this
    norm_num at this
    linarith
  have hK' : ∀ u, K u = wd fun x => normPdf x (m u) (s u) := fun u => by rw [wd_normal (hs0 u), hK]
  have hint : Integrable p := by
    by_contra h
    rw [integral_undef h] at q3
    exact zero_ne_one q3
  have hp : Close (fun _ => p) p := close_self q1 q2 hint q4
  have hp1 : 0 < ∫ x, p x := by rw [q3]; exact one_pos
  have hcl := close_run hk hlc (fun y x => (hl0 y x).le) hlb steps hp (ys.take (t + 1))
  have hfi : Integrable fun x => f x * dn m s lik steps p ys t x := by
    have h2 := run_w2 hk hs0 hb hlc hl0 hlb steps hp q6 (ys.take (t + 1))
    have h3 : Integrable fun x => f x * un m s lik steps p (ys.take (t + 1)) x := by
      refine (h2.const_mul D).mono' (hf.mul hcl.cont).aestronglyMeasurable (Eventually.of_forall fun x => ?_)
      rw [norm_mul, Real.norm_eq_abs, Real.norm_of_nonneg (hcl.pos x), ← mul_assoc]
      exact mul_le_mul_of_nonneg_right (hfD x) (hcl.pos x)
    refine (h3.div_const (∫ x, un m s lik steps p (ys.take (t + 1)) x)).congr (Eventually.of_forall fun x => ?_)
    simp only [dn, mul_div_assoc]
  have e := posterior_dn hk K hK' hlc hl0 hlb steps hp hp1 ys t f hfi
  rw [wd, q5] at e
  rw [e]
  filter_upwards [scan_test hk hlc hl0 hlb steps hp hp1 ys ht hf hfi hε] with ab h
  filter_upwards [h] with g hg
  exact ⟨_, hout g.1 g.2, length_scan_out _ _ _, hg⟩

/-- **C152, Beneš–Bernoulli.** The reference solution of the Beneš–Bernoulli experiment, computed by `brute_force_filter` with a method
`chapman-tme-…` and post-processed by `np.trapz` and `characteristic_from_pdf`: provided that the mean and the variance computed by the
package `tme` are continuous and grow at most linearly and the variance is bounded from below, the means and the characteristic
functions at all the times and on all the arguments tend to those of the exact filter of the chain with `integration_steps` normal
transitions between two measurements. -/
theorem C152_benes_reference (tmeMeanCov : ℤ → ℝ → ℝ → ℝ × ℝ) (pyInt : String → Option ℤ) (steps : ℕ)
    (method : String) (hm : isIn "chapman-tme" method = true) (order : ℤ) (ho : pyInt (lastPart method) = some order)
    (htc : Continuous (tmeMeanCov order (0.01 / steps))) (c : ℝ) (hc : 0 < c) (hv : ∀ x, c ≤ (tmeMeanCov order (0.01 / steps) x).2) (A : ℝ)
    (hA : ∀ x, |(tmeMeanCov order (0.01 / steps) x).1| ≤ A * (1 + |x|) ∧ (tmeMeanCov order (0.01 / steps) x).2 ≤ A * (1 + |x|))
    (ys : List Bool) {M : ℕ} (zs : Fin M → ℝ) :
    let K := normalKernel (fun x => (tmeMeanCov order (0.01 / steps) x).1) (fun x => (tmeMeanCov order (0.01 / steps) x).2.toNNReal)
      (by fun_prop) (by fun_prop)
    let comps : List Component := [⟨-0.5, 0.05, 0.5⟩, ⟨0.5, 0.05, 0.5⟩]
    let lik := fun (y : Bool) (x : ℝ) => if y then 1 / (1 + Real.exp (-x ^ 3 / 5)) else 1 - 1 / (1 + Real.exp (-x ^ 3 / 5))
    ∀ ε > 0, ∃ L : ℝ, ∀ a ≤ -L, ∀ b ≥ L, ∃ h > 0, ∀ (N : ℕ) (xs : Fin (N + 2) → ℝ), Grid a b h xs →
      ∃ o, bruteForceFilter tmeMeanCov pyInt benesDrift dispersion1 (fun y xs i => benesBool y (xs i))
          (fun i => (GaussianSum.pdf1 comps (List.ofFn xs)).getD i 0) xs ys dt1 steps method = .ok o ∧ o.length = ys.length ∧
        ∀ t < ys.length,
          |trapz (fun i => xs i * o.getD t 0 i) xs - posterior (iterK K steps) lik (mixture comps) ys t fun x => x| ≤ ε ∧
          ∀ j, ‖characteristicFromPdf (zs j) (List.ofFn fun i => (xs i, o.getD t 0 i))
            - posteriorCf (iterK K steps) lik (mixture comps) ys t (zs j)‖ ≤ ε := by
  intro K comps lik ε hε
  have hlik : benesBool = lik := benesBool_eq
  rw [show dt1 = 0.01 from rfl]
  have hA0 : 0 ≤ A := by
    have := (abs_nonneg _).trans (hA 0).1
    simpa using this
  have hsq : ∀ u, Real.sqrt (tmeMeanCov order (0.01 / steps) u).2 ^ 2 = (tmeMeanCov order (0.01 / steps) u).2 := fun u =>
    Real.sq_sqrt (hc.le.trans (hv u))
  obtain ⟨w1, w2, w3⟩ := (init1_ok : (∀ c ∈ comps, 0 ≤ c.weight) ∧ (comps.map (·.weight)).sum = 1 ∧ ∀ c ∈ comps, 0 < c.variance)
  obtain ⟨-, -, -, -, -, -, q7⟩ := pdf1_props comps w1 w2 w3
  set out : (N : ℕ) → (Fin (N + 2) → ℝ) → Except Err (List (Fin (N + 2) → ℝ)) := fun N xs =>
    bruteForceFilter tmeMeanCov pyInt benesDrift dispersion1 (fun y xs i => benesBool y (xs i))
          (fun i => (GaussianSum.pdf1 comps (List.ofFn xs)).getD i 0) xs ys 0.01 steps method with hout
  have key := gridConverges_quadratic (m := fun x => (tmeMeanCov order (0.01 / steps) x).1)
    (s := fun x => Real.sqrt (tmeMeanCov order (0.01 / steps) x).2) (by fun_prop) (by fun_prop) hc (fun u => by rw [hsq]; exact hv u)
    (b := 1 + 2 * A + 2 * A ^ 2) (fun u => by
      rw [hsq]
      obtain ⟨h1, h2⟩ := hA u
      have h3 : (tmeMeanCov order (0.01 / steps) u).1 ^ 2 ≤ (A * (1 + |u|)) ^ 2 := by
        rw [← sq_abs]
        exact pow_le_pow_left₀ (abs_nonneg _) h1 2
      have h4 : |u| ^ 2 = u ^ 2 := sq_abs u
      have h5 : 0 ≤ (1 - |u|) ^ 2 := sq_nonneg _
      have h6 : A * (1 + |u|) ≤ 2 * A * (1 + u ^ 2) := by nlinarith
      have h7 : (A * (1 + |u|)) ^ 2 ≤ 2 * A ^ 2 * (1 + u ^ 2) := by
        have : (1 + |u|) ^ 2 ≤ 2 * (1 + u ^ 2) := by nlinarith
        rw [mul_pow]
        nlinarith [sq_nonneg A]
      nlinarith [sq_nonneg u])
    K (fun u => by rw [hsq]; rfl) (lik := benesBool) benesBool_continuous benesBool_pos (fun y => ⟨1, benesBool_le y⟩) steps comps w1 w2 w3 ys out
    (fun N xs => by
      have e1 : method ≠ "chapman-euler" := by rintro rfl; revert hm; decide
      have e2 : method ≠ "kolmogorov" := by rintro rfl; revert hm; decide
      have e3 : isIn "chapman" method = true := isIn_trans (by decide) hm
      simp only [hout, q7]
      simp [bruteForceFilter, chooseTransition, choosePrediction, e1, e2, e3, hm, ho])
  rw [hlik] at key
  have hcos : ∀ z x : ℝ, |Real.cos (z * x)| ≤ 1 * (1 + x ^ 2) := fun z x => by
    have := Real.abs_cos_le_one (z * x)
    have := sq_nonneg x
    linarith
  have hsin : ∀ z x : ℝ, |Real.sin (z * x)| ≤ 1 * (1 + x ^ 2) := fun z x => by
    have := Real.abs_sin_le_one (z * x)
    have := sq_nonneg x
    linarith
  have hid : ∀ x : ℝ, |x| ≤ 1 * (1 + x ^ 2) := fun x => by
    have h4 : |x| ^ 2 = x ^ 2 := sq_abs x
    nlinarith [sq_nonneg (1 - |x|)]
  have all : ∀ᶠ ab in long, ∀ᶠ g in fine ab.1 ab.2, ∃ o, out g.1 g.2 = .ok o ∧ o.length = ys.length ∧ ∀ t < ys.length,
      |trapz (fun i => g.2 i * o.getD t 0 i) g.2 - posterior (iterK K steps) lik (mixture comps) ys t fun x => x| ≤ ε ∧
      ∀ j, |trapz (fun i => Real.cos (zs j * g.2 i) * o.getD t 0 i) g.2
          - posterior (iterK K steps) lik (mixture comps) ys t fun x => Real.cos (zs j * x)| ≤ ε / 2 ∧
        |trapz (fun i => Real.sin (zs j * g.2 i) * o.getD t 0 i) g.2
          - posterior (iterK K steps) lik (mixture comps) ys t fun x => Real.sin (zs j * x)| ≤ ε / 2 := by
    have k1 := eventually_all_long (Finset.range ys.length) fun t ht => key (fun x => x) continuous_id 1 hid t (Finset.mem_range.1 ht) ε hε
    have k2 := eventually_all_long (Finset.range ys.length ×ˢ (Finset.univ : Finset (Fin M))) fun t ht =>
      key (fun x => Real.cos (zs t.2 * x)) (by fun_prop) 1 (hcos (zs t.2)) t.1 (Finset.mem_range.1 (Finset.mem_product.1 ht).1) (ε / 2) (half_pos hε)
    have k3 := eventually_all_long (Finset.range ys.length ×ˢ (Finset.univ : Finset (Fin M))) fun t ht =>
      key (fun x => Real.sin (zs t.2 * x)) (by fun_prop) 1 (hsin (zs t.2)) t.1 (Finset.mem_range.1 (Finset.mem_product.1 ht).1) (ε / 2) (half_pos hε)
    have k0 : ∀ᶠ ab in long, ∀ᶠ g in fine ab.1 ab.2, ∃ o, out g.1 g.2 = .ok o ∧ o.length = ys.length := by
      refine Eventually.of_forall fun ab => Eventually.of_forall fun g => ?_
      have e1 : method ≠ "chapman-euler" := by rintro rfl; revert hm; decide
      have e2 : method ≠ "kolmogorov" := by rintro rfl; revert hm; decide
      have e3 : isIn "chapman" method = true := isIn_trans (by decide) hm
      simp [hout, bruteForceFilter, chooseTransition, choosePrediction, e1, e2, e3, hm, ho, length_scan_out]
    filter_upwards [k0, k1, k2, k3] with ab k0 k1 k2 k3
    filter_upwards [k0, k1, k2, k3] with g k0 k1 k2 k3
    obtain ⟨o, ho1, ho2⟩ := k0
    refine ⟨o, ho1, ho2, fun t ht => ⟨?_, fun j => ⟨?_, ?_⟩⟩⟩
    · obtain ⟨o', h1, -, h3⟩ := k1 t (Finset.mem_range.2 ht)
      rw [ho1] at h1
      rw [Except.ok.inj h1]
      exact h3
    · obtain ⟨o', h1, -, h3⟩ := k2 (t, j) (Finset.mem_product.2 ⟨Finset.mem_range.2 ht, Finset.mem_univ j⟩)
      rw [ho1] at h1
      rw [Except.ok.inj h1]
      exact h3
    · obtain ⟨o', h1, -, h3⟩ := k3 (t, j) (Finset.mem_product.2 ⟨Finset.mem_range.2 ht, Finset.mem_univ j⟩)
      rw [ho1] at h1
      rw [Except.ok.inj h1]
      exact h3
  obtain ⟨L, hL⟩ := exists_long_fine all
  refine ⟨L, fun a ha b hb => ?_⟩
  obtain ⟨h, hh, H⟩ := hL a ha b hb
  refine ⟨h, hh, fun N xs hg => ?_⟩
  obtain ⟨o, h1, h2, h3⟩ := H N xs hg
  refine ⟨o, h1, h2, fun t ht => ⟨(h3 t ht).1, fun j => ?_⟩⟩
  obtain ⟨c1, c2⟩ := (h3 t ht).2 j
  rw [characteristicFromPdf_ofFn, posteriorCf]
  refine (Complex.norm_le_abs_re_add_abs_im _).trans ?_
  rw [Complex.sub_re, Complex.sub_im]
  simp only at c1 c2 ⊢
  linarith

/-- **C152, the experiment.** In the Beneš–Bernoulli experiment with `--normal`, with one integration step and the same order of the
Taylor moment expansion in the two filters: the errors reported by `compute_errs.py`, between the brute-force reference and the moment
filter, are as small as one wishes for all large `N` on every sufficiently fine grid of every sufficiently long interval. -/
theorem C152_benes_agree (B : Backend) (hB : B.Valid) (stable : Bool) (expect : (ℝ → ℝ) → ℝ → ℝ) (tmeMeanCov : ℤ → ℝ → ℝ → ℝ × ℝ)
    (pyInt : String → Option ℤ) (method : String) (hm : isIn "chapman-tme" method = true) (order : ℤ)
    (ho : pyInt (lastPart method) = some order) (htc : Continuous (tmeMeanCov order 0.01)) (c : ℝ) (hc : 0 < c)
    (hv : ∀ x, c ≤ (tmeMeanCov order 0.01 x).2) (A : ℝ)
    (hA : ∀ x, |(tmeMeanCov order 0.01 x).1| ≤ A * (1 + |x|) ∧ (tmeMeanCov order 0.01 x).2 ≤ A * (1 + |x|))
    (ys : List Bool) {m : ℕ} (zs : Fin (m + 1) → ℝ) (t : ℕ) (ht : t < ys.length) :
    let F := fun N => sdeCondMomentsTmeNormal expect (tmeMeanCov order 0.01) N
    let comps : List Component := [⟨-0.5, 0.05, 0.5⟩, ⟨0.5, 0.05, 0.5⟩]
    ∀ out : ℕ → List (ℝ × (Fin (m + 1) → ℂ)),
      (out = (fun N => Experiments.postRaw B zs (Filter1.filterRms B (F N).raw benesBool (init1 N).rms ys stable).1) ∨
        out = fun N => Experiments.postCentral B zs (Filter1.filterCms B (F N).central (F N).mean benesBool (init1 N).cms (init1 N).mean ys stable).1) →
      ∀ ε > 0, ∃ N₀ : ℕ, ∃ L : ℝ, ∀ N ≥ N₀, ∀ a ≤ -L, ∀ b ≥ L, ∃ h > 0, ∀ (n : ℕ) (xs : Fin (n + 2) → ℝ), Grid a b h xs →
        ∃ o, bruteForceFilter tmeMeanCov pyInt benesDrift dispersion1 (fun y xs i => benesBool y (xs i))
            (fun i => (GaussianSum.pdf1 comps (List.ofFn xs)).getD i 0) xs ys dt1 1 method = .ok o ∧
          |trapz (fun i => xs i * o.getD t 0 i) xs - ((out N).getD t (0, fun _ => 0)).1| ≤ ε ∧
          Experiments.errSup (fun j => characteristicFromPdf (zs j) (List.ofFn fun i => (xs i, o.getD t 0 i)))
            ((out N).getD t (0, fun _ => 0)).2 ≤ ε := by
  intro F comps out hout ε hε
  have e1 : (0.01 / ((1 : ℕ) : ℝ) : ℝ) = 0.01 := by norm_num
  have ref := C152_benes_reference tmeMeanCov pyInt 1 method hm order ho (by rw [e1]; exact htc) c hc (by rw [e1]; exact hv) A
    (by rw [e1]; exact hA) ys zs
  simp only [e1] at ref
  have hK1 : ∀ K : Kernel ℝ ℝ, iterK K 1 = K := fun K => by
    rw [iterK, iterK]
    exact Kernel.comp_id K
  simp only [hK1] at ref
  obtain ⟨-, g1, -, -, g4⟩ := C136_benes_errors B hB stable expect (tmeMeanCov order 0.01) htc (fun x => hc.trans_le (hv x)) A hA ys zs t ht out hout
  obtain ⟨L, hL⟩ := ref (ε / 2) (half_pos hε)
  obtain ⟨N₀, hN₀⟩ := eventually_atTop.1 ((g1.eventually_le_const (half_pos hε)).and (g4.eventually_le_const (half_pos hε)))
  refine ⟨N₀, L, fun N hN a ha b hb => ?_⟩
  obtain ⟨h, hh, H⟩ := hL a ha b hb
  refine ⟨h, hh, fun n xs hg => ?_⟩
  obtain ⟨o, h1, -, h3⟩ := H n xs hg
  obtain ⟨h4, h5⟩ := h3 t ht
  obtain ⟨h6, h7⟩ := hN₀ N hN
  refine ⟨o, h1, ?_, ?_⟩
  · refine (abs_sub_le _ _ _).trans ((add_le_add h4 h6).trans ?_)
    linarith
  · refine Finset.sup'_le _ _ fun j _ => ?_
    have h8 := (Finset.le_sup' (fun i => ‖_ - ((out N).getD t (0, fun _ => 0)).2 i‖) (Finset.mem_univ j)).trans h7
    refine (norm_sub_le_norm_sub_add_norm_sub _ _ _).trans ((add_le_add (h5 j) h8).trans ?_)
    linarith

/-! ## The hypotheses hold -/

/-- fine grids exist on every interval. -/
example (a b h : ℝ) (hab : a ≤ b) (hh : 0 < h) : ∃ (N : ℕ) (xs : Fin (N + 2) → ℝ), Grid a b h xs := by
  obtain ⟨N, hN⟩ := exists_nat_gt ((b - a) / h)
  have hN1 : (0 : ℝ) < N + 1 := by positivity
  refine ⟨N, fun i => a + (b - a) * i / (N + 1), fun i j hij => ?_, by simp, ?_, fun i => ?_⟩
  · have : ((i : ℕ) : ℝ) ≤ (j : ℕ) := by exact_mod_cast hij
    have h2 : 0 ≤ b - a := sub_nonneg.2 hab
    gcongr
  · simp only [Fin.val_last]
    push_cast
    field_simp
    ring
  · simp only [Fin.val_succ, Fin.val_castSucc]
    push_cast
    have e : a + (b - a) * ((i : ℕ) + 1) / (N + 1) - (a + (b - a) * (i : ℕ) / (N + 1)) = (b - a) / (N + 1) := by ring
    rw [e, div_le_iff₀ hN1]
    rw [div_lt_iff₀ hh] at hN
    nlinarith

/-- the Beneš model with the method `chapman-tme-1`, for the first-order expansion of the mean and the variance. -/
example : isIn "chapman-tme" "chapman-tme-1" = true ∧ lastPart "chapman-tme-1" = "1" ∧
    Continuous (fun x : ℝ => (x + benesDrift x * (0.01 / (100 : ℕ)), (0.01 / (100 : ℕ) : ℝ))) ∧
    (∀ x : ℝ, |x + benesDrift x * (0.01 / (100 : ℕ))| ≤ 2 * (1 + |x|) ∧ (0.01 / (100 : ℕ) : ℝ) ≤ 2 * (1 + |x|)) := by
  refine ⟨by decide, by decide, ?_, fun x => ⟨?_, ?_⟩⟩
  · have := contDiff_benesDrift.continuous
    fun_prop
  · have h1 := abs_tanh_le x
    have h2 := abs_add_le x (benesDrift x * (0.01 / (100 : ℕ)))
    have h3 : |benesDrift x * (0.01 / (100 : ℕ))| ≤ 1 := by
      rw [benesDrift, abs_mul, abs_of_pos (by norm_num : (0 : ℝ) < 0.01 / (100 : ℕ))]
      norm_num
      linarith
    linarith [abs_nonneg x]
  · norm_num
    linarith [abs_nonneg x]

/-- the Euler method for the Beneš model, ten sub-steps, the Gaussian sum of the library as initial density. -/
example (tmeMeanCov : ℤ → ℝ → ℝ → ℝ × ℝ) (pyInt : String → Option ℤ) (ys : List Bool) :
    ∃ (K : Kernel ℝ ℝ) (p : ℝ → ℝ), GridConverges (iterK K 10) benesBool (volume.withDensity fun x => ENNReal.ofReal (p x)) ys fun _ xs =>
      bruteForceFilter tmeMeanCov pyInt benesDrift dispersion1 (fun y xs i => benesBool y (xs i)) (fun i => p (xs i)) xs ys dt1 10 "chapman-euler" := by
  obtain ⟨q1, q2, q3, q4, -⟩ := pdf1_props _ init1_ok.1 init1_ok.2.1 init1_ok.2.2
  exact ⟨_, _, C152_chapman_euler tmeMeanCov pyInt benesDrift dispersion1 contDiff_benesDrift.continuous continuous_const 1 one_pos
    (fun x => by simp [dispersion1]) dt1 (by norm_num [dt1]) 10 (by norm_num) benesBool benesBool_continuous benesBool_pos
    (fun y => ⟨1, benesBool_le y⟩) _ q1 q2 q3 q4 ys⟩

end Mfs.Props

import Verif.Model.Trajectory
import Verif.Lemmas.WeakPaths
import Verif.Lemmas.WeakPathLaw
import Verif.Props.Utils
import Verif.Props.BenesTme
import Mathlib.MeasureTheory.Measure.GiryMonad

/-!
# C206: simulated trajectories of the Beneš model converge to the solution of the stochastic differential equation
-/

namespace Mfs.Props

open Mfs.Spec Mfs.SmoothB Mfs.Benes Mfs.SsModels Mfs.Utils Mfs.WeakPath MeasureTheory ProbabilityTheory Filter Topology
open scoped NNReal

/-! ## the simulated path as a function of the increments -/

/-- the state after a row of increments. -/
noncomputable def foldPath (m v : ℝ → ℝ) : (n : ℕ) → ℝ → (Fin n → ℝ) → ℝ
  | 0, x, _ => x
  | n + 1, x, w => foldPath m v n (m x + √(v x) * w 0) (Fin.tail w)

/-- the states at the observed times. -/
noncomputable def simPath (m v : ℝ → ℝ) (n : ℕ) : (T : ℕ) → ℝ → (Fin T → Fin n → ℝ) → Fin T → ℝ
  | 0, _, _ => Fin.elim0
  | T + 1, x, z => Fin.cons (foldPath m v n x (z 0)) (simPath m v n T (foldPath m v n x (z 0)) (Fin.tail z))

theorem foldl_eq_foldPath (m v : ℝ → ℝ) (n : ℕ) (x : ℝ) (w : Fin n → ℝ) : (List.ofFn w).foldl (fun x z => m x + √(v x) * z) x = foldPath m v n x w := by
  induction n generalizing x with
  | zero => simp [foldPath]
  | succ n ih => rw [List.ofFn_succ, List.foldl_cons, foldPath]; exact ih _ _

theorem traj_eq_simPath (m v : ℝ → ℝ) (n T : ℕ) (x : ℝ) (z : Fin T → Fin n → ℝ) :
    traj (fun x (inc : List ℝ) => inc.foldl (fun x z => m x + √(v x) * z) x) x (List.ofFn fun t => List.ofFn (z t)) = List.ofFn (simPath m v n T x z) := by
  induction T generalizing x with
  | zero => simp [traj]
  | succ T ih =>
    rw [List.ofFn_succ, traj, foldl_eq_foldPath, ih, List.ofFn_succ (f := simPath m v n (T + 1) x z)]
    rfl

theorem integrationBody_scalar (B : Backend) (hB : B.Valid) (m v : ℝ → ℝ → ℝ) (h : ℝ) (hv : ∀ x, 0 < v x h) (x inc : Fin 1 → ℝ) :
    integrationBody B (fun x h => ((fun _ => m (x 0) h : Fin 1 → ℝ), Matrix.of fun _ _ => v (x 0) h)) h false x inc = fun _ => m (x 0) h + √(v (x 0) h) * inc 0 := by
  have e : (Matrix.of fun _ _ => v (x 0) h : Matrix (Fin 1) (Fin 1) ℝ) = Matrix.diagonal fun _ => v (x 0) h := by
    ext i j
    rw [Subsingleton.elim i j, Matrix.diagonal_apply_eq, Matrix.of_apply]
  rw [integrationBody]
  simp only [Bool.false_eq_true, if_false, e, chol_diagonal B hB (fun _ => v (x 0) h) fun _ => hv _]
  funext i
  rw [Subsingleton.elim i 0]
  simp [Matrix.mulVec, dotProduct, Matrix.diagonal]

theorem trajectory1_eq (B : Backend) (hB : B.Valid) (m v : ℝ → ℝ → ℝ) (x0 dt : ℝ) {n T : ℕ} (hv : ∀ x, 0 < v x (dt / n)) (z : Fin T → Fin n → ℝ) :
    trajectory1 B m v x0 dt (List.ofFn fun t => List.ofFn (z t)) n = List.ofFn (simPath (fun x => m x (dt / n)) (fun x => v x (dt / n)) n T x0 z) := by
  rw [← traj_eq_simPath, trajectory1, simulateSde_eq]
  generalize (List.ofFn fun t => List.ofFn (z t)) = l
  have hfold : ∀ (inc : List ℝ) (x : ℝ), (inc.map fun z (_ : Fin 1) => z).foldl
      (integrationBody B (fun x h => ((fun _ => m (x 0) h : Fin 1 → ℝ), Matrix.of fun _ _ => v (x 0) h)) (dt / n) false) (fun _ => x)
      = fun _ => inc.foldl (fun x z => m x (dt / n) + √(v x (dt / n)) * z) x := by
    intro inc
    induction inc with
    | nil => intro x; rfl
    | cons a inc ih =>
      intro x
      rw [List.map_cons, List.foldl_cons, integrationBody_scalar B hB m v _ hv, ih, List.foldl_cons]
  induction l generalizing x0 with
  | nil => rfl
  | cons a l ih =>
    rw [List.map_cons, traj, traj, hfold, List.map_cons, ih]

theorem measurable_foldPath {m v : ℝ → ℝ} (hm : Measurable m) (hv : Measurable v) (n : ℕ) : Measurable fun p : ℝ × (Fin n → ℝ) => foldPath m v n p.1 p.2 := by
  induction n with
  | zero => exact measurable_fst
  | succ n ih =>
    have h0 : Measurable fun p : ℝ × (Fin (n + 1) → ℝ) => p.2 0 := (measurable_pi_apply 0).comp measurable_snd
    have h1 : Measurable fun p : ℝ × (Fin (n + 1) → ℝ) => Fin.tail p.2 := measurable_pi_lambda _ fun i => (measurable_pi_apply i.succ).comp measurable_snd
    exact ih.comp (((measurable_step hm hv).comp (measurable_fst.prodMk h0)).prodMk h1)

theorem measurable_simPath {m v : ℝ → ℝ} (hm : Measurable m) (hv : Measurable v) (n T : ℕ) :
    Measurable fun p : ℝ × (Fin T → Fin n → ℝ) => simPath m v n T p.1 p.2 := by
  induction T with
  | zero => exact measurable_const
  | succ T ih =>
    have h0 : Measurable fun p : ℝ × (Fin (T + 1) → Fin n → ℝ) => p.2 0 := (measurable_pi_apply 0).comp measurable_snd
    have h1 : Measurable fun p : ℝ × (Fin (T + 1) → Fin n → ℝ) => Fin.tail p.2 := measurable_pi_lambda _ fun i => (measurable_pi_apply i.succ).comp measurable_snd
    have hy := (measurable_foldPath hm hv n).comp (measurable_fst.prodMk h0)
    exact (measurable_finCons T).comp (hy.prodMk (ih.comp (hy.prodMk h1)))

/-- splitting the first variable off. -/
theorem integral_pi_cons {X : Type} [MeasurableSpace X] (ν : Measure X) [IsProbabilityMeasure ν] (T : ℕ) {φ : (Fin (T + 1) → X) → ℝ} (hφ : Measurable φ) {b : ℝ}
    (hb : ∀ x, |φ x| ≤ b) : ∫ x, φ x ∂(Measure.pi fun _ : Fin (T + 1) => ν) = ∫ k, ∫ x, φ (Fin.cons k x) ∂(Measure.pi fun _ : Fin T => ν) ∂ν := by
  have hmp := (measurePreserving_piFinSuccAbove (fun _ : Fin (T + 1) => ν) 0).symm
  have e : ∀ p : X × (Fin T → X), (MeasurableEquiv.piFinSuccAbove (fun _ : Fin (T + 1) => X) 0).symm p = Fin.cons p.1 p.2 := fun p => Fin.insertNth_zero' p.1 p.2
  rw [← hmp.integral_comp' φ]
  simp only [e]
  exact integral_prod (μ := ν) (ν := Measure.pi fun _ : Fin T => ν) (fun p => φ (Fin.cons p.1 p.2))
    (Integrable.of_bound (C := b) (hφ.comp (measurable_finCons T)).aestronglyMeasurable (Eventually.of_forall fun p => hb _))

theorem integral_foldPath {m v : ℝ → ℝ} (hm : Measurable m) (hv : Measurable v) {g : ℝ → ℝ} (hg : Measurable g) {b : ℝ} (hb : ∀ x, |g x| ≤ b) (n : ℕ) (x : ℝ) :
    ∫ w, g (foldPath m v n x w) ∂(Measure.pi fun _ : Fin n => gaussianReal 0 1) = (qop m v)^[n] g x := by
  induction n generalizing x with
  | zero => simp [foldPath]
  | succ n ih =>
    rw [integral_pi_cons _ n (φ := fun w => g (foldPath m v (n + 1) x w)) (hg.comp ((measurable_foldPath hm hv (n + 1)).comp measurable_prodMk_left)) fun w => hb _,
      Function.iterate_succ_apply']
    refine integral_congr_ae (Eventually.of_forall fun k => ?_)
    simp only [foldPath, Fin.cons_zero, Fin.tail_cons]
    exact ih _

theorem integral_simPath {m v : ℝ → ℝ} (hm : Measurable m) (hv : Measurable v) (n T : ℕ) (f : Fin T → ℝ → ℝ) (hf : ∀ t, Measurable (f t)) {b : ℝ} (hb1 : 1 ≤ b)
    (hb : ∀ t x, |f t x| ≤ b) (x : ℝ) : ∫ z, ∏ t, f t (simPath m v n T x z t) ∂(Measure.pi fun _ : Fin T => Measure.pi fun _ : Fin n => gaussianReal 0 1)
      = qpath m v n T f x := by
  have hbp : ∀ (T : ℕ) (f : Fin T → ℝ → ℝ), (∀ t x, |f t x| ≤ b) → ∀ y : Fin T → ℝ, |∏ t, f t (y t)| ≤ b ^ T := by
    intro T f hb y
    rw [Finset.abs_prod]
    exact (Finset.prod_le_prod (fun t _ => abs_nonneg _) fun t _ => hb t (y t)).trans_eq (by simp)
  induction T generalizing x with
  | zero => simp [qpath]
  | succ T ih =>
    have hpm : Measurable fun y : Fin (T + 1) → ℝ => ∏ t, f t (y t) := Finset.measurable_fun_prod _ fun t _ => (hf t).comp (measurable_pi_apply t)
    have hmq := qpath_meas hm hv n T (Fin.tail f) fun t => hf t.succ
    have hbq := qpath_bound (m := m) (v := v) n T (Fin.tail f) hb1 fun t => hb t.succ
    rw [integral_pi_cons _ T (φ := fun z => ∏ t, f t (simPath m v n (T + 1) x z t)) (hpm.comp ((measurable_simPath hm hv n (T + 1)).comp measurable_prodMk_left))
      fun z => hbp (T + 1) f hb _]
    show _ = (qop m v)^[n] (fun y => f 0 y * qpath m v n T (Fin.tail f) y) x
    have hmf : Measurable fun y => f 0 y * qpath m v n T (Fin.tail f) y := (hf 0).mul hmq
    rw [← integral_foldPath hm hv hmf (b := b * b ^ T) (fun y => by
      rw [abs_mul]; exact mul_le_mul (hb 0 y) (hbq y) (abs_nonneg _) (by linarith)) n x]
    refine integral_congr_ae (Eventually.of_forall fun k => ?_)
    simp only [simPath, Fin.prod_univ_succ, Fin.cons_zero, Fin.cons_succ, Fin.tail_cons]
    rw [integral_const_mul]
    congr 1
    exact ih (Fin.tail f) (fun t => hf t.succ) (fun t => hb t.succ) _

/-! ## C206 -/

/-- **C206 (Chapman–Kolmogorov).** The transition laws of the Beneš equation over consecutive times compose, so that the law of the state does not depend on the grid of
intermediate times. -/
theorem C206_semigroup {s t : ℝ} (hs : 0 < s) (ht : 0 < t) : benesKernel t ∘ₖ benesKernel s = benesKernel (s + t) := benesKernel_comp hs ht

/-- **C206 (paths).** `simulate_sde` on the Beneš equation with any conditional mean and variance that are right to first order in the step: for every initial law,
the law of the whole simulated trajectory converges weakly to that of the solution of the equation at the observed times, as the number of integration steps grows. -/
theorem C206_paths (B : Backend) (hB : B.Valid) (m v : ℝ → ℝ → ℝ) (hm : ∀ h, Measurable fun x => m x h) (hv : ∀ h, Measurable fun x => v x h) {C : ℝ}
    (hmC : ∀ x h, 0 < h → h ≤ 1 → |m x h - x - h * Real.tanh x| ≤ C * h ^ 2) (hvC : ∀ x h, 0 < h → h ≤ 1 → |v x h - h| ≤ C * h ^ 2)
    (hv0 : ∀ x h, 0 < h → h ≤ 1 → 0 < v x h) {dt : ℝ} (hdt : 0 < dt) (T : ℕ) (ρ : Measure ℝ) [IsProbabilityMeasure ρ] {F : (Fin T → ℝ) → ℝ} (hF : Continuous F)
    (hb : ∃ b, ∀ x, |F x| ≤ b) :
    Tendsto (fun n : ℕ => ∫ p, F (fun t => (trajectory1 B m v p.1 dt (List.ofFn fun t => List.ofFn (p.2 t)) n).getD t 0)
        ∂(ρ.prod (Measure.pi fun _ : Fin T => Measure.pi fun _ : Fin n => gaussianReal 0 1)))
      atTop (𝓝 (∫ x, F x ∂(ρ.bind (pathKernel (benesKernel dt) T)))) := by
  have hC : 0 ≤ C := by
    have := hmC 0 1 one_pos le_rfl
    have := abs_nonneg (m 0 1 - 0 - 1 * Real.tanh 0)
    linarith
  have hMk := isMarkov_benesKernel hdt
  have hkm : AEMeasurable (pathKernel (benesKernel dt) T) ρ := (pathKernel (benesKernel dt) T).measurable.aemeasurable
  have hprob : IsProbabilityMeasure (ρ.bind (pathKernel (benesKernel dt) T)) := inferInstance
  -- the law of the simulated path
  let path : (n : ℕ) → ℝ × (Fin T → Fin n → ℝ) → Fin T → ℝ := fun n p => simPath (fun x => m x (dt / n)) (fun x => v x (dt / n)) n T p.1 p.2
  have hpath : ∀ n, Measurable (path n) := fun n => measurable_simPath (hm _) (hv _) n T
  let μ : ℕ → Measure (Fin T → ℝ) := fun n => (ρ.prod (Measure.pi fun _ : Fin T => Measure.pi fun _ : Fin n => gaussianReal 0 1)).map (path n)
  have hμ : ∀ n, IsProbabilityMeasure (μ n) := fun n => Measure.isProbabilityMeasure_map (hpath n).aemeasurable
  have key : Tendsto (fun n => ∫ x, F x ∂μ n) atTop (𝓝 (∫ x, F x ∂(ρ.bind (pathKernel (benesKernel dt) T)))) := by
    refine tendsto_of_waves μ _ (fun u S => ?_) hF hb
    have hw : ∀ t, ∃ M, CB M 4 (wave u S t) := fun t => by
      obtain ⟨M, hM⟩ := CB.cos (u t) 4
      exact ⟨M, hM _⟩
    obtain ⟨c, hc0, hc⟩ := exists_path_error m v hm hv hC hmC hvC (fun x h h0 h1 => (hv0 x h h0 h1).le) hdt T (wave u S) hw
    have hwm : ∀ t, Measurable (wave u S t) := fun t => by
      obtain ⟨M, hM⟩ := hw t
      exact hM.cont.measurable
    have hwb : ∀ t x, |wave u S t x| ≤ 1 := fun t x => Real.abs_cos_le_one _
    have e1 : ∀ n, ∫ x, ∏ t, wave u S t (x t) ∂μ n = ∫ x0, qpath (fun x => m x (dt / n)) (fun x => v x (dt / n)) n T (wave u S) x0 ∂ρ := by
      intro n
      rw [integral_map (hpath n).aemeasurable (measurable_waves u S).aestronglyMeasurable, integral_prod]
      · refine integral_congr_ae (Eventually.of_forall fun x0 => ?_)
        exact integral_simPath (hm _) (hv _) n T (wave u S) hwm le_rfl hwb x0
      · refine Integrable.of_bound (C := 1) ((measurable_waves u S).comp (hpath n)).aestronglyMeasurable (Eventually.of_forall fun x => ?_)
        rw [Real.norm_eq_abs, Finset.abs_prod]
        exact Finset.prod_le_one (fun t _ => abs_nonneg _) fun t _ => hwb t _
    have e2 : ∫ x, ∏ t, wave u S t (x t) ∂(ρ.bind (pathKernel (benesKernel dt) T)) = ∫ x0, bpath dt T (wave u S) x0 ∂ρ := by
      have := Kernel.integral_comp (κ := Kernel.const Unit ρ) (η := pathKernel (benesKernel dt) T) (a := ()) (f := fun x => ∏ t, wave u S t (x t))
        (integrable_waves (ρ.bind (pathKernel (benesKernel dt) T)) u S)
      refine this.trans ?_
      exact integral_congr_ae (Eventually.of_forall fun x0 => integral_pathKernel hdt T _ hw x0)
    rw [e2]
    simp only [e1]
    obtain ⟨Mb, hMb⟩ := exists_bpath_CB dt T (wave u S) hw
    have hlim : Tendsto (fun n : ℕ => c / (n : ℝ)) atTop (𝓝 0) := tendsto_const_div_atTop_nhds_zero_nat c
    rw [tendsto_iff_norm_sub_tendsto_zero]
    refine tendsto_of_tendsto_of_tendsto_of_le_of_le' tendsto_const_nhds hlim (Eventually.of_forall fun _ => norm_nonneg _) ?_
    filter_upwards [eventually_ge_atTop ⌈dt⌉₊] with n hn
    have hn' : dt ≤ n := Nat.ceil_le.1 hn
    have hiq : Integrable (qpath (fun x => m x (dt / n)) (fun x => v x (dt / n)) n T (wave u S)) ρ :=
      Integrable.of_bound (C := 1 ^ T) (qpath_meas (hm _) (hv _) n T _ hwm).aestronglyMeasurable (Eventually.of_forall (qpath_bound n T _ le_rfl hwb))
    have hib : Integrable (bpath dt T (wave u S)) ρ := Integrable.of_bound (C := Mb) hMb.cont.aestronglyMeasurable (Eventually.of_forall hMb.bound)
    rw [← integral_sub hiq hib]
    have := norm_integral_le_of_norm_le_const (μ := ρ) (f := fun x => qpath (fun x => m x (dt / n)) (fun x => v x (dt / n)) n T (wave u S) x - bpath dt T (wave u S) x)
      (C := c / n) (Eventually.of_forall fun x => (Real.norm_eq_abs _).trans_le (hc n hn' x))
    simpa using this
  refine (tendsto_congr' ?_).1 key
  filter_upwards [eventually_ge_atTop (max 1 ⌈dt⌉₊)] with n hn
  have hn1 : 1 ≤ n := (le_max_left _ _).trans hn
  have hn' : dt ≤ n := Nat.ceil_le.1 ((le_max_right _ _).trans hn)
  have hn0 : (0 : ℝ) < n := by exact_mod_cast hn1
  rw [integral_map (hpath n).aemeasurable hF.aestronglyMeasurable]
  refine integral_congr_ae (Eventually.of_forall fun p => congrArg F (funext fun t => ?_))
  rw [trajectory1_eq B hB m v p.1 dt (fun x => hv0 x _ (by positivity) ((div_le_one hn0).2 hn')) p.2]
  simp [path]

theorem CB_one (n : ℕ) : ∃ M, CB M n fun _ => (1 : ℝ) := by
  obtain ⟨M, hM⟩ := CB.cos 0 n
  exact ⟨M, by simpa using hM 0⟩

theorem bop_one (t : ℝ) : (bop t fun _ => 1) = fun _ => 1 := by
  funext x
  simp [bop, pr_add_pl]

theorem bpath_one (dt : ℝ) (T : ℕ) : (bpath dt T fun _ _ => 1) = fun _ => 1 := by
  induction T with
  | zero => rfl
  | succ T ih =>
    show (bop dt fun y => 1 * bpath dt T (fun _ _ => 1) y) = _
    simp only [ih, one_mul, bop_one]

theorem bpath_single {dt : ℝ} (hdt : 0 < dt) {M : ℝ} {f : ℝ → ℝ} (hf : CB M 4 f) (T : ℕ) (t : Fin T) :
    (bpath dt T fun s => if s = t then f else fun _ => 1) = bop ((t + 1) * dt) f := by
  induction T with
  | zero => exact t.elim0
  | succ T ih =>
    show (bop dt fun y => (if (0 : Fin (T + 1)) = t then f else fun _ => 1) y * bpath dt T (fun s => if s.succ = t then f else fun _ => 1) y) = _
    induction t using Fin.cases with
    | zero =>
      have e : (fun s : Fin T => if s.succ = 0 then f else fun _ => (1 : ℝ)) = fun _ _ => 1 := by
        funext s; simp [Fin.succ_ne_zero]
      rw [e]
      simp [bpath_one]
    | succ t =>
      have e : (fun s : Fin T => if s.succ = t.succ then f else fun _ => (1 : ℝ)) = fun s => if s = t then f else fun _ => 1 := by
        funext s; simp [Fin.succ_inj]
      rw [e, ih t]
      simp only [(Fin.succ_ne_zero t).symm, if_false, one_mul]
      have := bop_bop (n := 4) hdt.le (t := ((t : ℝ) + 1) * dt) (by positivity) hf
      refine this.trans (congrArg (fun r => bop r f) ?_)
      push_cast [Fin.val_succ]
      ring

/-- **C206 (rate).** The error of the mean of every function with four bounded derivatives, at every observed time, is at most a constant over the number of integration
steps, the same constant for all initial values. -/
theorem C206_rate (B : Backend) (hB : B.Valid) (m v : ℝ → ℝ → ℝ) (hm : ∀ h, Measurable fun x => m x h) (hv : ∀ h, Measurable fun x => v x h) {C : ℝ}
    (hmC : ∀ x h, 0 < h → h ≤ 1 → |m x h - x - h * Real.tanh x| ≤ C * h ^ 2) (hvC : ∀ x h, 0 < h → h ≤ 1 → |v x h - h| ≤ C * h ^ 2)
    (hv0 : ∀ x h, 0 < h → h ≤ 1 → 0 < v x h) {dt : ℝ} (hdt : 0 < dt) (T : ℕ) (t : Fin T) {f : ℝ → ℝ} (hf : ContDiff ℝ 4 f) {M : ℝ}
    (hM : ∀ k ≤ 4, ∀ x, |iteratedDeriv k f x| ≤ M) :
    ∃ c, ∀ n : ℕ, dt ≤ n → ∀ x0, |∫ z : Fin T → Fin n → ℝ, f ((trajectory1 B m v x0 dt (List.ofFn fun t => List.ofFn (z t)) n).getD t 0)
        ∂(Measure.pi fun _ => Measure.pi fun _ => gaussianReal 0 1) - ∫ y, f y ∂benesKernel ((t + 1) * dt) x0| ≤ c / n := by
  have hC : 0 ≤ C := by
    have := hmC 0 1 one_pos le_rfl
    have := abs_nonneg (m 0 1 - 0 - 1 * Real.tanh 0)
    linarith
  have hCB : CB M 4 f := CB.of_contDiff hf hM
  obtain ⟨M1, h1⟩ := CB_one 4
  obtain ⟨c, -, hc⟩ := exists_path_error m v hm hv hC hmC hvC (fun x h h0 h1 => (hv0 x h h0 h1).le) hdt T (fun s => if s = t then f else fun _ => 1)
    fun s => by
      by_cases hs : s = t
      · exact ⟨M, by simpa [hs] using hCB⟩
      · exact ⟨M1, by simpa [hs] using h1⟩
  refine ⟨c, fun n hn x0 => ?_⟩
  have hn0 : (0 : ℝ) < n := hdt.trans_le hn
  have key := hc n hn x0
  rw [bpath_single hdt hCB, bop_eq (by positivity) hCB, ← integral_simPath (hm _) (hv _) n T _ (fun s => ?_) (b := max 1 M) (le_max_left _ _) (fun s x => ?_)] at key
  · refine le_of_eq_of_le (congrArg (fun r => |r - _|) (integral_congr_ae (Eventually.of_forall fun z => ?_))) key
    show f _ = _
    rw [trajectory1_eq B hB m v x0 dt (fun x => hv0 x _ (by positivity) ((div_le_one hn0).2 hn)) z, Finset.prod_eq_single t]
    · simp
    · intro s _ hs; simp [hs]
    · simp
  · by_cases hs : s = t
    · simpa [hs] using hCB.cont.measurable
    · simp [hs]
  · by_cases hs : s = t
    · simpa [hs] using Or.inr (hCB.bound x)
    · simp [hs]

theorem tanh_sq_bounds (x : ℝ) : 0 < 1 - Real.tanh x ^ 2 ∧ 1 - Real.tanh x ^ 2 ≤ 1 := by
  have h1 := pr_sub_pl x
  have h2 := pr_add_pl x
  have h3 := mul_pos (pr_pos x) (pl_pos x)
  rw [← h1]
  constructor <;> nlinarith

/-- the mean of `tme.mean_and_cov` on the Beneš equation (C153). -/
noncomputable def bMean (x h : ℝ) : ℝ := x + Real.tanh x * h

/-- the variance (C153). -/
noncomputable def bVar (order : ℕ) (x h : ℝ) : ℝ := if order = 1 then h else h + (1 - Real.tanh x ^ 2) * h ^ 2

theorem measurable_tanh_real : Measurable Real.tanh := by
  have : Real.tanh = fun x => Real.sinh x / Real.cosh x := funext Real.tanh_eq_sinh_div_cosh
  rw [this]
  exact Real.continuous_sinh.measurable.div Real.continuous_cosh.measurable

theorem measurable_bMean (h : ℝ) : Measurable fun x => bMean x h := measurable_id.add (measurable_tanh_real.mul_const _)

theorem measurable_bVar (order : ℕ) (h : ℝ) : Measurable fun x => bVar order x h := by
  unfold bVar
  by_cases h1 : order = 1
  · simp [h1]
  · simp only [h1, if_false]
    exact (((measurable_tanh_real.pow_const 2).const_sub 1).mul_const _).const_add _

theorem bMean_err (x h : ℝ) : |bMean x h - x - h * Real.tanh x| ≤ 1 * h ^ 2 := by
  have : bMean x h - x - h * Real.tanh x = 0 := by unfold bMean; ring
  rw [this, abs_zero]
  positivity

theorem bVar_err (order : ℕ) (x h : ℝ) : |bVar order x h - h| ≤ 1 * h ^ 2 := by
  unfold bVar
  by_cases h1 : order = 1
  · simp only [h1, if_true, sub_self, abs_zero]; positivity
  · simp only [h1, if_false, add_sub_cancel_left]
    rw [abs_of_nonneg (mul_nonneg (tanh_sq_bounds x).1.le (by positivity))]
    exact mul_le_mul_of_nonneg_right (tanh_sq_bounds x).2 (by positivity)

theorem bVar_pos (order : ℕ) (x : ℝ) {h : ℝ} (h0 : 0 < h) : 0 < bVar order x h := by
  unfold bVar
  by_cases h1 : order = 1
  · simpa [h1] using h0
  · simp only [h1, if_false]
    have := mul_nonneg (tanh_sq_bounds x).1.le (sq_nonneg h)
    linarith

theorem benesTrajectory_eq (B : Backend) (hB : B.Valid) (x0 : ℝ) {dt : ℝ} (hdt : 0 < dt) {order n T : ℕ} (ho : 1 ≤ order) (hn : 1 ≤ n) (z : Fin T → Fin n → ℝ) :
    benesTrajectory B x0 dt order (List.ofFn fun t => List.ofFn (z t)) n = trajectory1 B bMean (bVar order) x0 dt (List.ofFn fun t => List.ofFn (z t)) n := by
  have hn0 : (0 : ℝ) < n := by exact_mod_cast hn
  have h0 : 0 < dt / n := by positivity
  have e := fun x => (C153_benes_mean_cov (dt / n) h0 order ho x).1
  rw [benesTrajectory, trajectory1_eq B hB _ _ x0 dt (fun x => by rw [e x]; exact bVar_pos order x h0), trajectory1_eq B hB _ _ x0 dt fun x => bVar_pos order x h0]
  simp only [e]
  rfl

/-- **C206 (`simulate_trajectory`).** `simulate_trajectory` of the Beneš model, with `tme.mean_and_cov` of any order (the code uses 3; order one is Euler–Maruyama): for every
initial law the law of the whole trajectory converges weakly to that of the solution of `dX = tanh(X) dt + dW` at the observed times. -/
theorem C206_benes (B : Backend) (hB : B.Valid) (order : ℕ) (ho : 1 ≤ order) {dt : ℝ} (hdt : 0 < dt) (T : ℕ) (ρ : Measure ℝ) [IsProbabilityMeasure ρ]
    {F : (Fin T → ℝ) → ℝ} (hF : Continuous F) (hb : ∃ b, ∀ x, |F x| ≤ b) :
    Tendsto (fun n : ℕ => ∫ p, F (fun t => (benesTrajectory B p.1 dt order (List.ofFn fun t => List.ofFn (p.2 t)) n).getD t 0)
        ∂(ρ.prod (Measure.pi fun _ : Fin T => Measure.pi fun _ : Fin n => gaussianReal 0 1)))
      atTop (𝓝 (∫ x, F x ∂(ρ.bind (pathKernel (benesKernel dt) T)))) := by
  refine (tendsto_congr' ?_).1 (C206_paths B hB bMean (bVar order) measurable_bMean (measurable_bVar order) (fun x h _ _ => bMean_err x h)
    (fun x h _ _ => bVar_err order x h) (fun x h h0 _ => bVar_pos order x h0) hdt T ρ hF hb)
  filter_upwards [eventually_ge_atTop 1] with n hn
  refine integral_congr_ae (Eventually.of_forall fun p => ?_)
  show F _ = F _
  simp only [benesTrajectory_eq B hB _ hdt ho hn]

/-- **C206 (`simulate_trajectory`, rate).** -/
theorem C206_benes_rate (B : Backend) (hB : B.Valid) (order : ℕ) (ho : 1 ≤ order) {dt : ℝ} (hdt : 0 < dt) (T : ℕ) (t : Fin T) {f : ℝ → ℝ} (hf : ContDiff ℝ 4 f) {M : ℝ}
    (hM : ∀ k ≤ 4, ∀ x, |iteratedDeriv k f x| ≤ M) :
    ∃ c, ∀ n : ℕ, dt ≤ n → ∀ x0, |∫ z : Fin T → Fin n → ℝ, f ((benesTrajectory B x0 dt order (List.ofFn fun t => List.ofFn (z t)) n).getD t 0)
        ∂(Measure.pi fun _ => Measure.pi fun _ => gaussianReal 0 1) - ∫ y, f y ∂benesKernel ((t + 1) * dt) x0| ≤ c / n := by
  obtain ⟨c, hc⟩ := C206_rate B hB bMean (bVar order) measurable_bMean (measurable_bVar order) (fun x h _ _ => bMean_err x h) (fun x h _ _ => bVar_err order x h)
    (fun x h h0 _ => bVar_pos order x h0) hdt T t hf hM
  refine ⟨c, fun n hn x0 => ?_⟩
  have hn1 : 1 ≤ n := by
    have : (0 : ℝ) < n := hdt.trans_le hn
    exact_mod_cast this
  simp only [benesTrajectory_eq B hB _ hdt ho hn1]
  exact hc n hn x0

theorem gaussL_cube (a c : ℝ) (w : ℝ≥0) : gaussL a w ((Polynomial.X - Polynomial.C c) ^ 3) = (a - c) ^ 3 + 3 * (a - c) * w := by
  have h1 : gaussL a w 1 = 1 := by rw [gaussL_apply]; simp
  have e : ((Polynomial.X - Polynomial.C c) ^ 3 : Polynomial ℝ) = Polynomial.X * (Polynomial.X * (Polynomial.X * 1)) - (3 * c) • (Polynomial.X * (Polynomial.X * 1))
      + (3 * c ^ 2) • (Polynomial.X * 1) - (c ^ 3) • 1 := by
    simp only [Polynomial.smul_eq_C_mul, map_mul, map_pow, map_ofNat]
    ring
  have hd1 : Polynomial.derivative (Polynomial.X * 1 : Polynomial ℝ) = 1 := by simp
  have hd2 : Polynomial.derivative (Polynomial.X * (Polynomial.X * 1) : Polynomial ℝ) = (2 : ℝ) • (Polynomial.X * 1) := by
    rw [Polynomial.derivative_mul, hd1, Polynomial.derivative_X, two_smul]; ring
  rw [e]
  simp only [map_sub, map_add, map_smul, gaussL_X_mul, hd2, hd1, Polynomial.derivative_one, map_zero, h1, smul_eq_mul]
  ring

/-- **C206 (a finite number of steps is not exact).** Although `mean_and_cov` of order two and above gives the exact conditional mean and variance (C153), one integration
step from `x0 ≠ 0` does not have the law of the equation. -/
theorem C206_single_step (B : Backend) (hB : B.Valid) (order : ℕ) (ho : 2 ≤ order) {dt : ℝ} (hdt : 0 < dt) {x0 : ℝ} (hx : x0 ≠ 0) :
    ((Measure.pi fun _ : Fin 1 => Measure.pi fun _ : Fin 1 => gaussianReal 0 1).map fun z =>
      (benesTrajectory B x0 dt order (List.ofFn fun t => List.ofFn (z t)) 1).getD 0 0) ≠ benesKernel dt x0 := by
  intro h
  have hw := bVar_pos order x0 hdt
  have e1 : (fun z : Fin 1 → Fin 1 → ℝ => (benesTrajectory B x0 dt order (List.ofFn fun t => List.ofFn (z t)) 1).getD 0 0)
      = fun z => bMean x0 dt + √(bVar order x0 dt) * z 0 0 := by
    funext z
    rw [benesTrajectory_eq B hB x0 hdt (by omega) le_rfl, trajectory1_eq B hB _ _ x0 dt fun x => bVar_pos order x (by simpa using hdt)]
    simp [simPath, foldPath]
  have e2 : ((Measure.pi fun _ : Fin 1 => Measure.pi fun _ : Fin 1 => gaussianReal 0 1).map fun z : Fin 1 → Fin 1 → ℝ => bMean x0 dt + √(bVar order x0 dt) * z 0 0)
      = gaussianReal (bMean x0 dt) (bVar order x0 dt).toNNReal := by
    have m1 := (measurePreserving_eval (fun _ : Fin 1 => Measure.pi fun _ : Fin 1 => gaussianReal 0 1) 0).map_eq
    have m2 := (measurePreserving_eval (fun _ : Fin 1 => gaussianReal 0 1) 0).map_eq
    have hmul := gaussianReal_map_const_mul (μ := 0) (v := 1) (√(bVar order x0 dt))
    have hadd := gaussianReal_map_const_add (μ := 0) (v := (bVar order x0 dt).toNNReal) (bMean x0 dt)
    have ev : NNReal.mk (√(bVar order x0 dt) ^ 2) (sq_nonneg _) * 1 = (bVar order x0 dt).toNNReal := by
      rw [mul_one]
      exact NNReal.eq (by rw [Real.coe_toNNReal _ hw.le]; exact Real.sq_sqrt hw.le)
    rw [mul_zero, ev] at hmul
    rw [zero_add, ← hmul, ← m2, ← m1] at hadd
    rw [← hadd, Measure.map_map (by fun_prop) (by fun_prop), Measure.map_map (by fun_prop) (by fun_prop), Measure.map_map (by fun_prop) (by fun_prop)]
    rfl
  rw [e1, e2] at h
  have hL := gaussL_cube (bMean x0 dt) (bMean x0 dt) (bVar order x0 dt).toNNReal
  have hR := (integral_poly_benes hdt x0 ((Polynomial.X - Polynomial.C (bMean x0 dt)) ^ 3)).2
  rw [gaussL_apply, h, hR, gaussL_cube, gaussL_cube, Real.coe_toNNReal _ hdt.le, sub_self] at hL
  have h1 := pr_sub_pl x0
  have h2 := pr_add_pl x0
  have hp : pr x0 = (1 + Real.tanh x0) / 2 := by linarith
  have hl : pl x0 = (1 - Real.tanh x0) / 2 := by linarith
  rw [hp, hl, bMean] at hL
  have key : dt ^ 3 * (Real.tanh x0 * (1 - Real.tanh x0 ^ 2)) = 0 := by linear_combination (-1 / 2) * hL
  have ht : Real.tanh x0 ≠ 0 := by
    rw [Real.tanh_eq_sinh_div_cosh]
    exact div_ne_zero (mt Real.sinh_eq_zero.1 hx) (Real.cosh_pos _).ne'
  exact mul_ne_zero (pow_ne_zero 3 hdt.ne') (mul_ne_zero ht (tanh_sq_bounds x0).1.ne') key

/-- the setting of the experiments: `dt = 0.01`, order 3, the cosine of the state after the second observation, initial states at ±1/2. -/
example : ∃ c, ∀ n : ℕ, (0.01 : ℝ) ≤ n → ∀ x0, |∫ z : Fin 2 → Fin n → ℝ,
      Real.cos ((benesTrajectory theBackend x0 0.01 3 (List.ofFn fun t => List.ofFn (z t)) n).getD 1 0)
      ∂(Measure.pi fun _ => Measure.pi fun _ => gaussianReal 0 1) - ∫ y, Real.cos y ∂benesKernel (2 * 0.01) x0| ≤ c / n := by
  have h := C206_benes_rate theBackend theBackend_valid 3 (by norm_num) (dt := 0.01) (by norm_num) 2 1 (f := Real.cos) Real.contDiff_cos (M := 1) (fun k _ x => by
    rcases Nat.even_or_odd' k with ⟨j, rfl | rfl⟩ <;> simp [Real.iteratedDeriv_even_cos, abs_mul, Real.abs_cos_le_one, Real.abs_sin_le_one])
  obtain ⟨c, hc⟩ := h
  refine ⟨c, fun n hn x0 => ?_⟩
  have := hc n hn x0
  norm_num at this ⊢
  exact this

end Mfs.Props

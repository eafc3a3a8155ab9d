import Verif.Model.BruteForce
import Mathlib.Analysis.Calculus.MeanValue
import Mathlib.Analysis.SpecialFunctions.Exponential
import Mathlib.Analysis.SpecialFunctions.ExpDeriv
import Mathlib.Analysis.Normed.Operator.BoundedLinearMaps
import Mathlib.Analysis.SpecificLimits.Basic
import Mathlib.Analysis.Calculus.Deriv.Prod
import Mathlib.Topology.Algebra.Module.FiniteDimension

/-!
# C142: the Kolmogorov prediction converges as the number of integration steps grows
-/

namespace Mfs.Props

open Mfs.BruteForce Filter Topology Set

variable {N : ℕ}

/-! ### Euler's method for linear equations -/

section euler

variable {V : Type*} [NormedAddCommGroup V] [NormedSpace ℝ V]

theorem euler_local (A : V →L[ℝ] V) (u : ℝ → V) {a b M : ℝ} (hab : a ≤ b)
    (hu : ∀ t ∈ Icc a b, HasDerivWithinAt u (A (u t)) (Icc a b) t) (hM : ∀ t ∈ Icc a b, ‖u t‖ ≤ M) :
    ‖u b - (u a + (b - a) • A (u a))‖ ≤ ‖A‖ ^ 2 * M * (b - a) ^ 2 := by
  have h0 : ∀ t ∈ Icc a b, ‖u t - u a‖ ≤ ‖A‖ * M * (t - a) :=
    norm_image_sub_le_of_norm_deriv_le_segment' (f' := fun t => A (u t)) hu fun t ht =>
      (A.le_opNorm _).trans (mul_le_mul_of_nonneg_left (hM t ⟨ht.1, ht.2.le⟩) (norm_nonneg _))
  have hM0 : 0 ≤ M := (norm_nonneg _).trans (hM a ⟨le_rfl, hab⟩)
  have h1 := norm_image_sub_le_of_norm_deriv_le_segment' (f := fun t => u t - t • A (u a)) (f' := fun t => A (u t) - (1 : ℝ) • A (u a))
    (C := ‖A‖ * (‖A‖ * M * (b - a))) (a := a) (b := b)
    (fun t ht => (hu t ht).sub ((hasDerivWithinAt_id t _).smul_const _))
    (fun t ht => by
      rw [one_smul, ← map_sub]
      refine (A.le_opNorm _).trans (mul_le_mul_of_nonneg_left ((h0 t ⟨ht.1, ht.2.le⟩).trans ?_) (norm_nonneg _))
      exact mul_le_mul_of_nonneg_left (by linarith [ht.2]) (by positivity)) b ⟨hab, le_rfl⟩
  have h2 : u b - (u a + (b - a) • A (u a)) = u b - b • A (u a) - (u a - a • A (u a)) := by
    rw [sub_smul]; abel
  rw [h2]
  exact h1.trans (le_of_eq (by ring))

theorem euler_steps (A : V →L[ℝ] V) (u : ℝ → V) {T M : ℝ} {n : ℕ} (hn : 0 < n) (hT : 0 ≤ T)
    (hu : ∀ t ∈ Icc 0 T, HasDerivWithinAt u (A (u t)) (Icc 0 T) t) (hM : ∀ t ∈ Icc 0 T, ‖u t‖ ≤ M) (p : V) (k : ℕ) (hk : k ≤ n) :
    ‖(fun p => p + (T / n) • A p)^[k] p - u (k * (T / n))‖
      ≤ (1 + T / n * ‖A‖) ^ k * (‖p - u 0‖ + k * (‖A‖ ^ 2 * M * (T / n) ^ 2)) := by
  have hn' : (0 : ℝ) < n := Nat.cast_pos.2 hn
  have hM0 : 0 ≤ M := (norm_nonneg _).trans (hM 0 ⟨le_rfl, hT⟩)
  have hh : 0 ≤ T / n := by positivity
  induction k with
  | zero => simp
  | succ k ih =>
    rw [Function.iterate_succ_apply']
    have ih := ih (by omega)
    set q := (fun p => p + (T / n) • A p)^[k] p
    set e := ‖p - u 0‖
    set c := ‖A‖ ^ 2 * M * (T / n) ^ 2 with hc
    have hc0 : 0 ≤ c := by positivity
    have hkT : ((k + 1 : ℕ) : ℝ) * (T / n) ≤ T := by
      have : ((k + 1 : ℕ) : ℝ) ≤ n := by exact_mod_cast hk
      calc ((k + 1 : ℕ) : ℝ) * (T / n) ≤ n * (T / n) := mul_le_mul_of_nonneg_right this hh
        _ = T := by field_simp
    have hsub : Icc (k * (T / n)) (((k + 1 : ℕ) : ℝ) * (T / n)) ⊆ Icc 0 T := Icc_subset_Icc (by positivity) hkT
    have hloc := euler_local A u (a := k * (T / n)) (b := ((k + 1 : ℕ) : ℝ) * (T / n)) (M := M)
      (mul_le_mul_of_nonneg_right (by push_cast; linarith) hh) (fun t ht => (hu t (hsub ht)).mono hsub) (fun t ht => hM t (hsub ht))
    have hd : ((k + 1 : ℕ) : ℝ) * (T / n) - k * (T / n) = T / n := by push_cast; ring
    rw [hd, ← hc] at hloc
    set uk := u (k * (T / n))
    set uk1 := u (((k + 1 : ℕ) : ℝ) * (T / n))
    have e1 : q + (T / n) • A q - uk1 = ((q - uk) + (T / n) • A (q - uk)) - (uk1 - (uk + (T / n) • A uk)) := by
      rw [map_sub, smul_sub]; abel
    have e2 : ‖(q - uk) + (T / n) • A (q - uk)‖ ≤ (1 + T / n * ‖A‖) * ‖q - uk‖ := by
      refine (norm_add_le _ _).trans ?_
      rw [norm_smul, Real.norm_of_nonneg hh, add_mul, one_mul, mul_assoc]
      exact add_le_add_right (mul_le_mul_of_nonneg_left (A.le_opNorm _) hh) _
    have hg : 1 ≤ (1 + T / n * ‖A‖) ^ (k + 1) := one_le_pow₀ (by nlinarith [norm_nonneg A])
    calc ‖q + (T / n) • A q - uk1‖ ≤ (1 + T / n * ‖A‖) * ‖q - uk‖ + c := by
          rw [e1]
          exact (norm_sub_le _ _).trans (add_le_add e2 hloc)
      _ ≤ (1 + T / n * ‖A‖) * ((1 + T / n * ‖A‖) ^ k * (e + k * c)) + (1 + T / n * ‖A‖) ^ (k + 1) * c := by
          refine add_le_add (mul_le_mul_of_nonneg_left ih (by positivity)) ?_
          nlinarith
      _ = (1 + T / n * ‖A‖) ^ (k + 1) * (e + ((k + 1 : ℕ) : ℝ) * c) := by push_cast; ring

theorem euler_error (A : V →L[ℝ] V) (u : ℝ → V) {T M : ℝ} {n : ℕ} (hn : 0 < n) (hT : 0 ≤ T)
    (hu : ∀ t ∈ Icc 0 T, HasDerivWithinAt u (A (u t)) (Icc 0 T) t) (hM : ∀ t ∈ Icc 0 T, ‖u t‖ ≤ M) (p : V) :
    ‖(fun p => p + (T / n) • A p)^[n] p - u T‖ ≤ Real.exp (T * ‖A‖) * (‖p - u 0‖ + ‖A‖ ^ 2 * M * T ^ 2 / n) := by
  have hn' : (0 : ℝ) < n := Nat.cast_pos.2 hn
  have hM0 : 0 ≤ M := (norm_nonneg _).trans (hM 0 ⟨le_rfl, hT⟩)
  have h := euler_steps A u hn hT hu hM p n le_rfl
  rw [show (n : ℝ) * (T / n) = T by field_simp] at h
  refine h.trans ?_
  rw [show (n : ℝ) * (‖A‖ ^ 2 * M * (T / n) ^ 2) = ‖A‖ ^ 2 * M * T ^ 2 / n by field_simp]
  refine mul_le_mul_of_nonneg_right ?_ (by positivity)
  calc (1 + T / n * ‖A‖) ^ n ≤ Real.exp (T / n * ‖A‖) ^ n :=
        pow_le_pow_left₀ (by positivity) (by linarith [Real.add_one_le_exp (T / n * ‖A‖)]) _
    _ = Real.exp (T * ‖A‖) := by rw [← Real.exp_nat_mul]; congr 1; field_simp

end euler

/-! ### the Kolmogorov operator -/

theorem gradient_add (f g : Fin (N + 2) → ℝ) (h : ℝ) : gradient (f + g) h = gradient f h + gradient g h := by
  funext i
  simp only [gradient, Pi.add_apply]
  split_ifs <;> ring

theorem gradient_smul (c : ℝ) (f : Fin (N + 2) → ℝ) (h : ℝ) : gradient (c • f) h = c • gradient f h := by
  funext i
  simp only [gradient, Pi.smul_apply, smul_eq_mul]
  split_ifs <;> ring

/-- the operator of the method as a linear map. -/
noncomputable def kolmogorovLin (drift dispersion : ℝ → ℝ) (xs : Fin (N + 2) → ℝ) : (Fin (N + 2) → ℝ) →L[ℝ] (Fin (N + 2) → ℝ) :=
  LinearMap.toContinuousLinearMap
    { toFun := kolmogorovFwdOpt drift dispersion xs
      map_add' := fun p q => by
        funext i
        simp only [kolmogorovFwdOpt, gradient_add, Pi.add_apply]
        ring
      map_smul' := fun c p => by
        funext i
        simp only [kolmogorovFwdOpt, gradient_smul, Pi.smul_apply, smul_eq_mul, RingHom.id_apply]
        ring }

theorem kolmogorovLin_apply (drift dispersion : ℝ → ℝ) (xs p : Fin (N + 2) → ℝ) :
    kolmogorovLin drift dispersion xs p = kolmogorovFwdOpt drift dispersion xs p := rfl

/-- difference quotient between the neighbours of a point of a grid with spacing `h`. -/
noncomputable def diffQuot (f : Fin (N + 2) → ℝ) (h : ℝ) (i : Fin (N + 2)) : ℝ :=
  (f ⟨min (i + 1) (N + 1), by omega⟩ - f ⟨i - 1, by omega⟩) / (((min ((i : ℕ) + 1) (N + 1) : ℕ) - ((i - 1 : ℕ) : ℝ)) * h)

/-- `u` solves, for times in `[0, dt]`, the Fokker-Planck equation on the grid, written out as
`u' = (γ'' u + 2 γ' Du + γ DDu) / 2 - (a' u + a Du)` with difference quotients `D` for the derivatives in space. -/
def SolvesKolmogorov (drift dispersion : ℝ → ℝ) (xs : Fin (N + 2) → ℝ) (dt : ℝ) (u : ℝ → Fin (N + 2) → ℝ) : Prop :=
  ∀ t ∈ Icc 0 dt, HasDerivWithinAt u (fun i =>
    let D := fun f => diffQuot f (xs 1 - xs 0)
    let γ := fun x => dispersion x ^ 2
    (deriv (deriv γ) (xs i) * u t i + 2 * (deriv γ (xs i) * D (u t) i) + γ (xs i) * D (D (u t)) i) / 2
      - (deriv drift (xs i) * u t i + drift (xs i) * D (u t) i)) (Icc 0 dt) t

theorem diffQuot_eq (f : Fin (N + 2) → ℝ) (h : ℝ) : diffQuot f h = gradient f h := by
  funext i
  obtain ⟨i, hi⟩ := i
  simp only [diffQuot, gradient]
  split_ifs with h1 h2
  · subst h1
    simp only [zero_add, zero_tsub, Nat.cast_zero, sub_zero, Nat.min_eq_left (show 1 ≤ N + 1 by omega), Nat.cast_one, one_mul]
    rfl
  · subst h2
    simp
  · have e : min (i + 1) (N + 1) = i + 1 := by omega
    have e2 : ((i + 1 : ℕ) : ℝ) - ((i - 1 : ℕ) : ℝ) = 2 := by
      rw [Nat.cast_sub (by omega)]
      push_cast
      ring
    simp only [e, e2]

theorem solvesKolmogorov_iff (drift dispersion : ℝ → ℝ) (xs : Fin (N + 2) → ℝ) (dt : ℝ) (u : ℝ → Fin (N + 2) → ℝ) :
    SolvesKolmogorov drift dispersion xs dt u ↔ ∀ t ∈ Icc 0 dt, HasDerivWithinAt u (kolmogorovFwdOpt drift dispersion xs (u t)) (Icc 0 dt) t := by
  have e : ∀ p : Fin (N + 2) → ℝ, (fun i =>
    let D := fun f => diffQuot f (xs 1 - xs 0)
    let γ := fun x => dispersion x ^ 2
    (deriv (deriv γ) (xs i) * p i + 2 * (deriv γ (xs i) * D p i) + γ (xs i) * D (D p) i) / 2
      - (deriv drift (xs i) * p i + drift (xs i) * D p i)) = kolmogorovFwdOpt drift dispersion xs p := by
    intro p
    funext i
    simp only [diffQuot_eq, kolmogorovFwdOpt]
    ring
  simp only [SolvesKolmogorov, ← e]

/-- **C142, existence.** The equation has a solution from every initial value. -/
theorem C142_solution_exists (drift dispersion : ℝ → ℝ) (xs p : Fin (N + 2) → ℝ) (dt : ℝ) :
    ∃ u, u 0 = p ∧ SolvesKolmogorov drift dispersion xs dt u := by
  refine ⟨fun t => NormedSpace.exp (t • kolmogorovLin drift dispersion xs) p, by simp, (solvesKolmogorov_iff _ _ _ _ _).2 fun t _ => ?_⟩
  have h := hasDerivAt_exp_smul_const' (𝕂 := ℝ) (kolmogorovLin drift dispersion xs) t
  exact (h.clm_apply (hasDerivAt_const t p)).hasDerivWithinAt.congr_deriv (by simp [kolmogorovLin_apply])

/-- **C142, rate.** With `n` integration steps the Kolmogorov prediction over `dt` differs from the solution of the
space-discretised Fokker-Planck equation by at most a constant over `n`. -/
theorem C142_prediction_rate (drift dispersion : ℝ → ℝ) (xs : Fin (N + 2) → ℝ) (dt : ℝ) (hdt : 0 ≤ dt) (u : ℝ → Fin (N + 2) → ℝ)
    (hu : SolvesKolmogorov drift dispersion xs dt u) :
    ∃ C, ∀ n : ℕ, 0 < n → ∀ i, |predKolmogorov drift dispersion xs (dt / n) n (u 0) i - u dt i| ≤ C / n := by
  rw [solvesKolmogorov_iff] at hu
  have hc : ContinuousOn u (Icc 0 dt) := fun t ht => (hu t ht).continuousWithinAt
  obtain ⟨M, hM⟩ := isCompact_Icc.exists_bound_of_continuousOn hc
  refine ⟨Real.exp (dt * ‖kolmogorovLin drift dispersion xs‖) * (‖kolmogorovLin drift dispersion xs‖ ^ 2 * M * dt ^ 2), fun n hn i => ?_⟩
  have h := euler_error (kolmogorovLin drift dispersion xs) u hn hdt hu hM (u 0)
  rw [sub_self, norm_zero, zero_add, ← mul_div_assoc] at h
  refine le_trans ?_ h
  rw [← Real.norm_eq_abs, ← Pi.sub_apply]
  exact norm_le_pi_norm _ i

/-- the exact filter on the grid: the prediction is the solution of the equation after `dt`, the update is Bayes' rule with the
trapezoidal normalisation. -/
def ExactGridRun {Y : Type} (drift dispersion : ℝ → ℝ) (lik : Y → (Fin (N + 2) → ℝ) → Fin (N + 2) → ℝ) (xs : Fin (N + 2) → ℝ) (dt : ℝ) :
    (Fin (N + 2) → ℝ) → List Y → List (Fin (N + 2) → ℝ) → Prop
  | _, [], qs => qs = []
  | p, y :: ys, qs => ∃ u q qs', qs = q :: qs' ∧ u 0 = p ∧ SolvesKolmogorov drift dispersion xs dt u ∧
      (∑ i : Fin (N + 1), (xs i.succ - xs i.castSucc) * (lik y xs i.succ * u dt i.succ + lik y xs i.castSucc * u dt i.castSucc) / 2) ≠ 0 ∧
      (∀ i, q i = lik y xs i * u dt i / ∑ i : Fin (N + 1),
        (xs i.succ - xs i.castSucc) * (lik y xs i.succ * u dt i.succ + lik y xs i.castSucc * u dt i.castSucc) / 2) ∧
      ExactGridRun drift dispersion lik xs dt q ys qs'

/-- **C142.** As the number of integration steps grows, all densities returned by `brute_force_filter(..., method='kolmogorov')`
converge to those of the exact filter on the grid. -/
theorem C142_kolmogorov_converges {Y : Type} (tmeMeanCov : ℤ → ℝ → ℝ → ℝ × ℝ) (pyInt : String → Option ℤ) (drift dispersion : ℝ → ℝ)
    (lik : Y → (Fin (N + 2) → ℝ) → Fin (N + 2) → ℝ) (initPs xs : Fin (N + 2) → ℝ) (ys : List Y) (dt : ℝ) (hdt : 0 ≤ dt)
    (qs : List (Fin (N + 2) → ℝ)) (hq : ExactGridRun drift dispersion lik xs dt initPs ys qs) :
    ∃ outs : ℕ → List (Fin (N + 2) → ℝ),
      (∀ n, bruteForceFilter tmeMeanCov pyInt drift dispersion lik initPs xs ys dt n "kolmogorov" = .ok (outs n)) ∧
      (∀ n, (outs n).length = ys.length) ∧ qs.length = ys.length ∧
      ∀ k < ys.length, ∀ i, Tendsto (fun n => (outs n).getD k 0 i) atTop (𝓝 (qs.getD k 0 i)) := by
  have hrun : ∀ n : ℕ, bruteForceFilter tmeMeanCov pyInt drift dispersion lik initPs xs ys dt n "kolmogorov"
      = .ok (scan (updateBody (predKolmogorov drift dispersion xs (dt / n) n) lik xs) initPs ys).2 := by
    intro n
    have h1 : ("kolmogorov" : String) ≠ "chapman-euler" := by decide
    have h2 : isIn "chapman-tme" "kolmogorov" = false := by decide
    simp only [bruteForceFilter, chooseTransition, choosePrediction, if_neg h1, h2, if_true, Bool.false_eq_true, if_false]
  refine ⟨_, hrun, ?_⟩
  clear hrun
  suffices H : ∀ (ys : List Y) (p : Fin (N + 2) → ℝ) (ps : ℕ → Fin (N + 2) → ℝ) (qs : List (Fin (N + 2) → ℝ)),
      ExactGridRun drift dispersion lik xs dt p ys qs → Tendsto ps atTop (𝓝 p) →
      (∀ n : ℕ, (scan (updateBody (predKolmogorov drift dispersion xs (dt / n) n) lik xs) (ps n) ys).2.length = ys.length) ∧
      qs.length = ys.length ∧ ∀ k < ys.length, ∀ i,
        Tendsto (fun n : ℕ => (scan (updateBody (predKolmogorov drift dispersion xs (dt / n) n) lik xs) (ps n) ys).2.getD k 0 i) atTop
          (𝓝 (qs.getD k 0 i)) from H ys initPs (fun _ => initPs) qs hq tendsto_const_nhds
  intro ys
  induction ys with
  | nil =>
    intro p ps qs h _
    rw [ExactGridRun] at h
    subst h
    exact ⟨fun _ => rfl, rfl, fun k hk => absurd hk (by simp)⟩
  | cons y ys ih =>
    intro p ps qs h hp
    rw [ExactGridRun] at h
    obtain ⟨u, q, qs', rfl, hu0, hu, hZ, hq, hrest⟩ := h
    rw [solvesKolmogorov_iff] at hu
    have hc : ContinuousOn u (Icc 0 dt) := fun t ht => (hu t ht).continuousWithinAt
    obtain ⟨M, hM⟩ := isCompact_Icc.exists_bound_of_continuousOn hc
    have hpred : Tendsto (fun n : ℕ => predKolmogorov drift dispersion xs (dt / n) n (ps n)) atTop (𝓝 (u dt)) := by
      rw [tendsto_iff_norm_sub_tendsto_zero]
      have hb : Tendsto (fun n : ℕ => Real.exp (dt * ‖kolmogorovLin drift dispersion xs‖)
          * (‖ps n - u 0‖ + ‖kolmogorovLin drift dispersion xs‖ ^ 2 * M * dt ^ 2 / n)) atTop (𝓝 0) := by
        have h1 : Tendsto (fun n => ‖ps n - u 0‖) atTop (𝓝 0) := by
          rw [hu0]
          exact tendsto_iff_norm_sub_tendsto_zero.1 hp
        have h2 := tendsto_const_div_atTop_nhds_zero_nat (‖kolmogorovLin drift dispersion xs‖ ^ 2 * M * dt ^ 2)
        simpa using (h1.add h2).const_mul (Real.exp (dt * ‖kolmogorovLin drift dispersion xs‖))
      refine squeeze_zero' (Eventually.of_forall fun n => norm_nonneg _) ?_ hb
      filter_upwards [eventually_gt_atTop 0] with n hn
      exact euler_error (kolmogorovLin drift dispersion xs) u hn hdt hu hM (ps n)
    have hpi : ∀ i, Tendsto (fun n : ℕ => predKolmogorov drift dispersion xs (dt / n) n (ps n) i) atTop (𝓝 (u dt i)) :=
      tendsto_pi_nhds.1 hpred
    have hpost : Tendsto (fun n : ℕ => (updateBody (predKolmogorov drift dispersion xs (dt / n) n) lik xs (ps n) y).1) atTop (𝓝 q) := by
      rw [tendsto_pi_nhds]
      intro i
      rw [hq i]
      simp only [updateBody, trapz]
      refine Tendsto.div ((hpi i).const_mul _) (tendsto_finsetSum _ fun j _ => ?_) hZ
      exact ((((hpi _).const_mul _).add ((hpi _).const_mul _)).const_mul _).div_const _
    obtain ⟨i1, i2, i3⟩ := ih q _ qs' hrest hpost
    refine ⟨fun n => ?_, by simp [i2], fun k hk i => ?_⟩
    · simp only [scan, List.length_cons]
      rw [i1]
    · cases k with
      | zero =>
        simp only [scan, List.getD_cons_zero]
        exact tendsto_pi_nhds.1 hpost i
      | succ k =>
        simp only [scan, List.getD_cons_succ]
        exact i3 k (by simpa using hk) i

/-- a linear drift with unit dispersion, from the constant density on the grid `-1, 1`: the exact prediction multiplies the
density by `exp t`. -/
example : ExactGridRun (N := 0) (fun x => -x) (fun _ => 1) (fun (y : ℝ) xs i => Real.exp (y * xs i)) (fun i => if i = 0 then -1 else 1) 1
    (fun _ => 1) [0] [fun _ => 1 / 2] := by
  refine ⟨fun t _ => Real.exp t, fun _ => 1 / 2, [], rfl, by simp, (solvesKolmogorov_iff _ _ _ _ _).2 fun t _ => ?_, ?_, ?_, rfl⟩
  · have h : kolmogorovFwdOpt (N := 0) (fun x => -x) (fun _ => 1) (fun i => if i = 0 then -1 else 1) (fun _ => Real.exp t)
        = fun _ => Real.exp t := by
      funext i
      simp [kolmogorovFwdOpt, gradient]
    rw [h]
    exact (hasDerivAt_pi.2 fun _ => Real.hasDerivAt_exp t).hasDerivWithinAt
  · simp
  · intro i
    have := Real.exp_pos 1
    simp
    field_simp
    norm_num

end Mfs.Props

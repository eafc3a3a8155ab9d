import Verif.Props.Lti
import Verif.Props.GaussianEquiv
import Verif.Props.SigmaPoints
import Mathlib.Analysis.Complex.Exponential

/-!
# C145: the continuous-discrete filters on linear SDEs

On `dX = A X dt + B dW` the prediction of `cd_ekf` and `cd_sgp_filter`, one Runge-Kutta step, is compared with the exact transition
`discretise_lti_sde(A, B, dt)`.
-/

namespace Mfs.Props

open Matrix Mfs.Classical Mfs.Utils Mfs.Spec Filter Topology Set

open scoped Matrix.Norms.Operator

variable {d w : ℕ}

/-! ### Taylor's theorem along a sequence of derivatives -/

theorem taylor_seq {V : Type*} [NormedAddCommGroup V] [NormedSpace ℝ V] (n : ℕ) (f : ℕ → ℝ → V)
    (hf : ∀ k t, HasDerivAt (f k) (f (k + 1) t) t) {D C : ℝ} (hC : ∀ t ∈ Icc 0 D, ‖f (n + 1) t‖ ≤ C) (t : ℝ) (ht : t ∈ Icc 0 D) :
    ‖f 0 t - ∑ k ∈ Finset.range (n + 1), (t ^ k / (k.factorial : ℝ)) • f k 0‖ ≤ C * t ^ (n + 1) := by
  induction n generalizing f t with
  | zero =>
    have h := norm_image_sub_le_of_norm_deriv_le_segment' (f := f 0) (f' := f 1) (C := C) (a := 0) (b := D)
      (fun s _ => (hf 0 s).hasDerivWithinAt) (fun s hs => hC s ⟨hs.1, hs.2.le⟩) t ht
    simpa using h
  | succ n ih =>
    have hC0 : 0 ≤ C := (norm_nonneg _).trans (hC t ht)
    have hder : ∀ s, HasDerivAt (fun s => f 0 s - ∑ k ∈ Finset.range (n + 2), (s ^ k / (k.factorial : ℝ)) • f k 0)
        (f 1 s - ∑ k ∈ Finset.range (n + 1), (s ^ k / (k.factorial : ℝ)) • f (k + 1) 0) s := by
      intro s
      refine (hf 0 s).sub ?_
      have h : HasDerivAt (fun s : ℝ => ∑ k ∈ Finset.range (n + 2), (s ^ k / (k.factorial : ℝ)) • f k 0)
          (∑ k ∈ Finset.range (n + 2), (k * s ^ (k - 1) / (k.factorial : ℝ)) • f k 0) s :=
        HasDerivAt.fun_sum fun k _ => ((hasDerivAt_pow k s).div_const _).smul_const _
      refine h.congr_deriv ?_
      rw [Finset.sum_range_succ']
      simp only [Nat.cast_zero, zero_mul, zero_div, zero_smul, add_zero, Nat.add_sub_cancel]
      refine Finset.sum_congr rfl fun k _ => ?_
      congr 1
      rw [Nat.factorial_succ]
      push_cast
      have : (k.factorial : ℝ) ≠ 0 := by exact_mod_cast k.factorial_ne_zero
      have : (k : ℝ) + 1 ≠ 0 := by positivity
      field_simp
    have hb := norm_image_sub_le_of_norm_deriv_le_segment'
      (f := fun s => f 0 s - ∑ k ∈ Finset.range (n + 2), (s ^ k / (k.factorial : ℝ)) • f k 0) (C := C * t ^ (n + 1)) (a := 0) (b := t)
      (fun s _ => (hder s).hasDerivWithinAt) (fun s hs => by
        refine (ih (fun k => f (k + 1)) (fun k => hf (k + 1)) hC s ⟨hs.1, hs.2.le.trans ht.2⟩).trans ?_
        exact mul_le_mul_of_nonneg_left (pow_le_pow_left₀ hs.1 hs.2.le _) hC0) t ⟨ht.1, le_rfl⟩
    have h0 : f 0 0 - ∑ k ∈ Finset.range (n + 2), ((0 : ℝ) ^ k / (k.factorial : ℝ)) • f k 0 = 0 := by
      rw [Finset.sum_range_succ']
      simp
    simp only [h0, sub_zero] at hb
    exact hb.trans (le_of_eq (by ring))

/-! ### the moment equations of a linear SDE -/

/-- `(m, v) ↦ (A m, A v + v Aᵀ)`. -/
def ltiField (A : Matrix (Fin d) (Fin d) ℝ) : ((Fin d → ℝ) × Matrix (Fin d) (Fin d) ℝ) →ₗ[ℝ] ((Fin d → ℝ) × Matrix (Fin d) (Fin d) ℝ) where
  toFun u := (A *ᵥ u.1, A * u.2 + u.2 * Aᵀ)
  map_add' u v := by
    refine Prod.ext ?_ ?_
    · simp [mulVec_add]
    · simp only [Prod.snd_add, Matrix.mul_add, Matrix.add_mul]; abel
  map_smul' c u := by
    refine Prod.ext ?_ ?_
    · simp [mulVec_smul]
    · simp [smul_add]

theorem cdEkfOdes_linear (A : Matrix (Fin d) (Fin d) ℝ) (B : Matrix (Fin d) (Fin w) ℝ) :
    cdEkfOdes (fun x => A *ᵥ x) (fun _ => B) = fun m v => ltiField A (m, v) + (0, B * Bᵀ) := by
  funext m v
  refine Prod.ext ?_ ?_
  · simp [cdEkfOdes, ltiField]
  · simp only [cdEkfOdes, jac_linear, ltiField, LinearMap.coe_mk, AddHom.coe_mk, Prod.snd_add]
    abel

/-- the exact transition of a belief over the time `t`. -/
noncomputable def ltiFlow (A : Matrix (Fin d) (Fin d) ℝ) (B : Matrix (Fin d) (Fin w) ℝ) (u : Belief d) (t : ℝ) : Belief d :=
  ((discretiseLtiSde A B t).1 *ᵥ u.1, (discretiseLtiSde A B t).1 * u.2 * (discretiseLtiSde A B t).1ᵀ + (discretiseLtiSde A B t).2)

theorem hasDerivAt_ltiFlow (A : Matrix (Fin d) (Fin d) ℝ) (B : Matrix (Fin d) (Fin w) ℝ) (u : Belief d) (t : ℝ) :
    HasDerivAt (ltiFlow A B u) (ltiField A (ltiFlow A B u t) + (0, B * Bᵀ)) t := by
  have e : ltiFlow A B u = fun t => (NormedSpace.exp (t • A) *ᵥ u.1, ltiSigma A u.2 t + ltiCov A (B * Bᵀ) t) := by
    funext t
    rw [ltiFlow, discretise_eq, ltiSigma, exp_transpose_smul]
  rw [e]
  have h1 : HasDerivAt (fun t : ℝ => NormedSpace.exp (t • A) *ᵥ u.1) (A *ᵥ (NormedSpace.exp (t • A) *ᵥ u.1)) t := by
    rw [mulVec_mulVec]
    have := ((LinearMap.toContinuousLinearMap (Matrix.mulVecBilin ℝ ℝ |>.flip u.1)).hasFDerivAt
      (x := NormedSpace.exp (t • A))).comp_hasDerivAt t (hasDerivAt_exp_smul_mat A t)
    exact this
  have h2 := (hasDerivAt_ltiSigma A u.2 t).add (hasDerivAt_ltiCov A (B * Bᵀ) t)
  refine (h1.prodMk h2).congr_deriv ?_
  refine Prod.ext ?_ ?_
  · simp [ltiField]
  · simp only [ltiField, LinearMap.coe_mk, AddHom.coe_mk, Prod.snd_add]
    rw [ltiCov_lyapunov A (B * Bᵀ) t]
    simp only [Matrix.mul_add, Matrix.add_mul]
    abel

/-- one Runge-Kutta step for the moment equations. -/
noncomputable def ltiRk4 (A : Matrix (Fin d) (Fin d) ℝ) (B : Matrix (Fin d) (Fin w) ℝ) (dt : ℝ) (u : Belief d) : Belief d :=
  rk4MCov (cdEkfOdes (fun x => A *ᵥ x) fun _ => B) u.1 u.2 dt

theorem ltiRk4_eq (A : Matrix (Fin d) (Fin d) ℝ) (B : Matrix (Fin d) (Fin w) ℝ) (dt : ℝ) (u : Belief d) :
    ltiRk4 A B dt u = u + ∑ k ∈ Finset.range 4, (dt ^ (k + 1) / ((k + 1).factorial : ℝ)) • (ltiField A ^ k) (ltiField A u + (0, B * Bᵀ)) := by
  rw [ltiRk4, cdEkfOdes_linear]
  exact C75_rk4_affine (ltiField A) (0, B * Bᵀ) u.1 u.2 dt

theorem ltiRk4_local (A : Matrix (Fin d) (Fin d) ℝ) (B : Matrix (Fin d) (Fin w) ℝ) (u : Belief d) (D : ℝ) :
    ∃ C, ∀ a h, 0 ≤ a → 0 ≤ h → a + h ≤ D → ‖ltiFlow A B u (a + h) - ltiRk4 A B h (ltiFlow A B u a)‖ ≤ C * h ^ 5 := by
  set L := ltiField A with hL
  set b : Belief d := (0, B * Bᵀ) with hb
  have hcl : ∀ k, Continuous fun x => (L ^ k) x := fun k => LinearMap.continuous_of_finiteDimensional (L ^ k)
  have hcf : Continuous (ltiFlow A B u) := continuous_iff_continuousAt.2 fun t => (hasDerivAt_ltiFlow A B u t).continuousAt
  have hc4 : Continuous fun t => (L ^ 4) (L (ltiFlow A B u t) + b) := by
    refine (hcl 4).comp (Continuous.add ?_ continuous_const)
    have h1 : Continuous fun x => L x := LinearMap.continuous_of_finiteDimensional L
    exact h1.comp hcf
  obtain ⟨C, hC⟩ := (isCompact_Icc (a := (0 : ℝ)) (b := D)).exists_bound_of_continuousOn hc4.continuousOn
  refine ⟨C, fun a h ha hh hah => ?_⟩
  set f : ℕ → ℝ → Belief d := fun k t => match k with
    | 0 => ltiFlow A B u (a + t)
    | k + 1 => (L ^ k) (L (ltiFlow A B u (a + t)) + b) with hf
  have hshift : ∀ t, HasDerivAt (fun t => ltiFlow A B u (a + t)) (L (ltiFlow A B u (a + t)) + b) t := fun t =>
    (hasDerivAt_ltiFlow A B u (a + t)).comp_const_add a t
  have hder : ∀ k t, HasDerivAt (f k) (f (k + 1) t) t := by
    intro k t
    cases k with
    | zero => simpa [hf] using hshift t
    | succ k =>
      have h1 : HasDerivAt (fun t => (L ^ k) (L (ltiFlow A B u (a + t)) + b)) ((L ^ k) (L (L (ltiFlow A B u (a + t)) + b))) t := by
        have hLk := (LinearMap.toContinuousLinearMap (L ^ k)).hasFDerivAt (x := L (ltiFlow A B u (a + t)) + b)
        have hL1 := (LinearMap.toContinuousLinearMap L).hasFDerivAt (x := ltiFlow A B u (a + t))
        exact hLk.comp_hasDerivAt t ((hL1.comp_hasDerivAt t (hshift t)).add_const b)
      refine h1.congr_deriv ?_
      simp only [hf, pow_succ, Module.End.mul_apply]
  have ht := taylor_seq 4 f hder (D := h) (C := C) (fun t ht => hC (a + t) ⟨by linarith [ht.1], by linarith [ht.2]⟩) h ⟨hh, le_rfl⟩
  have e : ∑ k ∈ Finset.range 5, (h ^ k / (k.factorial : ℝ)) • f k 0 = ltiRk4 A B h (ltiFlow A B u a) := by
    rw [ltiRk4_eq, Finset.sum_range_succ', add_comm]
    congr 1
    · simp [hf]
    · refine Finset.sum_congr rfl fun k _ => ?_
      simp only [hf, add_zero, ← hL, ← hb]
  rw [e] at ht
  exact ht

theorem exists_pow_bound {V : Type*} [NormedAddCommGroup V] [NormedSpace ℝ V] [FiniteDimensional ℝ V] (T : V →ₗ[ℝ] V) :
    ∃ K, 0 ≤ K ∧ ∀ (k : ℕ) (x : V), ‖(T ^ k) x‖ ≤ K ^ k * ‖x‖ := by
  refine ⟨‖LinearMap.toContinuousLinearMap T‖, norm_nonneg _, fun k => ?_⟩
  induction k with
  | zero => intro x; simp
  | succ k ih =>
    intro x
    rw [pow_succ, Module.End.mul_apply, pow_succ, mul_assoc]
    exact (ih _).trans (mul_le_mul_of_nonneg_left ((LinearMap.toContinuousLinearMap T).le_opNorm x) (by positivity))

theorem ltiRk4_stable (A : Matrix (Fin d) (Fin d) ℝ) (B : Matrix (Fin d) (Fin w) ℝ) :
    ∃ K, 0 ≤ K ∧ ∀ h, 0 ≤ h → ∀ p q, ‖ltiRk4 A B h p - ltiRk4 A B h q‖ ≤ Real.exp (h * K) * ‖p - q‖ := by
  obtain ⟨K, hK0, hK⟩ := exists_pow_bound (ltiField A)
  refine ⟨K, hK0, fun h hh p q => ?_⟩
  have e : ltiRk4 A B h p - ltiRk4 A B h q = ∑ k ∈ Finset.range 5, (h ^ k / (k.factorial : ℝ)) • (ltiField A ^ k) (p - q) := by
    rw [ltiRk4_eq, ltiRk4_eq, add_sub_add_comm, ← Finset.sum_sub_distrib, Finset.sum_range_succ' _ 4, add_comm]
    congr 1
    · refine Finset.sum_congr rfl fun k _ => ?_
      rw [← smul_sub, ← map_sub, add_sub_add_right_eq_sub, ← map_sub, pow_succ]
      rfl
    · simp
  rw [e]
  calc ‖∑ k ∈ Finset.range 5, (h ^ k / (k.factorial : ℝ)) • (ltiField A ^ k) (p - q)‖
      ≤ ∑ k ∈ Finset.range 5, (h * K) ^ k / (k.factorial : ℝ) * ‖p - q‖ := by
        refine norm_sum_le_of_le _ fun k _ => ?_
        rw [norm_smul, Real.norm_of_nonneg (by positivity)]
        calc h ^ k / (k.factorial : ℝ) * ‖(ltiField A ^ k) (p - q)‖ ≤ h ^ k / (k.factorial : ℝ) * (K ^ k * ‖p - q‖) :=
              mul_le_mul_of_nonneg_left (hK k _) (by positivity)
          _ = (h * K) ^ k / (k.factorial : ℝ) * ‖p - q‖ := by rw [mul_pow]; ring
    _ ≤ Real.exp (h * K) * ‖p - q‖ := by
        rw [← Finset.sum_mul]
        exact mul_le_mul_of_nonneg_right (Real.sum_le_exp_of_nonneg (by positivity) 5) (norm_nonneg _)

theorem ltiFlow_zero (A : Matrix (Fin d) (Fin d) ℝ) (B : Matrix (Fin d) (Fin w) ℝ) (u : Belief d) : ltiFlow A B u 0 = u := by
  rw [ltiFlow, discretise_eq, ltiCov_zero]
  simp

/-- every iterate is close to the exact flow, not only the last one. -/
theorem ltiRk4_all (A : Matrix (Fin d) (Fin d) ℝ) (B : Matrix (Fin d) (Fin w) ℝ) (u : Belief d) (D : ℝ) (hD : 0 ≤ D) :
    ∃ C, ∀ n : ℕ, 0 < n → ∀ k ≤ n, ‖(ltiRk4 A B (D / n))^[k] u - ltiFlow A B u (k * (D / n))‖ ≤ C / (n : ℝ) ^ 4 := by
  obtain ⟨C, hC⟩ := ltiRk4_local A B u D
  obtain ⟨K, hK0, hK⟩ := ltiRk4_stable A B
  refine ⟨Real.exp (D * K) * (|C| * D ^ 5), fun n hn => ?_⟩
  have hn' : (0 : ℝ) < n := Nat.cast_pos.2 hn
  set h := D / n with hh
  have h0 : 0 ≤ h := by positivity
  have step : ∀ k : ℕ, k ≤ n → ‖(ltiRk4 A B h)^[k] u - ltiFlow A B u (k * h)‖ ≤ Real.exp (h * K) ^ k * (k * (|C| * h ^ 5)) := by
    intro k
    induction k with
    | zero => intro _; simp [ltiFlow_zero]
    | succ k ih =>
      intro hk
      have ih := ih (by omega)
      rw [Function.iterate_succ_apply']
      set q := (ltiRk4 A B h)^[k] u
      have hkD : (k : ℝ) * h + h ≤ D := by
        have : ((k + 1 : ℕ) : ℝ) ≤ n := by exact_mod_cast hk
        calc (k : ℝ) * h + h = ((k + 1 : ℕ) : ℝ) * h := by push_cast; ring
          _ ≤ n * h := mul_le_mul_of_nonneg_right this h0
          _ = D := by rw [hh]; field_simp
      have hl := (hC (k * h) h (by positivity) h0 hkD).trans (mul_le_mul_of_nonneg_right (le_abs_self C) (by positivity))
      rw [show ((k + 1 : ℕ) : ℝ) * h = k * h + h by push_cast; ring]
      have hs := hK h h0 q (ltiFlow A B u (k * h))
      have he : 1 ≤ Real.exp (h * K) := Real.one_le_exp (by positivity)
      have he' : 1 ≤ Real.exp (h * K) ^ (k + 1) := one_le_pow₀ he
      calc ‖ltiRk4 A B h q - ltiFlow A B u (k * h + h)‖
          ≤ ‖ltiRk4 A B h q - ltiRk4 A B h (ltiFlow A B u (k * h))‖ + ‖ltiFlow A B u (k * h + h) - ltiRk4 A B h (ltiFlow A B u (k * h))‖ := by
            rw [norm_sub_rev (ltiFlow A B u (k * h + h))]
            exact norm_sub_le_norm_sub_add_norm_sub _ _ _
        _ ≤ Real.exp (h * K) * (Real.exp (h * K) ^ k * (k * (|C| * h ^ 5))) + Real.exp (h * K) ^ (k + 1) * (|C| * h ^ 5) := by
            refine add_le_add (hs.trans (mul_le_mul_of_nonneg_left ih (by positivity))) (hl.trans ?_)
            exact le_mul_of_one_le_left (by positivity) he'
        _ = Real.exp (h * K) ^ (k + 1) * (((k + 1 : ℕ) : ℝ) * (|C| * h ^ 5)) := by push_cast; ring
  intro k hk
  have he : 1 ≤ Real.exp (h * K) := Real.one_le_exp (by positivity)
  have hkn : (k : ℝ) ≤ n := by exact_mod_cast hk
  calc ‖(ltiRk4 A B h)^[k] u - ltiFlow A B u (k * h)‖ ≤ Real.exp (h * K) ^ k * (k * (|C| * h ^ 5)) := step k hk
    _ ≤ Real.exp (h * K) ^ n * (n * (|C| * h ^ 5)) :=
        mul_le_mul (pow_le_pow_right₀ he hk) (mul_le_mul_of_nonneg_right hkn (by positivity)) (by positivity) (by positivity)
    _ = Real.exp (D * K) * (|C| * D ^ 5) / (n : ℝ) ^ 4 := by
        rw [← Real.exp_nat_mul, show (n : ℝ) * (h * K) = D * K by rw [hh]; field_simp, hh]
        field_simp

theorem ltiRk4_global (A : Matrix (Fin d) (Fin d) ℝ) (B : Matrix (Fin d) (Fin w) ℝ) (u : Belief d) (D : ℝ) (hD : 0 ≤ D) :
    ∃ C, ∀ n : ℕ, 0 < n → ‖(ltiRk4 A B (D / n))^[n] u - ltiFlow A B u D‖ ≤ C / (n : ℝ) ^ 4 := by
  obtain ⟨C, hC⟩ := ltiRk4_all A B u D hD
  refine ⟨C, fun n hn => ?_⟩
  have h := hC n hn n le_rfl
  have hn' : (n : ℝ) ≠ 0 := by exact_mod_cast hn.ne'
  rwa [show (n : ℝ) * (D / n) = D by field_simp] at h

/-! ### entrywise -/

theorem belief_entry_le (u : Belief d) : (∀ i, |u.1 i| ≤ ‖u‖) ∧ ∀ i j, |u.2 i j| ≤ ‖u‖ := by
  refine ⟨fun i => (norm_le_pi_norm u.1 i).trans (norm_fst_le u), fun i j => ?_⟩
  refine le_trans ?_ (norm_snd_le u)
  have h1 : u.2 i j = (u.2 *ᵥ Pi.single j 1) i := by simp
  have h2 := Matrix.linfty_opNorm_mulVec u.2 (Pi.single j 1)
  calc |u.2 i j| = ‖(u.2 *ᵥ Pi.single j 1) i‖ := by rw [h1]; rfl
    _ ≤ ‖u.2 *ᵥ Pi.single j 1‖ := norm_le_pi_norm _ i
    _ ≤ ‖u.2‖ * ‖(Pi.single j 1 : Fin d → ℝ)‖ := h2
    _ ≤ ‖u.2‖ * 1 := by
        refine mul_le_mul_of_nonneg_left ((pi_norm_le_iff_of_nonneg zero_le_one).2 fun k => ?_) (norm_nonneg _)
        by_cases hk : k = j
        · subst hk; simp
        · simp [hk]
    _ = ‖u.2‖ := mul_one _

/-- **C145, one step.** For `dX = A X dt + B dW` the prediction of `cd_ekf` over `dt` agrees with the exact transition, with matrices
`F, Σ = discretise_lti_sde(A, B, dt)`, up to an error of order `dt^5`. -/
theorem C145_one_step (A : Matrix (Fin d) (Fin d) ℝ) (B : Matrix (Fin d) (Fin w) ℝ) (m : Fin d → ℝ) (v : Matrix (Fin d) (Fin d) ℝ) (D : ℝ) :
    ∃ C, ∀ dt ∈ Icc 0 D,
      (∀ i, |(rk4MCov (cdEkfOdes (fun x => A *ᵥ x) fun _ => B) m v dt).1 i - ((discretiseLtiSde A B dt).1 *ᵥ m) i| ≤ C * dt ^ 5) ∧
      (∀ i j, |(rk4MCov (cdEkfOdes (fun x => A *ᵥ x) fun _ => B) m v dt).2 i j
        - ((discretiseLtiSde A B dt).1 * v * (discretiseLtiSde A B dt).1ᵀ + (discretiseLtiSde A B dt).2) i j| ≤ C * dt ^ 5) := by
  obtain ⟨C, hC⟩ := ltiRk4_local A B (m, v) D
  refine ⟨C, fun dt hdt => ?_⟩
  have h := hC 0 dt le_rfl hdt.1 (by linarith [hdt.2])
  rw [zero_add, ltiFlow_zero, norm_sub_rev] at h
  have h1 := belief_entry_le (ltiRk4 A B dt (m, v) - ltiFlow A B (m, v) dt)
  exact ⟨fun i => (h1.1 i).trans h, fun i j => (h1.2 i j).trans h⟩

/-! ### measurements that carry no information -/

theorem jac_const {a b : ℕ} (c : Fin b → ℝ) (x : Fin a → ℝ) : jac (fun _ => c) x = 0 := by
  ext i j
  simp [jac]

theorem ekfUpdate_const (Bk : Backend) (ok : UpdateShapeOk d 1) (c : Fin 1 → ℝ) (Xi : Matrix (Fin 1) (Fin 1) ℝ) (p : Belief d) (y : Fin 1 → ℝ) :
    (ekfUpdate Bk ok (fun _ => (c, Xi)) p y).1 = p := by
  have hK : ∀ S : Matrix (Fin 1) (Fin 1) ℝ, linearGain Bk ok p.2 (0 : Matrix (Fin 1) (Fin d) ℝ) S = 0 := by
    intro S
    ext i j
    simp [linearGain]
  simp only [ekfUpdate, jac_const, linearUpdate, hK]
  refine Prod.ext ?_ ?_
  · simp
  · simp

theorem cdEkf_no_info (Bk : Backend) (ok : UpdateShapeOk d 1) (drift : (Fin d → ℝ) → Fin d → ℝ)
    (dispersion : (Fin d → ℝ) → Matrix (Fin d) (Fin w) ℝ) (c : Fin 1 → ℝ) (Xi : Matrix (Fin 1) (Fin 1) ℝ) (dt : ℝ) (ys : List (Fin 1 → ℝ))
    (s : Belief d × ℝ) :
    (scan (filterBody (fun f => rk4MCov (cdEkfOdes drift dispersion) f.1 f.2 dt) fun p y => ekfUpdate Bk ok (fun _ => (c, Xi)) p y) s ys).2.map
      Prod.fst = (List.range ys.length).map fun k => (fun f : Belief d => rk4MCov (cdEkfOdes drift dispersion) f.1 f.2 dt)^[k + 1] s.1 := by
  induction ys generalizing s with
  | nil => rfl
  | cons y ys ih =>
    rw [List.length_cons, List.range_succ_eq_map, List.map_cons, List.map_map]
    simp only [scan, List.map_cons, ih, filterBody, ekfUpdate_const]
    rfl

/-- **C145, convergence.** Fill a time interval of length `D` with `n` measurements that carry no information. The last mean and
covariance returned by `cd_ekf` converge, as `n` grows, to those of the exact transition over `D`, with an error of order `n^-4`. -/
theorem C145_order_four (Bk : Backend) (A : Matrix (Fin d) (Fin d) ℝ) (B : Matrix (Fin d) (Fin w) ℝ) (m : Fin d → ℝ)
    (v : Matrix (Fin d) (Fin d) ℝ) (c : Fin 1 → ℝ) (Xi : Matrix (Fin 1) (Fin 1) ℝ) (D : ℝ) (hD : 0 ≤ D) :
    ∃ C, ∀ ys : List (Fin 1 → ℝ), ys ≠ [] → ∃ out last,
      cdEkf Bk (fun x => A *ᵥ x) (fun _ => B) (fun _ => (c, Xi)) m v (D / ys.length) ys = some out ∧ out.getLast? = some last ∧
      (∀ i, |last.1.1 i - ((discretiseLtiSde A B D).1 *ᵥ m) i| ≤ C / (ys.length : ℝ) ^ 4) ∧
      (∀ i j, |last.1.2 i j - ((discretiseLtiSde A B D).1 * v * (discretiseLtiSde A B D).1ᵀ + (discretiseLtiSde A B D).2) i j|
        ≤ C / (ys.length : ℝ) ^ 4) := by
  obtain ⟨C, hC⟩ := ltiRk4_global A B (m, v) D hD
  refine ⟨C, fun ys hys => ?_⟩
  have ok : UpdateShapeOk d 1 := Or.inl rfl
  have hpos : 0 < ys.length := List.length_pos_iff.2 hys
  have hrun := cdEkf_no_info Bk ok (fun x => A *ᵥ x) (fun _ => B) c Xi (D / ys.length) ys ((m, v), 0)
  set out := (scan (filterBody (fun f => rk4MCov (cdEkfOdes (fun x => A *ᵥ x) fun _ => B) f.1 f.2 (D / ys.length))
    fun p y => ekfUpdate Bk ok (fun _ => (c, Xi)) p y) ((m, v), 0) ys).2 with hout
  have hlen : out.length = ys.length := by simpa using congrArg List.length hrun
  have hne : out ≠ [] := List.length_pos_iff.1 (hlen ▸ hpos)
  refine ⟨out, out.getLast hne, by rw [cdEkf, dif_pos ok], List.getLast?_eq_some_getLast hne, ?_⟩
  have hl : (out.getLast hne).1 = (ltiRk4 A B (D / ys.length))^[ys.length] (m, v) := by
    have h1 : (out.map Prod.fst).getLast (by simpa using hne) = (out.getLast hne).1 := List.getLast_map _
    rw [← h1]
    simp only [hrun, List.getLast_map, List.getLast_range]
    rw [Nat.sub_add_cancel hpos]
    rfl
  have h := hC ys.length hpos
  rw [← hl] at h
  have h1 := belief_entry_le ((out.getLast hne).1 - ltiFlow A B (m, v) D)
  exact ⟨fun i => (h1.1 i).trans h, fun i j => (h1.2 i j).trans h⟩

/-! ### sigma points -/

/-- on linear drifts the sigma-point moment equations are those of `cd_ekf`. -/
theorem cdSgpShared_linear (Bk : Backend) (hB : Bk.Valid) (sg : SigmaPoints d) (hr : SecondOrder sg.w sg.xi) (A : Matrix (Fin d) (Fin d) ℝ)
    (B : Matrix (Fin d) (Fin w) ℝ) (m : Fin d → ℝ) (v : Matrix (Fin d) (Fin d) ℝ) (hv : v.PosDef) :
    cdSgpShared Bk sg (fun x => A *ᵥ x) B m v = cdEkfOdes (fun x => A *ᵥ x) (fun _ => B) m v := by
  have hL := chol_symm hB hv
  set L := Bk.chol (symmetrize v) with hLd
  have h1 : sg.expectation (fun i => A *ᵥ sg.genSigmaPoints m L i) = A *ᵥ m := by
    rw [Classical.expectation_mulVec, expectation_chi hr]
  have h2 : (sg.expectation fun i => vecMulVec (sg.genSigmaPoints m L i - m) (A *ᵥ sg.genSigmaPoints m L i) : Matrix (Fin d) (Fin d) ℝ)
      = v * Aᵀ := by
    have h3 : ∀ i, vecMulVec (sg.genSigmaPoints m L i - m) (A *ᵥ sg.genSigmaPoints m L i)
        = vecMulVec (sg.genSigmaPoints m L i - m) (sg.genSigmaPoints m L i - m) * Aᵀ + vecMulVec (L *ᵥ sg.xi i) (A *ᵥ m) := by
      intro i
      have e : sg.genSigmaPoints m L i - m = L *ᵥ sg.xi i := by simp [SigmaPoints.genSigmaPoints]
      rw [e, vecMulVec_mul, vecMul_transpose, ← vecMulVec_add, SigmaPoints.genSigmaPoints, mulVec_add, add_comm]
    have h4 : (sg.expectation fun i => vecMulVec (L *ᵥ sg.xi i) (A *ᵥ m) : Matrix (Fin d) (Fin d) ℝ) = 0 := by
      have h5 : sg.expectation (fun i => L *ᵥ sg.xi i) = 0 := by
        rw [Classical.expectation_mulVec, expectation_xi hr, mulVec_zero]
      ext p q
      have h6 := congrFun h5 p
      simp only [SigmaPoints.expectation, Finset.sum_apply, Pi.smul_apply, smul_eq_mul, Pi.zero_apply] at h6
      simp only [SigmaPoints.expectation, Matrix.sum_apply, Matrix.smul_apply, vecMulVec_apply, smul_eq_mul, ← mul_assoc, ← Finset.sum_mul, h6,
        zero_mul, Matrix.zero_apply]
    have h7 := (C72_sigma_points sg hr m L).2
    rw [hL.mul_transpose] at h7
    simp only [h3]
    rw [expectation_add, h4, add_zero, ← h7]
    simp only [SigmaPoints.expectation, Matrix.sum_mul, Matrix.smul_mul]
  have hvs : vᵀ = v := by simpa [conjTranspose_eq_transpose_of_trivial] using hv.isHermitian.eq
  simp only [cdSgpShared, cdEkfOdes, jac_linear, ← hLd, h1, h2, transpose_mul, transpose_transpose, hvs]

/-- positive definite matrices stay so under small symmetric changes. -/
theorem posDef_tendsto {ι : Type*} {l : Filter ι} {M : ι → Matrix (Fin d) (Fin d) ℝ} {P : Matrix (Fin d) (Fin d) ℝ}
    (hM : ∀ i j, Tendsto (fun s => M s i j) l (𝓝 (P i j))) (hs : ∀ s, (M s).IsSymm) (h0 : P.PosDef) : ∀ᶠ s in l, (M s).PosDef := by
  have hc := theBackend_valid.chol _ h0
  set L := theBackend.chol (P)
  have hLu : IsUnit Lᵀ.det := by rw [det_transpose]; exact hc.isUnit_det
  set N := (Lᵀ)⁻¹ with hN
  set c := ∑ i, ∑ j, N i j ^ 2 with hcd
  have hc0 : 0 ≤ c := Finset.sum_nonneg fun i _ => Finset.sum_nonneg fun j _ => sq_nonneg _
  have hlow : ∀ x : Fin d → ℝ, ∑ i, x i ^ 2 ≤ c * (x ⬝ᵥ P *ᵥ x) := by
    intro x
    have hx : N *ᵥ (Lᵀ *ᵥ x) = x := by rw [mulVec_mulVec, hN, nonsing_inv_mul _ hLu, one_mulVec]
    have hq : x ⬝ᵥ P *ᵥ x = ∑ j, (Lᵀ *ᵥ x) j ^ 2 := by
      rw [← hc.mul_transpose, ← mulVec_mulVec, dotProduct_mulVec, ← mulVec_transpose]
      simp [dotProduct, sq]
    rw [hq, hcd, Finset.sum_mul]
    refine Finset.sum_le_sum fun i _ => ?_
    conv_lhs => rw [← hx]
    exact Finset.sum_mul_sq_le_sq_mul_sq (R := ℝ) Finset.univ (fun j => N i j) fun j => (Lᵀ *ᵥ x) j
  have hE : Tendsto (fun s => c * ∑ i, ∑ j, |M s i j - P i j|) l (𝓝 0) := by
    have h : Tendsto (fun s => c * ∑ i, ∑ j, |M s i j - P i j|) l (𝓝 (c * ∑ i : Fin d, ∑ j : Fin d, |P i j - P i j|)) :=
      (tendsto_finsetSum _ fun i _ => tendsto_finsetSum _ fun j _ => ((hM i j).sub_const _).abs).const_mul c
    simpa using h
  filter_upwards [hE.eventually (gt_mem_nhds one_pos)] with s hsm
  refine Matrix.PosDef.of_dotProduct_mulVec_pos (by
    rw [Matrix.IsHermitian, conjTranspose_eq_transpose_of_trivial]; exact hs s) fun x hx => ?_
  rw [star_trivial]
  have hsq : 0 < ∑ i, x i ^ 2 := by
    obtain ⟨i, hi⟩ := Function.ne_iff.1 hx
    exact Finset.sum_pos' (fun i _ => sq_nonneg _) ⟨i, Finset.mem_univ i, by have : x i ≠ 0 := hi; positivity⟩
  have hq0 : 0 < x ⬝ᵥ P *ᵥ x := by
    have := h0.dotProduct_mulVec_pos hx
    rwa [star_trivial] at this
  have hdiff : |x ⬝ᵥ M s *ᵥ x - x ⬝ᵥ P *ᵥ x| ≤ (∑ i, ∑ j, |M s i j - P i j|) * ∑ i, x i ^ 2 := by
    rw [← dotProduct_sub, ← sub_mulVec, Finset.sum_mul]
    simp only [dotProduct, mulVec, Matrix.sub_apply, Finset.mul_sum]
    refine (Finset.abs_sum_le_sum_abs _ _).trans (Finset.sum_le_sum fun i _ => ?_)
    refine (Finset.abs_sum_le_sum_abs _ _).trans ?_
    rw [← Finset.mul_sum, Finset.sum_mul]
    refine Finset.sum_le_sum fun j _ => ?_
    rw [abs_mul, abs_mul, mul_left_comm]
    refine mul_le_mul_of_nonneg_left ?_ (abs_nonneg _)
    have h1 : x i ^ 2 ≤ ∑ k, x k ^ 2 := Finset.single_le_sum (f := fun k => x k ^ 2) (fun k _ => sq_nonneg _) (Finset.mem_univ i)
    have h2 : x j ^ 2 ≤ ∑ k, x k ^ 2 := Finset.single_le_sum (f := fun k => x k ^ 2) (fun k _ => sq_nonneg _) (Finset.mem_univ j)
    nlinarith [sq_nonneg (|x i| - |x j|), sq_abs (x i), sq_abs (x j)]
  have hE0 : 0 ≤ ∑ i, ∑ j, |M s i j - P i j| := Finset.sum_nonneg fun i _ => Finset.sum_nonneg fun j _ => abs_nonneg _
  have h3 := mul_le_mul_of_nonneg_left (hlow x) hE0
  nlinarith [(abs_le.1 hdiff).1]

theorem posDef_nhds {M : ℝ → Matrix (Fin d) (Fin d) ℝ} (hM : ∀ i j, Tendsto (fun s => M s i j) (𝓝 0) (𝓝 (M 0 i j)))
    (hs : ∀ s, (M s).IsSymm) (h0 : (M 0).PosDef) : ∀ᶠ s in 𝓝 0, (M s).PosDef := posDef_tendsto hM hs h0

/-- two fields that agree at positive definite covariances have the same Runge-Kutta step, if it is short. -/
theorem rk4_eventually_eq (M : Matrix (Fin d) (Fin d) ℝ) (b : Belief d) (hb : b.2.IsSymm)
    (g : (Fin d → ℝ) → Matrix (Fin d) (Fin d) ℝ → Belief d) (hg : ∀ m v, v.PosDef → g m v = ltiField M (m, v) + b)
    (m : Fin d → ℝ) (v : Matrix (Fin d) (Fin d) ℝ) (hv : v.PosDef) :
    ∀ᶠ dt in 𝓝 0, rk4MCov g m v dt = rk4MCov (fun m v => ltiField M (m, v) + b) m v dt := by
  have hvs : v.IsSymm := by
    simpa [IsSymm, conjTranspose_eq_transpose_of_trivial] using hv.isHermitian.eq
  set f : (Fin d → ℝ) → Matrix (Fin d) (Fin d) ℝ → Belief d := fun m v => ltiField M (m, v) + b with hf
  have hfe : ∀ m v, f m v = (M *ᵥ m + b.1, M * v + v * Mᵀ + b.2) := fun m v => rfl
  have hfs : ∀ m v, v.IsSymm → (f m v).2.IsSymm := fun m v hv => by
    rw [hfe]
    refine IsSymm.add ?_ hb
    rw [IsSymm, transpose_add, transpose_mul, transpose_mul, transpose_transpose, hv.eq, add_comm]
  set k1 := f m v with hk1
  set k2 : ℝ → Belief d := fun dt => f (m + (dt / 2) • k1.1) (v + (dt / 2) • k1.2) with hk2
  set k3 : ℝ → Belief d := fun dt => f (m + (dt / 2) • (k2 dt).1) (v + (dt / 2) • (k2 dt).2) with hk3
  have s1 : k1.2.IsSymm := hfs _ _ hvs
  have sadd : ∀ (s : ℝ) (X : Matrix (Fin d) (Fin d) ℝ), X.IsSymm → (v + s • X).IsSymm := fun s X hX => hvs.add (hX.smul s)
  have s2 : ∀ dt, (k2 dt).2.IsSymm := fun dt => hfs _ _ (sadd _ _ s1)
  have s3 : ∀ dt, (k3 dt).2.IsSymm := fun dt => hfs _ _ (sadd _ _ (s2 dt))
  have c2 : Continuous fun dt => (k2 dt).2 := by
    simp only [hk2, hfe]; fun_prop
  have c3 : Continuous fun dt => (k3 dt).2 := by
    simp only [hk3, hfe]; fun_prop
  have hent : ∀ {g : ℝ → Matrix (Fin d) (Fin d) ℝ}, Continuous g → ∀ i j, Tendsto (fun s => g s i j) (𝓝 0) (𝓝 (g 0 i j)) :=
    fun hg i j => (hg.matrix_elem i j).tendsto 0
  have p2 := posDef_nhds (M := fun dt => v + (dt / 2) • k1.2) (hent (by fun_prop)) (fun dt => sadd _ _ s1) (by simpa using hv)
  have p3 := posDef_nhds (M := fun dt => v + (dt / 2) • (k2 dt).2) (hent (by fun_prop)) (fun dt => sadd _ _ (s2 dt)) (by simpa using hv)
  have p4 := posDef_nhds (M := fun dt => v + dt • (k3 dt).2) (hent (by fun_prop)) (fun dt => sadd _ _ (s3 dt)) (by simpa using hv)
  have hg' : ∀ m v, v.PosDef → g m v = f m v := hg
  filter_upwards [p2, p3, p4] with dt h2 h3 h4
  simp only [rk4MCov]
  rw [hg' _ _ hv, ← hk1, hg' _ _ h2, ← show k2 dt = f (m + (dt / 2) • k1.1) (v + (dt / 2) • k1.2) from rfl, hg' _ _ h3,
    ← show k3 dt = f (m + (dt / 2) • (k2 dt).1) (v + (dt / 2) • (k2 dt).2) from rfl, hg' _ _ h4]

/-- **C145, sigma points, one step.** The prediction of `cd_sgp_filter` from a positive definite covariance is that of `cd_ekf` for all
small `dt`, hence it has the same accuracy. -/
theorem C145_sgp_one_step (Bk : Backend) (hB : Bk.Valid) (sg : SigmaPoints d) (hr : SecondOrder sg.w sg.xi) (A : Matrix (Fin d) (Fin d) ℝ)
    (B : Matrix (Fin d) (Fin w) ℝ) (m : Fin d → ℝ) (v : Matrix (Fin d) (Fin d) ℝ) (hv : v.PosDef) :
    (∀ᶠ dt in 𝓝 0, rk4MCov (cdSgpShared Bk sg (fun x => A *ᵥ x) B) m v dt = rk4MCov (cdEkfOdes (fun x => A *ᵥ x) fun _ => B) m v dt) ∧
    ∃ C, ∀ᶠ dt in 𝓝[≥] 0,
      (∀ i, |(rk4MCov (cdSgpShared Bk sg (fun x => A *ᵥ x) B) m v dt).1 i - ((discretiseLtiSde A B dt).1 *ᵥ m) i| ≤ C * dt ^ 5) ∧
      (∀ i j, |(rk4MCov (cdSgpShared Bk sg (fun x => A *ᵥ x) B) m v dt).2 i j
        - ((discretiseLtiSde A B dt).1 * v * (discretiseLtiSde A B dt).1ᵀ + (discretiseLtiSde A B dt).2) i j| ≤ C * dt ^ 5) := by
  have key : ∀ᶠ dt in 𝓝 0, rk4MCov (cdSgpShared Bk sg (fun x => A *ᵥ x) B) m v dt = rk4MCov (cdEkfOdes (fun x => A *ᵥ x) fun _ => B) m v dt := by
    rw [cdEkfOdes_linear]
    refine rk4_eventually_eq A (0, B * Bᵀ) (by simp [IsSymm]) _ (fun m v hv => ?_) m v hv
    rw [cdSgpShared_linear Bk hB sg hr A B m v hv, cdEkfOdes_linear]
  refine ⟨key, ?_⟩
  obtain ⟨C, hC⟩ := C145_one_step A B m v 1
  refine ⟨C, ?_⟩
  have hI : ∀ᶠ dt in 𝓝[≥] (0 : ℝ), dt ∈ Icc (0 : ℝ) 1 := Icc_mem_nhdsGE one_pos
  filter_upwards [nhdsWithin_le_nhds key, hI] with dt h1 h2
  rw [h1]
  exact hC dt h2

/-- an uninformative measurement leaves the belief of the sigma-point filters alone. -/
theorem sgpUpdate_const {dy : ℕ} (Bk : Backend) (sg : SigmaPoints d) (hr : SecondOrder sg.w sg.xi) (c : Fin dy → ℝ) (Xi : Matrix (Fin dy) (Fin dy) ℝ) (p : Belief d)
    (y : Fin dy → ℝ) (constCov : Bool) : (sgpUpdate Bk sg (fun _ => (c, Xi)) p y constCov).1 = p := by
  have h0 : ∀ L : Matrix (Fin d) (Fin d) ℝ, (sg.expectation (fun i => vecMulVec (sg.genSigmaPoints p.1 L i) c) : Matrix (Fin d) (Fin dy) ℝ)
      - vecMulVec p.1 (sg.expectation fun _ => c) = 0 := by
    intro L
    have h1 := expectation_chi hr p.1 L
    rw [Classical.expectation_const sg hr.total]
    ext a b
    have h2 := congrFun h1 a
    simp only [SigmaPoints.expectation, Finset.sum_apply, Pi.smul_apply, smul_eq_mul] at h2
    simp only [SigmaPoints.expectation, Matrix.sub_apply, Matrix.sum_apply, Matrix.smul_apply, vecMulVec_apply, smul_eq_mul, ← mul_assoc, ← Finset.sum_mul, h2, sub_self,
      Matrix.zero_apply]
  have h3 : ∀ (n : ℕ) (L : Matrix (Fin dy) (Fin dy) ℝ), choSolve L (0 : Matrix (Fin dy) (Fin n) ℝ) = 0 := fun n L => by simp [choSolve]
  simp only [sgpUpdate, h0, transpose_zero, h3, zero_mulVec, add_zero, Matrix.zero_mul, sub_zero]

/-- the mean part of the sigma-point moment equations is linear, whatever the covariance. -/
theorem cdSgp_mean (Bk : Backend) (sg : SigmaPoints d) (hr : SecondOrder sg.w sg.xi) (A : Matrix (Fin d) (Fin d) ℝ) (B : Matrix (Fin d) (Fin w) ℝ) (dt : ℝ) (u u' : Belief d)
    (h : u.1 = u'.1) : (rk4MCov (cdSgpShared Bk sg (fun x => A *ᵥ x) B) u.1 u.2 dt).1 = (ltiRk4 A B dt u').1 := by
  have h1 : ∀ m v, (cdSgpShared Bk sg (fun x => A *ᵥ x) B m v).1 = A *ᵥ m := fun m v => by
    simp only [cdSgpShared]
    rw [Classical.expectation_mulVec, expectation_chi hr]
  simp only [rk4MCov, ltiRk4, h1, cdEkfOdes, h]

/-- **C145, sigma points, whole run.** Fill a time interval of length `D` with `n` measurements that carry no information. The last mean returned by
`cd_sgp_filter` converges to that of the exact transition over `D`, with an error of order `n^-4`, for every backend and covariance. -/
theorem C145_sgp_order_four {dy : ℕ} (Bk : Backend) (sg : SigmaPoints d) (hr : SecondOrder sg.w sg.xi) (A : Matrix (Fin d) (Fin d) ℝ) (B : Matrix (Fin d) (Fin w) ℝ)
    (m : Fin d → ℝ) (v : Matrix (Fin d) (Fin d) ℝ) (c : Fin dy → ℝ) (Xi : Matrix (Fin dy) (Fin dy) ℝ) (D : ℝ) (hD : 0 ≤ D) (constCov : Bool) :
    ∃ C, ∀ ys : List (Fin dy → ℝ), ys ≠ [] → ∃ last,
      (cdSgpFilter Bk (fun x => A *ᵥ x) B (fun _ => (c, Xi)) sg m v (D / ys.length) ys constCov).getLast? = some last ∧
      ∀ i, |last.1.1 i - ((discretiseLtiSde A B D).1 *ᵥ m) i| ≤ C / (ys.length : ℝ) ^ 4 := by
  obtain ⟨C, hC⟩ := ltiRk4_global A B (m, v) D hD
  have main : ∀ (dt : ℝ) (ys : List (Fin dy → ℝ)) (s : Belief d × ℝ) (u : Belief d), s.1.1 = u.1 →
      (scan (filterBody (fun f => rk4MCov (cdSgpShared Bk sg (fun x => A *ᵥ x) B) f.1 f.2 dt) fun p y => sgpUpdate Bk sg (fun _ => (c, Xi)) p y constCov) s ys).2.map
        (fun o => o.1.1) = (List.range ys.length).map fun k => ((ltiRk4 A B dt)^[k + 1] u).1 := by
    intro dt ys
    induction ys with
    | nil => intro s u _; rfl
    | cons y ys ih =>
      intro s u hsu
      have hm := cdSgp_mean Bk sg hr A B dt s.1 u hsu
      rw [List.length_cons, List.range_succ_eq_map, List.map_cons, List.map_map]
      simp only [scan, List.map_cons, filterBody, sgpUpdate_const Bk sg hr]
      rw [ih _ (ltiRk4 A B dt u) hm, hm]
      rfl
  refine ⟨C, fun ys hys => ?_⟩
  have hpos : 0 < ys.length := List.length_pos_iff.2 hys
  have hrun := main (D / ys.length) ys ((m, v), 0) (m, v) rfl
  set out := cdSgpFilter Bk (fun x => A *ᵥ x) B (fun _ => (c, Xi)) sg m v (D / ys.length) ys constCov with hout
  have hrun' : out.map (fun o => o.1.1) = (List.range ys.length).map fun k => ((ltiRk4 A B (D / ys.length))^[k + 1] (m, v)).1 := hrun
  have hlen : out.length = ys.length := by simpa using congrArg List.length hrun'
  have hne : out ≠ [] := List.length_pos_iff.1 (hlen ▸ hpos)
  refine ⟨out.getLast hne, List.getLast?_eq_some_getLast hne, fun i => ?_⟩
  have hl : (out.getLast hne).1.1 = ((ltiRk4 A B (D / ys.length))^[ys.length] (m, v)).1 := by
    have h1 : (out.map fun o => o.1.1).getLast (by simpa using hne) = (out.getLast hne).1.1 := List.getLast_map _
    rw [← h1]
    simp only [hrun', List.getLast_map, List.getLast_range]
    rw [Nat.sub_add_cancel hpos]
  rw [hl]
  exact ((belief_entry_le ((ltiRk4 A B (D / ys.length))^[ys.length] (m, v) - ltiFlow A B (m, v) D)).1 i).trans (hC ys.length hpos)

/-- hypotheses of C145: an oscillator with noise on its velocity; the cubature rule. -/
example : ((1 : Matrix (Fin 2) (Fin 2) ℝ)).PosDef ∧ SecondOrder (SigmaPoints.cubature 2).w (SigmaPoints.cubature 2).xi ∧
    ∃ C, ∀ ys : List (Fin 1 → ℝ), ys ≠ [] → ∃ out last,
      cdEkf theBackend (fun x => !![0, 1; -1, 0] *ᵥ x) (fun _ => !![0; 1]) (fun _ => (0, 1)) ![1, 0] 1 (3 / ys.length) ys = some out ∧
      out.getLast? = some last ∧
      ∀ i, |last.1.1 i - ((discretiseLtiSde !![0, 1; -1, 0] (!![0; 1] : Matrix (Fin 2) (Fin 1) ℝ) 3).1 *ᵥ ![1, 0]) i| ≤ C / (ys.length : ℝ) ^ 4 := by
  refine ⟨Matrix.PosDef.one, (C72_cubature 2 (by norm_num)).1, ?_⟩
  obtain ⟨C, hC⟩ := C145_order_four theBackend !![0, 1; -1, 0] (!![0; 1] : Matrix (Fin 2) (Fin 1) ℝ) ![1, 0] 1 0 1 3 (by norm_num)
  refine ⟨C, fun ys hys => ?_⟩
  obtain ⟨out, last, h1, h2, h3, _⟩ := hC ys hys
  exact ⟨out, last, h1, h2, h3⟩

end Mfs.Props

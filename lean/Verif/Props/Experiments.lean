import Verif.Model.Experiments
import Verif.Model.Gaussian
import Verif.Lemmas.Tri
import Verif.Lemmas.Backend
import Verif.Lemmas.Gaussian
import Verif.Props.Lti

/-!
# Properties C116, C117: the Ornstein–Uhlenbeck experiment and its reference solution
-/

namespace Mfs.Props

open Matrix Mfs.Spec Mfs.Experiments

section ou

variable {ell sigma dt : ℝ}

/-- square of the `j`-th innovation scale. -/
noncomputable def ouC (ell sigma dt : ℝ) (j : ℕ) : ℝ := if j = 0 then sigma else √(ouSigma ell sigma dt)

theorem ouSigma_pos (h1 : 0 < ell) (h2 : 0 < sigma) (h3 : 0 < dt) : 0 < ouSigma ell sigma dt := by
  have : Real.exp (-2 * dt / ell) < 1 := by
    rw [Real.exp_lt_one_iff]
    exact div_neg_of_neg_of_pos (by linarith) h1
  exact mul_pos (by positivity) (by linarith)

theorem ou_stationary : ouF ell dt * sigma ^ 2 * ouF ell dt + ouSigma ell sigma dt = sigma ^ 2 := by
  have : Real.exp (-2 * dt / ell) = Real.exp (-dt / ell) * Real.exp (-dt / ell) := by
    rw [← Real.exp_add]
    congr 1
    ring
  rw [ouF, ouSigma, this]
  ring

/-- the explicit Cholesky factor. -/
noncomputable def ouL (ell sigma dt : ℝ) (T : ℕ) : Matrix (Fin T) (Fin T) ℝ :=
  Matrix.of fun i j => if j ≤ i then ouF ell dt ^ ((i : ℕ) - j) * ouC ell sigma dt j else 0

theorem ou_row_sum (h1 : 0 < ell) (h2 : 0 < sigma) (h3 : 0 < dt) (i : ℕ) :
    ∑ j ∈ Finset.range (i + 1), (ouF ell dt ^ (i - j) * ouC ell sigma dt j) ^ 2 = sigma ^ 2 := by
  induction i with
  | zero => simp [ouC]
  | succ i ih =>
    rw [Finset.sum_range_succ]
    have : ∀ j ∈ Finset.range (i + 1), (ouF ell dt ^ (i + 1 - j) * ouC ell sigma dt j) ^ 2
        = ouF ell dt ^ 2 * (ouF ell dt ^ (i - j) * ouC ell sigma dt j) ^ 2 := by
      intro j hj
      have : i + 1 - j = (i - j) + 1 := by
        have := Finset.mem_range.1 hj
        omega
      rw [this]
      ring
    rw [Finset.sum_congr rfl this, ← Finset.mul_sum, ih]
    simp only [ouC, Nat.succ_ne_zero, if_false, tsub_self, pow_zero, one_mul]
    rw [Real.sq_sqrt (ouSigma_pos h1 h2 h3).le]
    have := ou_stationary (ell := ell) (sigma := sigma) (dt := dt)
    linarith

theorem ou_grid (T : ℕ) (i : Fin T) : linspace dt (dt * T) T i = dt * (i + 1) := by
  rw [linspace]
  rcases Nat.lt_or_ge 1 T with h | h
  · have : (T : ℝ) - 1 ≠ 0 := by
      have : (1 : ℝ) < T := by exact_mod_cast h
      linarith
    field_simp
    ring
  · have h0 : (i : ℕ) = 0 := by omega
    simp [h0]

theorem ouL_isChol (h1 : 0 < ell) (h2 : 0 < sigma) (h3 : 0 < dt) (T : ℕ) :
    IsChol (matern12 ell sigma (linspace dt (dt * T) T) (linspace dt (dt * T) T)) (ouL ell sigma dt T) := by
  have hF : 0 < ouF ell dt := Real.exp_pos _
  have hle : ∀ i k : Fin T, i ≤ k → ∑ j, ouL ell sigma dt T i j * ouL ell sigma dt T k j
      = Real.exp (-|dt * ((k : ℝ) + 1) - dt * ((i : ℝ) + 1)| / ell) * sigma ^ 2 := by
    intro i k hik
    have h : ∀ j : Fin T, ouL ell sigma dt T i j * ouL ell sigma dt T k j
        = if (j : ℕ) ∈ Finset.range ((i : ℕ) + 1) then
          ouF ell dt ^ ((k : ℕ) - i) * (ouF ell dt ^ ((i : ℕ) - j) * ouC ell sigma dt j) ^ 2 else 0 := by
      intro j
      simp only [ouL, Matrix.of_apply, Finset.mem_range]
      by_cases hj : j ≤ i
      · have hj' : (j : ℕ) ≤ i := hj
        rw [if_pos hj, if_pos (hj.trans hik), if_pos (by omega)]
        have : (k : ℕ) - j = (k - i) + (i - j) := by
          have : (i : ℕ) ≤ k := hik
          omega
        rw [this, pow_add]
        ring
      · have hj' : ¬ (j : ℕ) ≤ i := hj
        rw [if_neg hj, zero_mul, if_neg (by omega)]
    rw [Finset.sum_congr rfl fun j _ => h j, Fin.sum_univ_eq_sum_range (fun j => if j ∈ Finset.range ((i : ℕ) + 1) then
      ouF ell dt ^ ((k : ℕ) - i) * (ouF ell dt ^ ((i : ℕ) - j) * ouC ell sigma dt j) ^ 2 else 0) T, Finset.sum_ite_mem,
      Finset.inter_eq_right.2 (Finset.range_subset_range.2 i.2), ← Finset.mul_sum, ou_row_sum h1 h2 h3, ouF, ← Real.exp_nat_mul]
    congr 2
    have hc : ((((k : ℕ) - (i : ℕ) : ℕ) : ℕ) : ℝ) = (k : ℝ) - i := by
      rw [Nat.cast_sub hik]
    have hnn : (0 : ℝ) ≤ (k : ℝ) - i := by
      rw [sub_nonneg]
      exact_mod_cast hik
    rw [hc, show dt * ((k : ℝ) + 1) - dt * ((i : ℝ) + 1) = dt * ((k : ℝ) - i) by ring, abs_of_nonneg (by positivity)]
    ring
  refine ⟨?_, ?_, ?_⟩
  · intro i j hij
    simp only [ouL, Matrix.of_apply]
    rw [if_neg (not_le.2 hij)]
  · intro i
    simp only [ouL, Matrix.of_apply, le_refl, if_true, tsub_self, pow_zero, one_mul, ouC]
    split
    · exact h2
    · exact Real.sqrt_pos.2 (ouSigma_pos h1 h2 h3)
  · ext i k
    rw [Matrix.mul_apply]
    simp only [Matrix.transpose_apply, matern12, Matrix.of_apply, ou_grid]
    rcases le_total i k with h | h
    · exact hle i k h
    · rw [Finset.sum_congr rfl fun j _ => mul_comm _ _, hle k i h, abs_sub_comm]

theorem ouL_rec (T : ℕ) (z : Fin (T + 1) → ℝ) :
    (ouL ell sigma dt (T + 1) *ᵥ z) 0 = sigma * z 0 ∧
    ∀ k : Fin T, (ouL ell sigma dt (T + 1) *ᵥ z) k.succ
      = ouF ell dt * (ouL ell sigma dt (T + 1) *ᵥ z) k.castSucc + √(ouSigma ell sigma dt) * z k.succ := by
  have hsum : ∀ i : Fin (T + 1), (ouL ell sigma dt (T + 1) *ᵥ z) i
      = ∑ j ∈ Finset.range ((i : ℕ) + 1), ouF ell dt ^ ((i : ℕ) - j) * ouC ell sigma dt j
          * (if h : j < T + 1 then z ⟨j, h⟩ else 0) := by
    intro i
    rw [Matrix.mulVec, dotProduct]
    have h : ∀ j : Fin (T + 1), ouL ell sigma dt (T + 1) i j * z j = (fun j : ℕ => if j ∈ Finset.range ((i : ℕ) + 1) then
        ouF ell dt ^ ((i : ℕ) - j) * ouC ell sigma dt j * (if h : j < T + 1 then z ⟨j, h⟩ else 0) else 0) j := by
      intro j
      simp only [ouL, Matrix.of_apply, Finset.mem_range, j.2, dif_pos]
      by_cases hj : j ≤ i
      · have hj' : (j : ℕ) ≤ i := hj
        rw [if_pos hj, if_pos (by omega)]
      · have hj' : ¬ (j : ℕ) ≤ i := hj
        rw [if_neg hj, zero_mul, if_neg (by omega)]
    rw [Finset.sum_congr rfl fun j _ => h j, Fin.sum_univ_eq_sum_range (fun j : ℕ => if j ∈ Finset.range ((i : ℕ) + 1) then
        ouF ell dt ^ ((i : ℕ) - j) * ouC ell sigma dt j * (if h : j < T + 1 then z ⟨j, h⟩ else 0) else 0), Finset.sum_ite_mem,
      Finset.inter_eq_right.2 (Finset.range_subset_range.2 i.2)]
  refine ⟨by rw [hsum]; simp [ouC], fun k => ?_⟩
  rw [hsum, hsum, Fin.val_succ, Fin.val_castSucc, Finset.sum_range_succ, Finset.mul_sum]
  congr 1
  · refine Finset.sum_congr rfl fun j hj => ?_
    have : (k : ℕ) + 1 - j = (k - j) + 1 := by
      have := Finset.mem_range.1 hj
      omega
    rw [this]
    ring
  · have hk : (k : ℕ) + 1 < T + 1 := by omega
    simp only [tsub_self, pow_zero, one_mul, ouC, Nat.succ_ne_zero, if_false, dif_pos hk]
    rfl

/-- **C116.** In the convergence experiment, `F` and `Sigma` are the exact discretisation of the Ornstein–Uhlenbeck equation (as
computed by `discretise_lti_sde` from its drift and dispersion), the initial variance `sigma²` is stationary, and the
trajectory simulated through the Cholesky factor of the Matérn covariance *is* the Markov chain that the filters assume: from
the same standard normal draws `z`, `xs[0] = sigma z[0]` and `xs[k+1] = F xs[k] + √Sigma z[k+1]`. -/
theorem C116_ou_experiment (B : Backend) (hB : B.Valid) (h1 : 0 < ell) (h2 : 0 < sigma) (h3 : 0 < dt) :
    Utils.discretiseLtiSde (Matrix.of fun _ _ : Fin 1 => ouDrift ell 1) (Matrix.of fun _ _ : Fin 1 => ouDispersion ell sigma) dt
      = (Matrix.of fun _ _ => ouF ell dt, Matrix.of fun _ _ => ouSigma ell sigma dt) ∧
    0 < ouSigma ell sigma dt ∧ ouF ell dt * sigma ^ 2 * ouF ell dt + ouSigma ell sigma dt = sigma ^ 2 ∧
    ∀ (T : ℕ) (z : Fin (T + 1) → ℝ), ouSimulate B ell sigma dt z 0 = sigma * z 0 ∧
      ∀ k : Fin T, ouSimulate B ell sigma dt z k.succ
        = ouF ell dt * ouSimulate B ell sigma dt z k.castSucc + √(ouSigma ell sigma dt) * z k.succ := by
  have hexp : ∀ s : ℝ, NormedSpace.exp (s • (Matrix.of fun _ _ : Fin 1 => ouDrift ell 1)) = Matrix.of fun _ _ : Fin 1 => Real.exp (-s / ell) := by
    intro s
    have : s • (Matrix.of fun _ _ : Fin 1 => ouDrift ell 1) = Matrix.diagonal fun _ : Fin 1 => -s / ell := by
      ext i j
      simp only [Subsingleton.elim j i, Matrix.smul_apply, Matrix.of_apply, Matrix.diagonal_apply_eq, ouDrift, smul_eq_mul]
      ring
    rw [this, Matrix.exp_diagonal]
    ext i j
    simp [Subsingleton.elim j i, Pi.coe_exp, Real.exp_eq_exp_ℝ]
  refine ⟨?_, ouSigma_pos h1 h2 h3, ou_stationary, fun T z => ?_⟩
  · obtain ⟨c1, c2, -⟩ := C54_discretise (Matrix.of fun _ _ : Fin 1 => ouDrift ell 1) (Matrix.of fun _ _ : Fin 1 => ouDispersion ell sigma)
    refine Prod.ext ?_ ?_
    · rw [c1, hexp]
      rfl
    · ext i j
      rw [c2]
      have h : ∀ s : ℝ, (NormedSpace.exp (s • (Matrix.of fun _ _ : Fin 1 => ouDrift ell 1)) * (Matrix.of fun _ _ : Fin 1 => ouDispersion ell sigma)
          * (Matrix.of fun _ _ : Fin 1 => ouDispersion ell sigma)ᵀ
          * (NormedSpace.exp (s • (Matrix.of fun _ _ : Fin 1 => ouDrift ell 1)))ᵀ) i j = 2 * sigma ^ 2 / ell * Real.exp (-2 / ell * s) := by
        intro s
        rw [hexp]
        simp only [Matrix.mul_apply, Finset.univ_unique, Finset.sum_singleton, Matrix.transpose_apply, Matrix.of_apply, ouDispersion]
        have e1 : Real.exp (-2 / ell * s) = Real.exp (-s / ell) * Real.exp (-s / ell) := by
          rw [← Real.exp_add]
          congr 1
          ring
        have e2 : √2 * √2 = (2 : ℝ) := Real.mul_self_sqrt (by norm_num)
        have e3 : √ell * √ell = ell := Real.mul_self_sqrt h1.le
        have e4 : √ell ≠ 0 := (Real.sqrt_pos.2 h1).ne'
        rw [e1]
        calc _ = (√2 * √2) * sigma ^ 2 / (√ell * √ell) * (Real.exp (-s / ell) * Real.exp (-s / ell)) := by
              field_simp
          _ = _ := by rw [e2, e3]
      simp only [h]
      rw [intervalIntegral.integral_const_mul,
        intervalIntegral.integral_comp_mul_left (fun x => Real.exp x) (div_ne_zero (by norm_num) h1.ne'), integral_exp]
      simp only [mul_zero, Real.exp_zero, smul_eq_mul, Matrix.of_apply, ouSigma]
      rw [show -2 / ell * dt = -2 * dt / ell by ring]
      have := h1.ne'
      field_simp
      ring
  · have hch := ouL_isChol h1 h2 h3 (T + 1)
    have : B.chol (symmetrize (matern12 ell sigma (linspace dt (dt * (T + 1 : ℕ)) (T + 1)) (linspace dt (dt * (T + 1 : ℕ)) (T + 1))))
        = ouL ell sigma dt (T + 1) := (Classical.chol_symm hB hch.posDef).unique hch
    simp only [ouSimulate, this]
    exact ouL_rec T z

end ou

theorem script_step (B : Backend) (ok : Classical.UpdateShapeOk 1 1) (F Sigma R y : ℝ) (c : Classical.Belief 1 × ℝ) :
    let c' := (Classical.filterBody (Classical.linearPredict !![F] !![Sigma])
      (fun p y => Classical.linearUpdate B ok p !![1] (!![1] *ᵥ p.1) !![R] y) c ![y]).1
    kfBody F Sigma R (c.1.1 0, c.1.2 0 0, c.2) y = ((c'.1.1 0, c'.1.2 0 0, c'.2), (c'.1.1 0, c'.1.2 0 0)) := by
  obtain ⟨⟨m, v⟩, n⟩ := c
  simp only [Classical.filterBody, Classical.linearUpdate, Classical.linearPredict, Classical.linearGain, Classical.linearNell,
    Classical.logNormalPdf, kfBody, normLogpdf, dif_pos]
  simp only [Matrix.mulVec, dotProduct, Matrix.mul_apply, Finset.univ_unique, Finset.sum_singleton, Fin.default_eq_zero,
    Matrix.transpose_apply, Matrix.add_apply, Matrix.sub_apply, Pi.add_apply, Pi.sub_apply, Matrix.of_apply,
    Matrix.cons_val_fin_one, Fin.zero_eta, Fin.isValue, one_mul, mul_one]
  have h1 : F * v 0 0 * F + Sigma - (F * v 0 0 * F + Sigma) * ((F * v 0 0 * F + Sigma) / (F * v 0 0 * F + Sigma + R))
      = F * v 0 0 * F + Sigma - (F * v 0 0 * F + Sigma) / (F * v 0 0 * F + Sigma + R) * (F * v 0 0 * F + Sigma + R) *
        ((F * v 0 0 * F + Sigma) / (F * v 0 0 * F + Sigma + R)) := by
    rcases eq_or_ne (F * v 0 0 * F + Sigma + R) 0 with h | h
    · simp [h]
    · field_simp
  rw [h1]
  simp only [Prod.mk.injEq, true_and, and_true]
  ring

/-- **C117.** The reference filter written out in the convergence scripts is the library's `kf` for scalar states: same means,
variances and negative log-likelihood, for all inputs. -/
theorem C117_script_kf (B : Backend) (F Sigma R m0 v0 : ℝ) (ys : List ℝ) :
    ∃ out, Classical.kf B !![F] !![Sigma] !![1] !![R] ![m0] !![v0] (ys.map fun y => ![y]) = some out ∧
      (Experiments.kf F Sigma R m0 v0 ys).1 = out.map (fun o => (o.1.1 0, o.1.2 0 0)) ∧
      (Experiments.kf F Sigma R m0 v0 ys).2 = (out.map fun o => o.2).getLastD 0 := by
  have ok : Classical.UpdateShapeOk 1 1 := Or.inl rfl
  have key : ∀ (ys : List ℝ) (c : Classical.Belief 1 × ℝ),
      let s := scan (Classical.filterBody (Classical.linearPredict !![F] !![Sigma])
        (fun p y => Classical.linearUpdate B ok p !![1] (!![1] *ᵥ p.1) !![R] y)) c (ys.map fun y => ![y])
      let t := scan (kfBody F Sigma R) (c.1.1 0, c.1.2 0 0, c.2) ys
      t.2 = s.2.map (fun o => (o.1.1 0, o.1.2 0 0)) ∧ t.1.2.2 = (s.2.map fun o => o.2).getLastD c.2 := by
    intro ys
    induction ys with
    | nil => intro c; exact ⟨rfl, rfl⟩
    | cons y ys ih =>
      intro c
      have h := script_step B ok F Sigma R y c
      simp only at h
      obtain ⟨i1, i2⟩ := ih (Classical.filterBody (Classical.linearPredict !![F] !![Sigma])
        (fun p y => Classical.linearUpdate B ok p !![1] (!![1] *ᵥ p.1) !![R] y) c ![y]).1
      simp only [scan, List.map_cons, h]
      refine ⟨?_, ?_⟩
      · rw [i1]
        rfl
      · rw [i2, List.getLastD_cons]
        rfl
  obtain ⟨k1, k2⟩ := key ys ((![m0], !![v0]), 0)
  exact ⟨_, by rw [Classical.kf, dif_pos ok], k1, k2⟩

/-- the constants of the script: `ell = 1`, `sigma = 0.5`, `dt = 0.1`. -/
example : 0 < ouSigma 1 0.5 0.1 :=
  (C116_ou_experiment theBackend theBackend_valid one_pos (by norm_num) (by norm_num)).2.1

/-- one step of the script's filter. -/
example : (Experiments.kf 0 1 1 0 1 [2]).1 = [(1, 1 / 2)] := by
  norm_num [Experiments.kf, scan, kfBody]

end Mfs.Props

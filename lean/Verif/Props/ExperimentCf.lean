import Verif.Model.Experiments
import Verif.Props.Moments1
import Verif.Props.ExperimentErrors
import Mathlib.MeasureTheory.Measure.CharacteristicFunction.Basic
import Mathlib.Algebra.Order.BigOperators.Ring.Finset

/-!
# Properties C121, C122, C123: characteristic-function errors, the estimation script and the notebook's Euler moments
-/

namespace Mfs.Props

open Mfs.Experiments MeasureTheory ProbabilityTheory
open scoped NNReal ENNReal

/-- the empirical measure of a particle set. -/
noncomputable def empirical {n : ℕ} (samples : Fin n → ℝ) : Measure ℝ := (n : ℝ≥0∞)⁻¹ • ∑ i, Measure.dirac (samples i)

/-- **C121**, first part. The characteristic functions of the scripts are those of the normal law and of the empirical measure
of the particles. -/
theorem C121_cfs :
    (∀ z m (v : ℝ≥0), ghfCf z m v = charFun (gaussianReal m v) z) ∧
    (∀ z m v, 0 ≤ v → ‖ghfCf z m v‖ ≤ 1) ∧
    (∀ (n : ℕ) z (samples : Fin n → ℝ), 0 < n → pfCf z samples = charFun (empirical samples) z) ∧
    (∀ (n : ℕ) z (samples : Fin n → ℝ), ‖pfCf z samples‖ ≤ 1) := by
  have hg : ∀ z m (v : ℝ≥0), ghfCf z m v = charFun (gaussianReal m v) z := by
    intro z m v
    rw [charFun_gaussianReal, ghfCf]
    congr 1
    ring
  refine ⟨hg, ?_, ?_, ?_⟩
  · intro z m v hv
    lift v to ℝ≥0 using hv
    rw [hg]
    exact norm_charFun_le_one z
  · intro n z s hn
    rw [charFun_apply_real, empirical, integral_smul_measure, integral_finsetSum_measure fun i _ => by
      exact integrable_dirac (by simp)]
    simp only [integral_dirac]
    rw [pfCf, ENNReal.toReal_inv, ENNReal.toReal_natCast, Complex.real_smul, div_eq_inv_mul]
    push_cast
    congr 1
    refine Finset.sum_congr rfl fun i _ => ?_
    congr 1
    ring
  · intro n z s
    rw [pfCf, norm_div, Complex.norm_natCast]
    refine div_le_one_of_le₀ ?_ (Nat.cast_nonneg n)
    refine (norm_sum_le _ _).trans ?_
    have : ∀ i ∈ Finset.univ, ‖Complex.exp (1 * Complex.I * z * s i)‖ = 1 := by
      intro i _
      rw [show 1 * Complex.I * (z : ℂ) * s i = ((z * s i : ℝ) : ℂ) * Complex.I by push_cast; ring, Complex.norm_exp_ofReal_mul_I]
    rw [Finset.sum_congr rfl this]
    simp

/-- particles at `0` and `1`. -/
example : pfCf 0 ![0, 1] = 1 := by simp [pfCf]

section grid

variable {m : ℕ} {zs : Fin (m + 1) → ℝ}

theorem trapz_mono (hz : StrictMono zs) {a b : Fin (m + 1) → ℝ} (h : ∀ i, a i ≤ b i) : trapz a zs ≤ trapz b zs := by
  refine Finset.sum_le_sum fun i _ => ?_
  have : 0 < zs i.succ - zs i.castSucc := sub_pos.2 (hz (Fin.castSucc_lt_succ (i := i)))
  have := h i.succ
  have := h i.castSucc
  gcongr

theorem trapz_add (a b : Fin (m + 1) → ℝ) : trapz (fun i => a i + b i) zs = trapz a zs + trapz b zs := by
  simp only [trapz, ← Finset.sum_add_distrib]
  exact Finset.sum_congr rfl fun i _ => by ring

theorem trapz_const_mul (c : ℝ) (a : Fin (m + 1) → ℝ) : trapz (fun i => c * a i) zs = c * trapz a zs := by
  simp only [trapz, Finset.mul_sum]
  exact Finset.sum_congr rfl fun i _ => by ring

theorem trapz_const (c : ℝ) : trapz (fun _ => c) zs = c * (zs (Fin.last m) - zs 0) := by
  have : ∀ i : Fin m, (zs i.succ - zs i.castSucc) * (c + c) / 2 = c * (zs i.succ - zs i.castSucc) := fun i => by ring
  simp only [trapz, this, ← Finset.mul_sum]
  congr 1
  induction m with
  | zero => simp
  | succ m ih =>
    rw [Fin.sum_univ_castSucc]
    have := ih (zs := fun i => zs i.castSucc) (fun i => by ring)
    simp only [Fin.succ_castSucc] at this ⊢
    rw [this]
    simp

theorem trapz_eq_zero (hm : 0 < m) (hz : StrictMono zs) {a : Fin (m + 1) → ℝ} (h : ∀ i, 0 ≤ a i) (h0 : trapz a zs = 0) (i) : a i = 0 := by
  have hd : ∀ i : Fin m, 0 < zs i.succ - zs i.castSucc := fun i => sub_pos.2 (hz (Fin.castSucc_lt_succ (i := i)))
  have hz : ∀ i ∈ (Finset.univ : Finset (Fin m)), (zs i.succ - zs i.castSucc) * (a i.succ + a i.castSucc) / 2 = 0 := by
    rw [← Finset.sum_eq_zero_iff_of_nonneg]
    · exact h0
    · intro i _
      have := hd i
      have := h i.succ
      have := h i.castSucc
      positivity
  have hs : ∀ j : Fin m, a j.succ = 0 ∧ a j.castSucc = 0 := by
    intro j
    have h1 := hz j (Finset.mem_univ j)
    have h2 : a j.succ + a j.castSucc = 0 := by
      have := (hd j).ne'
      field_simp at h1
      simpa [this] using h1
    constructor <;> linarith [h j.succ, h j.castSucc]
  induction i using Fin.cases with
  | zero =>
    have := (hs ⟨0, hm⟩).2
    simpa using this
  | succ j => exact (hs j).1

/-- Cauchy–Schwarz for the trapezoidal sum. -/
theorem trapz_cs (hz : StrictMono zs) (a b : Fin (m + 1) → ℝ) :
    trapz (fun i => a i * b i) zs ^ 2 ≤ trapz (fun i => a i ^ 2) zs * trapz (fun i => b i ^ 2) zs := by
  have hA : 0 ≤ trapz (fun i => a i ^ 2) zs := by
    have := trapz_mono hz (a := fun _ => 0) (b := fun i => a i ^ 2) (fun i => sq_nonneg _)
    simpa [trapz_const] using this
  have key : ∀ t : ℝ, 0 ≤ trapz (fun i => b i ^ 2) zs * (t * t) + (2 * trapz (fun i => a i * b i) zs) * t
      + trapz (fun i => a i ^ 2) zs := by
    intro t
    have h1 := trapz_mono hz (a := fun _ => 0) (b := fun i => (t * b i + a i) ^ 2) (fun i => sq_nonneg _)
    have h2 : trapz (fun i => (t * b i + a i) ^ 2) zs = trapz (fun i => (t * t) * b i ^ 2 + (2 * t) * (a i * b i) + a i ^ 2) zs := by
      congr 1
      ext i
      ring
    rw [trapz_const, zero_mul, h2, trapz_add, trapz_add, trapz_const_mul, trapz_const_mul] at h1
    linarith
  have := discrim_le_zero key
  rw [discrim] at this
  linarith

/-- **C121**, second part. The three errors are metrics on functions on the grid and are comparable. -/
theorem C121_cf_errors (hm : 0 < m) (hz : StrictMono zs) (f g h : Fin (m + 1) → ℂ) :
    (0 ≤ errL1 zs f g ∧ 0 ≤ errL2 zs f g ∧ 0 ≤ errSup f g) ∧
    (errL1 zs f g = errL1 zs g f ∧ errL2 zs f g = errL2 zs g f ∧ errSup f g = errSup g f) ∧
    ((errL1 zs f g = 0 ↔ f = g) ∧ (errL2 zs f g = 0 ↔ f = g) ∧ (errSup f g = 0 ↔ f = g)) ∧
    (errL1 zs f h ≤ errL1 zs f g + errL1 zs g h ∧ errL2 zs f h ≤ errL2 zs f g + errL2 zs g h ∧
      errSup f h ≤ errSup f g + errSup g h) ∧
    errL1 zs f g ≤ (zs (Fin.last m) - zs 0) * errSup f g ∧
    errL2 zs f g ^ 2 ≤ errSup f g * errL1 zs f g ∧
    errL1 zs f g ^ 2 ≤ (zs (Fin.last m) - zs 0) * errL2 zs f g ^ 2 := by
  have hpos : ∀ a : Fin (m + 1) → ℝ, (∀ i, 0 ≤ a i) → 0 ≤ trapz a zs := by
    intro a ha
    have := trapz_mono hz (a := fun _ => 0) (b := a) ha
    simpa [trapz_const] using this
  have hle : ∀ (f g : Fin (m + 1) → ℂ) i, ‖f i - g i‖ ≤ errSup f g := fun f g i =>
    Finset.le_sup' (fun i => ‖f i - g i‖) (Finset.mem_univ i)
  have h0 : ∀ f g : Fin (m + 1) → ℂ, 0 ≤ errSup f g := fun f g => (norm_nonneg _).trans (hle f g 0)
  have hsq : ∀ f g : Fin (m + 1) → ℂ, errL2 zs f g ^ 2 = trapz (fun i => ‖f i - g i‖ ^ 2) zs := fun f g =>
    Real.sq_sqrt (hpos _ fun i => sq_nonneg _)
  have hz1 : errL1 zs f g = 0 ↔ f = g := by
    constructor
    · intro h
      funext i
      have := trapz_eq_zero hm hz (fun i => norm_nonneg (f i - g i)) h i
      exact sub_eq_zero.1 (norm_eq_zero.1 this)
    · rintro rfl
      simp [errL1, trapz_const]
  have hz2 : errL2 zs f g = 0 ↔ f = g := by
    constructor
    · intro h
      funext i
      have h' := hsq f g
      rw [h] at h'
      have := trapz_eq_zero hm hz (fun i => sq_nonneg ‖f i - g i‖) (by rw [← h']; norm_num) i
      exact sub_eq_zero.1 (norm_eq_zero.1 (pow_eq_zero_iff (two_ne_zero)|>.1 this))
    · rintro rfl
      simp [errL2, trapz_const]
  have hz3 : errSup f g = 0 ↔ f = g := by
    constructor
    · intro h
      funext i
      have := hle f g i
      rw [h] at this
      exact sub_eq_zero.1 (norm_le_zero_iff.1 this)
    · rintro rfl
      simp [errSup]
  refine ⟨⟨hpos _ fun i => norm_nonneg _, Real.sqrt_nonneg _, h0 f g⟩, ⟨?_, ?_, ?_⟩, ⟨hz1, hz2, hz3⟩, ⟨?_, ?_, ?_⟩, ?_, ?_, ?_⟩
  · simp only [errL1, norm_sub_rev]
  · simp only [errL2, norm_sub_rev]
  · simp only [errSup, norm_sub_rev]
  · rw [errL1, errL1, errL1, ← trapz_add]
    exact trapz_mono hz fun i => norm_sub_le_norm_sub_add_norm_sub _ _ _
  · have hn : ∀ f g : Fin (m + 1) → ℂ, 0 ≤ errL2 zs f g := fun f g => Real.sqrt_nonneg _
    refine (sq_le_sq₀ (hn _ _) (add_nonneg (hn _ _) (hn _ _))).1 ?_
    rw [add_sq, hsq, hsq, hsq]
    have h1 : trapz (fun i => ‖f i - h i‖ ^ 2) zs
        ≤ trapz (fun i => ‖f i - g i‖ ^ 2 + 2 * (‖f i - g i‖ * ‖g i - h i‖) + ‖g i - h i‖ ^ 2) zs := by
      refine trapz_mono hz fun i => ?_
      have := norm_sub_le_norm_sub_add_norm_sub (f i) (g i) (h i)
      nlinarith [norm_nonneg (f i - h i), norm_nonneg (f i - g i), norm_nonneg (g i - h i)]
    rw [trapz_add, trapz_add, trapz_const_mul] at h1
    have h2 : trapz (fun i => ‖f i - g i‖ * ‖g i - h i‖) zs ≤ errL2 zs f g * errL2 zs g h := by
      refine abs_le_of_sq_le_sq' ?_ (mul_nonneg (hn _ _) (hn _ _)) |>.2
      rw [mul_pow, hsq, hsq]
      exact trapz_cs hz _ _
    linarith
  · refine Finset.sup'_le _ _ fun i _ => ?_
    exact (norm_sub_le_norm_sub_add_norm_sub _ (g i) _).trans (add_le_add (hle f g i) (hle g h i))
  · have := trapz_mono hz (hle f g)
    rw [trapz_const] at this
    rw [errL1]
    linarith
  · rw [hsq, errL1, ← trapz_const_mul]
    refine trapz_mono hz fun i => ?_
    rw [sq]
    exact mul_le_mul_of_nonneg_right (hle f g i) (norm_nonneg _)
  · have := trapz_cs hz (fun i => ‖f i - g i‖) (fun _ => 1)
    simp only [mul_one, one_pow, trapz_const, one_mul] at this
    rw [hsq, errL1]
    linarith

end grid

/-- the grid of the script is increasing. -/
theorem linspace_strictMono {a b : ℝ} (hab : a < b) (m : ℕ) : StrictMono (linspace a b (m + 1)) := by
  intro i j hij
  have hm : (0 : ℝ) < m := by
    have : 0 < m := by
      have := j.2
      have : (i : ℕ) < j := hij
      omega
    exact_mod_cast this
  have h1 : (i : ℝ) < j := by exact_mod_cast hij
  have h2 : 0 < (b - a) / ((m + 1 : ℕ) - 1 : ℝ) := by
    push_cast
    have : 0 < b - a := sub_pos.2 hab
    rw [add_sub_cancel_right]
    positivity
  simp only [linspace]
  have := mul_lt_mul_of_pos_right h1 h2
  linarith

example : StrictMono (linspace (-2) 2 (1999 + 1)) := linspace_strictMono (by norm_num) 1999

/-! ## The estimation script -/

/-- **C122**, refuted. The estimate saved for the Gauss–Hermite filter is always the one of the extended Kalman filter; with an
exact optimiser it need not minimise the Gauss–Hermite objective. -/
theorem C122_ghf_estimate_wrong :
    (∀ (P : Type) (minimise : (P → ℝ) → P → P) (objGhf objEkf : P → ℝ) (pos : P → P) (init : P),
      (estimate minimise objGhf objEkf pos init).1 = (estimate minimise objGhf objEkf pos init).2) ∧
    ∃ (minimise : (ℝ → ℝ) → ℝ → ℝ) (objGhf objEkf : ℝ → ℝ),
      (∀ (f : ℝ → ℝ) init, (∃ p, ∀ q, f p ≤ f q) → ∀ q, f (minimise f init) ≤ f q) ∧ (∃ p, ∀ q, objGhf p ≤ objGhf q) ∧
      ∀ init, ∃ q, objGhf q < objGhf (estimate minimise objGhf objEkf id init).1 := by
  refine ⟨fun _ _ _ _ _ _ => rfl, ?_⟩
  classical
  let mi : (ℝ → ℝ) → ℝ → ℝ := fun f init => if h : ∃ p, ∀ q, f p ≤ f q then h.choose else init
  have hmi : ∀ (f : ℝ → ℝ) init, (∃ p, ∀ q, f p ≤ f q) → ∀ q, f (mi f init) ≤ f q := by
    intro f init h
    simp only [mi, dif_pos h]
    exact h.choose_spec
  refine ⟨mi, fun p => p ^ 2, fun p => (p - 1) ^ 2, hmi, ⟨0, fun q => by
    show (0 : ℝ) ^ 2 ≤ q ^ 2
    nlinarith [sq_nonneg q]⟩, fun init => ⟨0, ?_⟩⟩
  have h := hmi (fun p => (p - 1) ^ 2) init ⟨1, fun q => by
    show (1 - 1 : ℝ) ^ 2 ≤ (q - 1) ^ 2
    nlinarith [sq_nonneg (q - 1)]⟩ 1
  simp only [sub_self] at h
  have h1 : mi (fun p => (p - 1) ^ 2) init = 1 := by nlinarith [sq_nonneg (mi (fun p => (p - 1) ^ 2) init - 1)]
  simp only [estimate, id, h1]
  norm_num

/-- **C122**, the part that holds: if both objectives are the same, the estimate minimises the Gauss–Hermite objective. -/
theorem C122_ghf_estimate_partial {P : Type} (minimise : (P → ℝ) → P → P) (objGhf objEkf : P → ℝ) (init : P)
    (hmin : ∀ q, objEkf (minimise objEkf init) ≤ objEkf q) (hsame : ∀ p, objGhf p = objEkf p) (q : P) :
    objGhf (estimate minimise objGhf objEkf id init).1 ≤ objGhf q := by
  rw [hsame, hsame]
  exact hmin q

example : ∀ q : ℝ, (fun p : ℝ => p ^ 2) (estimate (fun _ _ => 0) (fun p => p ^ 2) (fun p => p ^ 2) id 1).1 ≤ q ^ 2 :=
  C122_ghf_estimate_partial (fun _ _ => 0) (fun p : ℝ => p ^ 2) (fun p => p ^ 2) 1
    (fun q => by
      show (0 : ℝ) ^ 2 ≤ q ^ 2
      nlinarith [sq_nonneg q]) (fun _ => rfl)

/-! ## The notebook -/

/-- **C123**, refuted. The Euler–Maruyama moments of the notebook are not those of the library: the second moments differ at
every point where the dispersion does not vanish unless the time step is one. -/
theorem C123_notebook_euler_wrong (drift dispersion : ℝ → ℝ) (dt : ℝ) (h0 : 0 ≤ dt) (hdt : dt ≠ 1) (N : ℕ) (hN : 2 ≤ N) (x : ℝ)
    (hx : dispersion x ≠ 0) :
    notebookEuler drift dispersion dt N x 2 ≠ (Moments1.sdeCondMomentsEuler drift dispersion dt N).raw x 2 := by
  have hr : ∀ (m v : ℝ), 0 ≤ v → Moments1.rawMomentOfNormal m v 2 = v + m ^ 2 := by
    intro m v hv
    lift v to ℝ≥0 using hv
    rw [rawNormal_eq]
    simpa using integral_sq_gaussian m 0 v
  have hg : ∀ f : ℕ → ℝ, jget ((List.range (2 * N)).map f) 2 = f 2 := by
    intro f
    have h1 : 2 < 2 * N := by omega
    have h2 : min 2 (2 * N - 1) = 2 := by omega
    simp [jget, h1, h2]
  simp only [notebookEuler, Moments1.sdeCondMomentsEuler, hg]
  rw [hr _ _ (sq_nonneg _), hr _ _ (by positivity)]
  intro h
  have h1 : dispersion x ^ 2 * (1 - dt) = 0 := by linarith
  rcases mul_eq_zero.1 h1 with h2 | h2
  · exact hx (pow_eq_zero_iff two_ne_zero |>.1 h2)
  · exact hdt (by linarith)

/-- **C123, sharp.** The two agree at a point exactly if the time step is one or the dispersion vanishes there. -/
theorem C123_notebook_euler_iff (drift dispersion : ℝ → ℝ) (dt : ℝ) (h0 : 0 ≤ dt) (N : ℕ) (hN : 2 ≤ N) (x : ℝ) :
    (∀ n, notebookEuler drift dispersion dt N x n = (Moments1.sdeCondMomentsEuler drift dispersion dt N).raw x n) ↔
      dt = 1 ∨ dispersion x = 0 := by
  constructor
  · intro h
    by_contra hc
    push Not at hc
    exact C123_notebook_euler_wrong drift dispersion dt h0 hc.1 N hN x hc.2 (h 2)
  · rintro (rfl | h) n
    · simp only [notebookEuler, Moments1.sdeCondMomentsEuler, mul_one]
    · simp only [notebookEuler, Moments1.sdeCondMomentsEuler, h]
      norm_num

/-- the Beneš model of the notebook: drift `tanh`, dispersion one, `dt = 0.01`. -/
example (x : ℝ) : notebookEuler Real.tanh (fun _ => 1) 0.01 5 x 2
    ≠ (Moments1.sdeCondMomentsEuler Real.tanh (fun _ => 1) 0.01 5).raw x 2 :=
  C123_notebook_euler_wrong _ _ _ (by norm_num) (by norm_num) 5 (by norm_num) x one_ne_zero

/-- **C123**, the part that holds: with `dt = 1` the two agree. -/
theorem C123_notebook_euler_partial (drift dispersion : ℝ → ℝ) (N : ℕ) (x : ℝ) (n : ℕ) :
    notebookEuler drift dispersion 1 N x n = (Moments1.sdeCondMomentsEuler drift dispersion 1 N).raw x n := by
  simp only [notebookEuler, Moments1.sdeCondMomentsEuler, mul_one]

end Mfs.Props

import Mathlib.MeasureTheory.Function.JacobianOneDim
import Mathlib.MeasureTheory.Constructions.Pi
import Mathlib.MeasureTheory.Measure.Lebesgue.EqHaar
import Mathlib.Analysis.SpecialFunctions.Gamma.Basic
import Mathlib.Analysis.SpecialFunctions.Log.Deriv
import Mathlib.Data.Fin.Tuple.Sort
import Mathlib.Data.Fintype.Perm

/-!
# Normalised partial sums of exponential variables are uniform order statistics

`psum s0 u` are the partial sums `s0 - log u_0 - … - log u_k`.
-/

namespace Mfs.OrderStat

open MeasureTheory

/-- the uniform law on `[0, 1)`. -/
noncomputable def unif : Measure ℝ := (volume : Measure ℝ).restrict (Set.Ico 0 1)

instance : IsProbabilityMeasure unif := ⟨by simp [unif]⟩

/-- partial sums of `-log u`, started at `s0`. -/
noncomputable def psum : {n : ℕ} → ℝ → (Fin n → ℝ) → Fin n → ℝ
  | 0, _, _ => Fin.elim0
  | _ + 1, s0, u => Fin.cons (s0 + -Real.log (u 0)) (psum (s0 + -Real.log (u 0)) (Fin.tail u))

/-- density of one step. -/
noncomputable def step (s0 s : ℝ) : ENNReal := (Set.Ioi s0).indicator (fun s => ENNReal.ofReal (Real.exp (-(s - s0)))) s

/-- joint density of the partial sums. -/
noncomputable def dens : {n : ℕ} → ℝ → (Fin n → ℝ) → ENNReal
  | 0, _, _ => 1
  | _ + 1, s0, s => step s0 (s 0) * dens (s 0) (Fin.tail s)

theorem measurable_psum (n : ℕ) : Measurable fun p : ℝ × (Fin n → ℝ) => psum p.1 p.2 := by
  induction n with
  | zero => exact measurable_pi_lambda _ fun i => i.elim0
  | succ n ih =>
    have h0 : Measurable fun p : ℝ × (Fin (n + 1) → ℝ) => p.1 + -Real.log (p.2 0) :=
      measurable_fst.add (Real.measurable_log.comp ((measurable_pi_apply 0).comp measurable_snd)).neg
    have h1 : Measurable fun p : ℝ × (Fin (n + 1) → ℝ) => Fin.tail p.2 :=
      measurable_pi_lambda _ fun i => (measurable_pi_apply i.succ).comp measurable_snd
    refine measurable_pi_lambda _ fun i => ?_
    refine Fin.cases ?_ (fun j => ?_) i
    · simpa only [psum, Fin.cons_zero] using h0
    · simp only [psum, Fin.cons_succ]
      exact (measurable_pi_apply j).comp (ih.comp (h0.prodMk h1))

theorem measurable_step : Measurable fun p : ℝ × ℝ => step p.1 p.2 := by
  have hs : MeasurableSet {p : ℝ × ℝ | p.1 < p.2} := measurableSet_lt measurable_fst measurable_snd
  have h : (fun p : ℝ × ℝ => step p.1 p.2)
      = {p : ℝ × ℝ | p.1 < p.2}.indicator fun p => ENNReal.ofReal (Real.exp (-(p.2 - p.1))) := by
    funext p
    simp only [step, Set.indicator_apply, Set.mem_Ioi, Set.mem_ofPred_eq]
  rw [h]
  exact Measurable.indicator (Real.measurable_exp.comp (measurable_snd.sub measurable_fst).neg).ennreal_ofReal hs

theorem measurable_dens (n : ℕ) : Measurable fun p : ℝ × (Fin n → ℝ) => dens p.1 p.2 := by
  induction n with
  | zero => exact measurable_const
  | succ n ih =>
    have h0 : Measurable fun p : ℝ × (Fin (n + 1) → ℝ) => p.2 0 := (measurable_pi_apply 0).comp measurable_snd
    have h1 : Measurable fun p : ℝ × (Fin (n + 1) → ℝ) => Fin.tail p.2 :=
      measurable_pi_lambda _ fun i => (measurable_pi_apply i.succ).comp measurable_snd
    exact (measurable_step.comp (measurable_fst.prodMk h0)).mul (ih.comp (h0.prodMk h1))

/-- splitting the first variable off. -/
theorem lintegral_cons (ν : Measure ℝ) [SigmaFinite ν] (T : ℕ) {φ : (Fin (T + 1) → ℝ) → ENNReal} (hφ : Measurable φ) :
    ∫⁻ x, φ x ∂(Measure.pi fun _ : Fin (T + 1) => ν)
      = ∫⁻ k, ∫⁻ x, φ (Fin.cons k x) ∂(Measure.pi fun _ : Fin T => ν) ∂ν := by
  have hmp := (measurePreserving_piFinSuccAbove (fun _ : Fin (T + 1) => ν) 0).symm
  rw [← hmp.lintegral_comp hφ]
  refine (lintegral_prod (μ := ν) (ν := Measure.pi fun _ : Fin T => ν) _ (hφ.comp hmp.measurable).aemeasurable).trans ?_
  refine lintegral_congr fun x => lintegral_congr fun xs => congrArg φ ?_
  exact Fin.insertNth_zero' x xs

/-- splitting the last variable off. -/
theorem lintegral_snoc (T : ℕ) {φ : (Fin (T + 1) → ℝ) → ENNReal} (hφ : Measurable φ) :
    ∫⁻ x, φ x = ∫⁻ t : ℝ, ∫⁻ x : Fin T → ℝ, φ (Fin.snoc x t) := by
  have hmp := (measurePreserving_piFinSuccAbove (fun _ : Fin (T + 1) => (volume : Measure ℝ)) (Fin.last T)).symm
  have h1 : ∫⁻ x, φ x = ∫⁻ x, φ x ∂(Measure.pi fun _ : Fin (T + 1) => (volume : Measure ℝ)) := rfl
  rw [h1, ← hmp.lintegral_comp hφ]
  refine (lintegral_prod (μ := (volume : Measure ℝ)) (ν := Measure.pi fun _ : Fin T => (volume : Measure ℝ)) _
    (hφ.comp hmp.measurable).aemeasurable).trans ?_
  refine lintegral_congr fun x => lintegral_congr fun xs => congrArg φ ?_
  exact Fin.insertNth_last' x xs

/-- one step: a uniform draw `u` becomes `s0 - log u`. -/
theorem lintegral_step (s0 : ℝ) (φ : ℝ → ENNReal) :
    ∫⁻ u, φ (s0 + -Real.log u) ∂unif = ∫⁻ s, step s0 s * φ s := by
  have himg : (fun s => Real.exp (-(s - s0))) '' Set.Ioi s0 = Set.Ioo 0 1 := by
    ext u
    constructor
    · rintro ⟨s, hs, rfl⟩
      exact ⟨Real.exp_pos _, by
        have : s0 < s := hs
        exact (Real.exp_lt_exp.2 (by linarith : -(s - s0) < 0)).trans_eq Real.exp_zero⟩
    · rintro ⟨h0, h1⟩
      refine ⟨s0 + -Real.log u, ?_, ?_⟩
      · have := Real.log_neg h0 h1
        show s0 < _
        linarith
      · show Real.exp (-(s0 + -Real.log u - s0)) = u
        rw [show -(s0 + -Real.log u - s0) = Real.log u by ring, Real.exp_log h0]
  have hder : ∀ s ∈ Set.Ioi s0, HasDerivWithinAt (fun s => Real.exp (-(s - s0))) (-Real.exp (-(s - s0))) (Set.Ioi s0) s := by
    intro s _
    have h : HasDerivAt (fun s => Real.exp (-(s - s0))) (Real.exp (-(s - s0)) * -1) s :=
      (((hasDerivAt_id s).sub_const s0).neg).exp
    rw [mul_neg_one] at h
    exact h.hasDerivWithinAt
  have hinj : Set.InjOn (fun s => Real.exp (-(s - s0))) (Set.Ioi s0) := by
    intro a _ b _ h
    have := Real.exp_injective h
    linarith
  have h := lintegral_image_eq_lintegral_abs_deriv_mul measurableSet_Ioi hder hinj fun u => φ (s0 + -Real.log u)
  rw [himg] at h
  rw [unif, Measure.restrict_congr_set Ioo_ae_eq_Ico.symm, h, ← lintegral_indicator measurableSet_Ioi]
  refine lintegral_congr fun s => ?_
  by_cases hs : s ∈ Set.Ioi s0
  · rw [Set.indicator_of_mem hs, step, Set.indicator_of_mem hs, abs_neg, abs_of_pos (Real.exp_pos _)]
    congr 2
    rw [Real.log_exp]; ring
  · rw [Set.indicator_of_notMem hs, step, Set.indicator_of_notMem hs, zero_mul]

/-- the partial sums have density `dens`. -/
theorem lintegral_psum (n : ℕ) (s0 : ℝ) {H : (Fin n → ℝ) → ENNReal} (hH : Measurable H) :
    ∫⁻ u, H (psum s0 u) ∂(Measure.pi fun _ : Fin n => unif) = ∫⁻ s, dens s0 s * H s := by
  induction n generalizing s0 with
  | zero =>
    have e1 : ∀ u : Fin 0 → ℝ, H (psum s0 u) = H Fin.elim0 := fun u => congrArg H (Subsingleton.elim _ _)
    have e2 : ∀ u : Fin 0 → ℝ, dens s0 u * H u = H Fin.elim0 := fun u => by
      rw [dens, one_mul]; exact congrArg H (Subsingleton.elim _ _)
    simp only [e1, e2, lintegral_const]
    rw [volume_pi, Measure.pi_univ, Measure.pi_univ]
    simp
  | succ n ih =>
    have hm : Measurable fun u : Fin (n + 1) → ℝ => H (psum s0 u) :=
      hH.comp ((measurable_psum (n + 1)).comp (measurable_const.prodMk measurable_id))
    have hd : Measurable fun s : Fin (n + 1) → ℝ => dens s0 s * H s :=
      ((measurable_dens (n + 1)).comp (measurable_const.prodMk measurable_id)).mul hH
    rw [lintegral_cons unif n hm]
    have hcons : ∀ t : ℝ, Measurable fun x : Fin n → ℝ => H (Fin.cons t x) := by
      intro t
      refine hH.comp (measurable_pi_lambda _ fun i => ?_)
      refine Fin.cases ?_ (fun j => ?_) i
      · simpa only [Fin.cons_zero] using measurable_const
      · simpa only [Fin.cons_succ] using measurable_pi_apply j
    have h1 : ∀ k, ∫⁻ x, H (psum s0 (Fin.cons k x)) ∂(Measure.pi fun _ : Fin n => unif)
        = (fun t => ∫⁻ s : Fin n → ℝ, dens t s * H (Fin.cons t s)) (s0 + -Real.log k) := by
      intro k
      have := ih (s0 + -Real.log k) (hcons (s0 + -Real.log k))
      simp only [psum, Fin.cons_zero, Fin.tail_cons]
      exact this
    simp only [h1]
    rw [lintegral_step s0 (fun t => ∫⁻ s : Fin n → ℝ, dens t s * H (Fin.cons t s))]
    have h2 := lintegral_cons volume n hd
    refine Eq.trans ?_ h2.symm
    refine lintegral_congr fun t => ?_
    simp only [dens, Fin.cons_zero, Fin.tail_cons, mul_assoc]
    rw [lintegral_const_mul]
    · rfl
    · exact ((measurable_dens n).comp (measurable_const.prodMk measurable_id)).mul (hcons t)

/-- the region of ordered points above `s0`. -/
def chainFrom {n : ℕ} (s0 : ℝ) (s : Fin n → ℝ) : Prop := (∀ i, s0 < s i) ∧ StrictMono s

theorem chainFrom_cons {n : ℕ} (s0 : ℝ) (s : Fin (n + 1) → ℝ) :
    chainFrom s0 s ↔ s0 < s 0 ∧ chainFrom (s 0) (Fin.tail s) := by
  constructor
  · rintro ⟨h1, h2⟩
    refine ⟨h1 0, fun i => h2 (Fin.succ_pos i), fun i j hij => h2 (Fin.succ_lt_succ_iff.2 hij)⟩
  · rintro ⟨h0, h1, h2⟩
    refine ⟨fun i => ?_, fun i j hij => ?_⟩
    · refine Fin.cases h0 (fun j => h0.trans (h1 j)) i
    · revert hij
      refine Fin.cases ?_ (fun i => ?_) i
      · refine Fin.cases ?_ (fun j => ?_) j
        · intro h; exact absurd h (lt_irrefl _)
        · intro _; exact h1 j
      · refine Fin.cases ?_ (fun j => ?_) j
        · intro h; exact absurd h (Fin.not_lt_zero _)
        · intro h; exact h2 (Fin.succ_lt_succ_iff.1 h)

open Classical in
/-- closed form of the density. -/
theorem dens_eq (n : ℕ) (s0 : ℝ) (s : Fin (n + 1) → ℝ) :
    dens s0 s = if chainFrom s0 s then ENNReal.ofReal (Real.exp (-(s (Fin.last n) - s0))) else 0 := by
  induction n generalizing s0 with
  | zero =>
    have : chainFrom s0 s ↔ s0 < s 0 := by
      rw [chainFrom_cons]
      exact and_iff_left ⟨fun i => i.elim0, fun i => i.elim0⟩
    simp only [dens, mul_one, step, Set.indicator_apply, Set.mem_Ioi, this]
    rfl
  | succ n ih =>
    rw [dens, ih, chainFrom_cons s0 s, step, Set.indicator_apply]
    simp only [Set.mem_Ioi]
    by_cases h0 : s0 < s 0
    · by_cases h1 : chainFrom (s 0) (Fin.tail s)
      · simp only [h0, h1, and_self, if_true]
        rw [← ENNReal.ofReal_mul (Real.exp_pos _).le, ← Real.exp_add]
        congr 2
        show _ + -(s (Fin.last n).succ - s 0) = _
        rw [Fin.succ_last]; ring
      · simp [h1]
    · simp [h0]

/-- scaling the integration variable. -/
theorem lintegral_scale (n : ℕ) {t : ℝ} (ht : 0 < t) {φ : (Fin n → ℝ) → ENNReal} (hφ : Measurable φ) :
    ∫⁻ v, φ v = ENNReal.ofReal (t ^ n) * ∫⁻ v : Fin n → ℝ, φ (t • v) := by
  have h := Measure.map_addHaar_smul (volume : Measure (Fin n → ℝ)) ht.ne'
  have hm : Measurable fun v : Fin n → ℝ => t • v := measurable_const_smul t
  have h2 : ∫⁻ v : Fin n → ℝ, φ (t • v) = ENNReal.ofReal (t ^ n)⁻¹ * ∫⁻ v, φ v := by
    rw [← lintegral_map hφ hm]
    have := congrArg (fun μ : Measure (Fin n → ℝ) => ∫⁻ v, φ v ∂μ) h
    simp only [lintegral_smul_measure, smul_eq_mul] at this
    rw [this, Module.finrank_fin_fun, abs_of_pos (by positivity)]
  rw [h2, ← mul_assoc, ← ENNReal.ofReal_mul (by positivity), mul_inv_cancel₀ (by positivity), ENNReal.ofReal_one, one_mul]

/-- ordered points of `(0, 1)`. -/
def ordered {n : ℕ} (v : Fin n → ℝ) : Prop := (∀ i, 0 < v i ∧ v i < 1) ∧ StrictMono v

theorem chainFrom_snoc {n : ℕ} {t : ℝ} (v : Fin n → ℝ) (ht : 0 < t) :
    chainFrom 0 (Fin.snoc (α := fun _ => ℝ) (t • v) t) ↔ ordered v := by
  constructor
  · rintro ⟨h1, h2⟩
    refine ⟨fun i => ⟨?_, ?_⟩, fun i j hij => ?_⟩
    · have := h1 i.castSucc
      simp only [Fin.snoc_castSucc, Pi.smul_apply, smul_eq_mul] at this
      exact pos_of_mul_pos_right this ht.le
    · have := h2 (Fin.castSucc_lt_last i)
      simp only [Fin.snoc_castSucc, Fin.snoc_last, Pi.smul_apply, smul_eq_mul] at this
      nlinarith
    · have := h2 (Fin.castSucc_lt_castSucc_iff.2 hij)
      simp only [Fin.snoc_castSucc, Pi.smul_apply, smul_eq_mul] at this
      exact lt_of_mul_lt_mul_left this ht.le
  · rintro ⟨h1, h2⟩
    refine ⟨fun i => ?_, fun i j => ?_⟩
    · refine Fin.lastCases ?_ (fun i => ?_) i
      · simpa using ht
      · simpa using mul_pos ht (h1 i).1
    · refine Fin.lastCases ?_ (fun i => ?_) i
      · intro h; exact absurd h (Fin.le_last _).not_gt
      · refine Fin.lastCases ?_ (fun j => ?_) j
        · intro _
          simp only [Fin.snoc_castSucc, Fin.snoc_last, Pi.smul_apply, smul_eq_mul]
          nlinarith [(h1 i).2]
        · intro h
          simp only [Fin.snoc_castSucc, Pi.smul_apply, smul_eq_mul]
          exact mul_lt_mul_of_pos_left (h2 (Fin.castSucc_lt_castSucc_iff.1 h)) ht

theorem measurableSet_strictMono (n : ℕ) : MeasurableSet {v : Fin n → ℝ | StrictMono v} := by
  have : {v : Fin n → ℝ | StrictMono v} = ⋂ i : Fin n, ⋂ j : Fin n, {v | i < j → v i < v j} := by
    ext v
    simp only [Set.mem_iInter, Set.mem_ofPred_eq]
    exact ⟨fun h i j hij => h hij, fun h i j hij => h i j hij⟩
  rw [this]
  refine MeasurableSet.iInter fun i => MeasurableSet.iInter fun j => ?_
  by_cases hij : i < j
  · have e : {v : Fin n → ℝ | i < j → v i < v j} = {v | v i < v j} := by ext v; simp [hij]
    rw [e]
    exact measurableSet_lt (measurable_pi_apply i) (measurable_pi_apply j)
  · have e : {v : Fin n → ℝ | i < j → v i < v j} = Set.univ := by ext v; simp [hij]
    rw [e]; exact MeasurableSet.univ

theorem measurableSet_ordered (n : ℕ) : MeasurableSet {v : Fin n → ℝ | ordered v} := by
  have h : {v : Fin n → ℝ | ordered v} = (⋂ i : Fin n, {v | 0 < v i ∧ v i < 1}) ∩ {v | StrictMono v} := by
    ext v; simp [ordered, Set.mem_iInter]
  rw [h]
  refine (MeasurableSet.iInter fun i => ?_).inter (measurableSet_strictMono n)
  exact (measurableSet_lt measurable_const (measurable_pi_apply i)).inter (measurableSet_lt (measurable_pi_apply i) measurable_const)

/-- `Γ(n + 1) = n!` as a lower integral. -/
theorem lintegral_gamma (n : ℕ) :
    ∫⁻ t in Set.Ioi (0 : ℝ), ENNReal.ofReal (Real.exp (-t) * t ^ n) = (n.factorial : ENNReal) := by
  have hc := Real.GammaIntegral_convergent (s := (n : ℝ) + 1) (by positivity)
  have hg := Real.Gamma_eq_integral (s := (n : ℝ) + 1) (by positivity)
  simp only [add_sub_cancel_right, Real.rpow_natCast] at hc hg
  rw [← ofReal_integral_eq_lintegral_ofReal hc, ← hg, Real.Gamma_nat_eq_factorial, ENNReal.ofReal_natCast]
  exact (ae_restrict_mem measurableSet_Ioi).mono fun t ht => mul_nonneg (Real.exp_pos _).le (pow_nonneg (le_of_lt ht) _)

open Classical in
/-- the normalised partial sums are uniform on the ordered points. -/
theorem lintegral_normalised (n : ℕ) {Φ : (Fin n → ℝ) → ENNReal} (hΦ : Measurable Φ) :
    ∫⁻ u, Φ (fun k => psum 0 u k.castSucc / psum 0 u (Fin.last n)) ∂(Measure.pi fun _ : Fin (n + 1) => unif)
      = n.factorial * ∫⁻ v, {v : Fin n → ℝ | ordered v}.indicator Φ v := by
  set H : (Fin (n + 1) → ℝ) → ENNReal := fun s => Φ fun k => s k.castSucc / s (Fin.last n) with hH
  have hHm : Measurable H := hΦ.comp (measurable_pi_lambda _ fun k => (measurable_pi_apply _).div (measurable_pi_apply _))
  have h1 := lintegral_psum (n + 1) 0 hHm
  refine h1.trans ?_
  have hdm : Measurable fun s : Fin (n + 1) → ℝ => dens 0 s * H s :=
    ((measurable_dens (n + 1)).comp (measurable_const.prodMk measurable_id)).mul hHm
  rw [lintegral_snoc n hdm]
  set C := ∫⁻ v, {v : Fin n → ℝ | ordered v}.indicator Φ v with hC
  have hsn : ∀ t : ℝ, Measurable fun x : Fin n → ℝ => (Fin.snoc x t : Fin (n + 1) → ℝ) := by
    intro t
    refine measurable_pi_lambda _ fun i => ?_
    refine Fin.lastCases ?_ (fun j => ?_) i
    · simpa only [Fin.snoc_last] using measurable_const
    · simpa only [Fin.snoc_castSucc] using measurable_pi_apply j
  have h2 : ∀ t : ℝ, ∫⁻ x : Fin n → ℝ, dens 0 (Fin.snoc (α := fun _ => ℝ) x t) * H (Fin.snoc (α := fun _ => ℝ) x t)
      = (Set.Ioi (0 : ℝ)).indicator (fun t => ENNReal.ofReal (Real.exp (-t) * t ^ n) * C) t := by
    intro t
    by_cases ht : t ∈ Set.Ioi (0 : ℝ)
    · have ht' : 0 < t := ht
      rw [Set.indicator_of_mem ht]
      refine (lintegral_scale n ht' (hdm.comp (hsn t))).trans ?_
      have h3 : ∀ v : Fin n → ℝ, dens 0 (Fin.snoc (α := fun _ => ℝ) (t • v) t) * H (Fin.snoc (α := fun _ => ℝ) (t • v) t)
          = ENNReal.ofReal (Real.exp (-t)) * {v : Fin n → ℝ | ordered v}.indicator Φ v := by
        intro v
        have hv : (fun k : Fin n => (Fin.snoc (α := fun _ => ℝ) (t • v) t : Fin (n + 1) → ℝ) k.castSucc
            / (Fin.snoc (α := fun _ => ℝ) (t • v) t : Fin (n + 1) → ℝ) (Fin.last n)) = v := by
          funext k
          simp only [Fin.snoc_castSucc, Fin.snoc_last, Pi.smul_apply, smul_eq_mul]
          field_simp
        rw [dens_eq, Set.indicator_apply]
        have hv' : H (Fin.snoc (α := fun _ => ℝ) (t • v) t) = Φ v := congrArg Φ hv
        rw [hv']
        simp only [chainFrom_snoc v ht', Set.mem_ofPred_eq, Fin.snoc_last, sub_zero]
        split_ifs <;> simp
      have h4 : ∫⁻ v : Fin n → ℝ, dens 0 (Fin.snoc (α := fun _ => ℝ) (t • v) t) * H (Fin.snoc (α := fun _ => ℝ) (t • v) t)
          = ENNReal.ofReal (Real.exp (-t)) * C := by
        simp only [h3]
        rw [lintegral_const_mul _ (hΦ.indicator (measurableSet_ordered n))]
      refine (congrArg (fun z => ENNReal.ofReal (t ^ n) * z) h4).trans ?_
      rw [← mul_assoc, ← ENNReal.ofReal_mul (by positivity), mul_comm (t ^ n)]
    · rw [Set.indicator_of_notMem ht]
      have h3 : ∀ x : Fin n → ℝ, dens 0 (Fin.snoc (α := fun _ => ℝ) x t) = 0 := by
        intro x
        rw [dens_eq, if_neg]
        intro h
        have := h.1 (Fin.last n)
        rw [Fin.snoc_last] at this
        exact ht this
      simp only [h3, zero_mul, lintegral_zero]
  simp only [h2]
  rw [lintegral_indicator measurableSet_Ioi, lintegral_mul_const, lintegral_gamma]
  exact ((Real.measurable_exp.comp measurable_neg).mul (measurable_id.pow_const n)).ennreal_ofReal

/-- almost every point has distinct coordinates. -/
theorem ae_injective (n : ℕ) : ∀ᵐ v : Fin n → ℝ, Function.Injective v := by
  have h : ∀ᵐ v : Fin n → ℝ, ∀ i j : Fin n, i ≠ j → v i ≠ v j := by
    rw [ae_all_iff]; intro i
    rw [ae_all_iff]; intro j
    by_cases hij : i = j
    · exact Filter.Eventually.of_forall fun v h => absurd hij h
    · let p : Submodule ℝ (Fin n → ℝ) := LinearMap.ker (LinearMap.proj (R := ℝ) (φ := fun _ : Fin n => ℝ) i - LinearMap.proj j)
      have hp : p ≠ ⊤ := by
        intro hc
        have : (Pi.single i 1 : Fin n → ℝ) ∈ p := by rw [hc]; trivial
        rw [LinearMap.mem_ker] at this
        simp [Pi.single_eq_of_ne (Ne.symm hij)] at this
      have h0 := Measure.addHaar_submodule (volume : Measure (Fin n → ℝ)) p hp
      rw [ae_iff]
      refine measure_mono_null ?_ h0
      intro v hv
      simp only [Set.mem_ofPred_eq, ne_eq, hij, not_false_eq_true, forall_const, not_not] at hv
      show v ∈ p
      rw [LinearMap.mem_ker]
      simp [hv]
  exact h.mono fun v hv i j hij => by
    by_contra hc
    exact hv i j hc hij

/-- a symmetric integral over the cube is `n!` times the one over the ordered points. -/
theorem lintegral_symm (n : ℕ) {Φ : (Fin n → ℝ) → ENNReal} (hΦ : Measurable Φ)
    (hsym : ∀ (σ : Equiv.Perm (Fin n)) v, Φ (v ∘ σ) = Φ v) :
    ∫⁻ v, Φ v ∂(Measure.pi fun _ : Fin n => unif) = n.factorial * ∫⁻ v, {v : Fin n → ℝ | ordered v}.indicator Φ v := by
  classical
  have hcube : (Measure.pi fun _ : Fin n => unif) = (volume : Measure (Fin n → ℝ)).restrict (Set.univ.pi fun _ => Set.Ioo 0 1) := by
    rw [volume_pi, Measure.restrict_pi_pi]
    simp only [unif, Measure.restrict_congr_set (Ioo_ae_eq_Ico (a := (0 : ℝ)) (b := 1) (μ := volume))]
  have hmc : MeasurableSet (Set.univ.pi fun _ : Fin n => Set.Ioo (0 : ℝ) 1) := MeasurableSet.univ_pi fun _ => measurableSet_Ioo
  rw [hcube, ← lintegral_indicator hmc]
  have hae : ∀ᵐ v : Fin n → ℝ, (Set.univ.pi fun _ => Set.Ioo (0 : ℝ) 1).indicator Φ v
      = ∑ σ : Equiv.Perm (Fin n), {v : Fin n → ℝ | ordered v}.indicator Φ (v ∘ σ) := by
    refine (ae_injective n).mono fun v hv => ?_
    by_cases hc : v ∈ Set.univ.pi fun _ : Fin n => Set.Ioo (0 : ℝ) 1
    · have hc' : ∀ i, 0 < v i ∧ v i < 1 := fun i => hc i (Set.mem_univ i)
      rw [Set.indicator_of_mem hc, Finset.sum_eq_single (Tuple.sort v)]
      · rw [Set.indicator_of_mem, hsym]
        exact ⟨fun i => hc' _, (Tuple.monotone_sort v).strictMono_of_injective (hv.comp (Tuple.sort v).injective)⟩
      · intro σ _ hne
        rw [Set.indicator_of_notMem]
        rintro ⟨-, hmono⟩
        have h := Tuple.unique_monotone hmono.monotone (Tuple.monotone_sort v)
        refine hne (Equiv.ext fun i => hv ?_)
        exact congrFun h i
      · intro h; exact absurd (Finset.mem_univ _) h
    · rw [Set.indicator_of_notMem hc]
      refine (Finset.sum_eq_zero fun σ _ => ?_).symm
      rw [Set.indicator_of_notMem]
      rintro ⟨h1, -⟩
      refine hc fun i _ => ?_
      have := h1 (σ.symm i)
      simpa using this
  rw [lintegral_congr_ae hae, lintegral_finsetSum]
  · have hone : ∀ σ : Equiv.Perm (Fin n), ∫⁻ v : Fin n → ℝ, {v : Fin n → ℝ | ordered v}.indicator Φ (v ∘ σ)
        = ∫⁻ v, {v : Fin n → ℝ | ordered v}.indicator Φ v := by
      intro σ
      have hmp := volume_measurePreserving_piCongrLeft (fun _ : Fin n => ℝ) σ.symm
      rw [← hmp.lintegral_comp (hΦ.indicator (measurableSet_ordered n))]
      refine lintegral_congr fun v => congrArg _ ?_
      funext i
      have := MeasurableEquiv.piCongrLeft_apply_apply (β := fun _ : Fin n => ℝ) (e := σ.symm) (x := v) (i := σ i)
      rw [Equiv.symm_apply_apply] at this
      exact this.symm
    simp only [hone]
    rw [Finset.sum_const, Finset.card_univ, Fintype.card_perm, Fintype.card_fin, nsmul_eq_mul]
  · intro σ _
    exact (hΦ.indicator (measurableSet_ordered n)).comp (measurable_pi_lambda _ fun i => measurable_pi_apply (σ i))

/-- **order statistics**: for a symmetric function the normalised partial sums of `n + 1` independent exponential variables are
as good as `n` independent uniform variables. -/
theorem lintegral_sortedUniforms (n : ℕ) {Φ : (Fin n → ℝ) → ENNReal} (hΦ : Measurable Φ)
    (hsym : ∀ (σ : Equiv.Perm (Fin n)) v, Φ (v ∘ σ) = Φ v) :
    ∫⁻ u, Φ (fun k => psum 0 u k.castSucc / psum 0 u (Fin.last n)) ∂(Measure.pi fun _ : Fin (n + 1) => unif)
      = ∫⁻ v, Φ v ∂(Measure.pi fun _ : Fin n => unif) := by
  rw [lintegral_normalised n hΦ, lintegral_symm n hΦ hsym]

end Mfs.OrderStat

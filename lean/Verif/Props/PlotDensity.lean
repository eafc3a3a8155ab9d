import Verif.Lemmas.OscBound
import Verif.Props.InverseFourierRule
import Verif.Props.ChapmanConv
import Verif.Props.BenesTme

/-!
# Property C189: the densities plotted for the moment filter converge to those of the exact filter
-/

namespace Mfs.Props

open Mfs.Spec Mfs.Lemmas Mfs.Converge Mfs.Moments1 Mfs.Filter1 Mfs.Pdf Mfs.SsModels Mfs.GridConv Mfs.Tme Mfs.Benes MeasureTheory ProbabilityTheory Filter Topology
open scoped NNReal

variable {Y : Type}

/-- the exact filtering law at time `t` has the continuous density `d`. -/
structure IsPosteriorDensity (K : Kernel ℝ ℝ) (lik : Y → ℝ → ℝ) (μ : Measure ℝ) (ys : List Y) (t : ℕ) (d : ℝ → ℝ) : Prop where
  cont : Continuous d
  nonneg : ∀ x, 0 ≤ d x
  int : Integrable d
  one : ∫ x, d x = 1
  eq : ∀ f : ℝ → ℝ, Integrable (fun x => f x * d x) → posterior K lik μ ys t f = ∫ x, f x * d x

/-- such a density is unique. -/
theorem IsPosteriorDensity.unique {K : Kernel ℝ ℝ} {lik : Y → ℝ → ℝ} {μ : Measure ℝ} {ys : List Y} {t : ℕ} {d d' : ℝ → ℝ}
    (h : IsPosteriorDensity K lik μ ys t d) (h' : IsPosteriorDensity K lik μ ys t d') : d = d' := by
  have hae : d =ᵐ[volume] d' := by
    refine Integrable.ae_eq_of_forall_setIntegral_eq _ _ h.int h'.int fun S hS _ => ?_
    have e : ∀ g : ℝ → ℝ, (fun x => S.indicator (fun _ => (1 : ℝ)) x * g x) = S.indicator g := fun g => by
      funext x
      by_cases hx : x ∈ S <;> simp [hx]
    have a := h.eq (S.indicator fun _ => 1) (by rw [e]; exact h.int.indicator hS)
    have b := h'.eq (S.indicator fun _ => 1) (by rw [e]; exact h'.int.indicator hS)
    simp only [e] at a b
    rw [← integral_indicator hS, ← integral_indicator hS, ← a, ← b]
  exact Continuous.ae_eq_iff_eq volume h.cont h'.cont |>.1 hae

/-- decay of the characteristic integrals over one transition and one update. -/
def OscDecay (k : ℝ → ℝ → ℝ) (lik : Y → ℝ → ℝ) : Prop :=
  ∀ y, ∃ D, ∀ (z : ℝ) (w w' : ℝ → ℝ), Wave z w w' → ∀ u, |∫ x, k x u * (w x * lik y x)| ≤ D / (1 + z ^ 2)

section general
variable {k : ℝ → ℝ → ℝ} {C : ℝ} {lik : Y → ℝ → ℝ} {p : ℝ → ℝ}

theorem iterK_one (K : Kernel ℝ ℝ) : iterK K 1 = K := by
  rw [iterK, iterK, Kernel.comp_id]

theorem run_snoc (ys : List Y) (y : Y) : run k volume lik 1 p (ys ++ [y]) = fun x => lik y x * op k volume (run k volume lik 1 p ys) x := by
  rw [run, List.foldl_append]
  rfl

/-- the filtering law after at least one measurement has a continuous density with an integrable characteristic function. -/
theorem posterior_density (hk : TransDens k C) (K : Kernel ℝ ℝ) [IsMarkovKernel K] (hK : ∀ u, K u = wd fun x => k x u)
    (hlc : ∀ y, Continuous (lik y)) (hl0 : ∀ y x, 0 < lik y x) (hlb : ∀ y, ∃ M, ∀ x, lik y x ≤ M) (hosc : OscDecay k lik)
    (hpc : Continuous p) (hp0 : ∀ x, 0 ≤ p x) (hpi : ∫ x, p x = 1) (hpb : ∃ D, ∀ x, p x ≤ D) (ys : List Y) (t : ℕ) (ht : t < ys.length) :
    ∃ d, IsPosteriorDensity K lik (wd p) ys t d ∧ (∀ z, posteriorCf K lik (wd p) ys t z = ∫ x : ℝ, Complex.exp (Complex.I * z * x) * d x) ∧
      Integrable (posteriorCf K lik (wd p) ys t) := by
  have hint : Integrable p := by
    by_contra h
    rw [integral_undef h] at hpi
    exact zero_ne_one hpi
  have hp : Close (fun _ => p) p := close_self hpc hp0 hint hpb
  have hp1 : 0 < ∫ x, p x := by rw [hpi]; exact one_pos
  have hl0' : ∀ y x, 0 ≤ lik y x := fun y x => (hl0 y x).le
  have hpos := run_pos hk hlc hl0 hlb 1 hp hp1 (ys.take (t + 1))
  have hcl := close_run hk hlc hl0' hlb 1 hp (ys.take (t + 1))
  set U := run k volume lik 1 p (ys.take (t + 1)) with hU
  set Z := ∫ x, U x with hZ
  have hUn := hcl.pos
  have hUi := hcl.int
  have hdens : IsPosteriorDensity K lik (wd p) ys t fun x => U x / Z := by
    refine ⟨hcl.cont.div_const _, fun x => div_nonneg (hUn x) hpos.le, hUi.div_const _, ?_, fun f hf => ?_⟩
    · rw [integral_div, div_self hpos.ne']
    · have hfi : Integrable fun x => U x * f x := by
        refine (hf.mul_const Z).congr (Eventually.of_forall fun x => ?_)
        field_simp
      have h1 := (run_markovE hk K hK hlc hl0' hlb 1 hp (ys.take (t + 1)) f hfi).2
      have h2 := (run_markovE hk K hK hlc hl0' hlb 1 hp (ys.take (t + 1)) (fun _ => 1) (by simpa using hUi)).2
      rw [iterK_one] at h1 h2
      rw [posterior, h1, h2]
      simp only [mul_one, ← mul_div_assoc]
      rw [integral_div]
      congr 1
      exact integral_congr_ae (Eventually.of_forall fun x => mul_comm _ _)
  set d : ℝ → ℝ := fun x => U x / Z with hd
  have hwd : ∀ {z : ℝ} {w w' : ℝ → ℝ}, Wave z w w' → Integrable fun x => w x * d x := fun hw =>
    hdens.int.bdd_mul (c := 1) hw.cont.aestronglyMeasurable (Eventually.of_forall fun x => hw.le x)
  have hcf : ∀ z, posteriorCf K lik (wd p) ys t z = ∫ x : ℝ, Complex.exp (Complex.I * z * x) * d x := by
    intro z
    have ic := hwd (wave_cos z)
    have is := hwd (wave_sin z)
    have e : ∀ x : ℝ, Complex.exp (Complex.I * z * x) * d x = ((Real.cos (z * x) * d x : ℝ) : ℂ) + ((Real.sin (z * x) * d x : ℝ) : ℂ) * Complex.I := by
      intro x
      rw [show Complex.I * z * x = ((z * x : ℝ) : ℂ) * Complex.I by push_cast; ring, Complex.exp_mul_I]
      push_cast
      ring
    simp only [e]
    rw [integral_add ic.ofReal (is.ofReal.mul_const _), integral_mul_const, integral_complex_ofReal, integral_complex_ofReal, posteriorCf, hdens.eq _ ic, hdens.eq _ is]
    exact Complex.mk_eq_add_mul_I _ _
  refine ⟨d, hdens, hcf, ?_⟩
  have hcont : Continuous (posteriorCf K lik (wd p) ys t) := by
    rw [funext hcf]
    refine continuous_of_dominated (bound := fun x => |d x|) (fun z => ?_) (fun z => Eventually.of_forall fun x => ?_) hdens.int.abs
      (Eventually.of_forall fun x => by fun_prop)
    · exact (Continuous.aestronglyMeasurable (by fun_prop)).mul hdens.int.ofReal.aestronglyMeasurable
    · rw [norm_mul, Complex.norm_real, Real.norm_eq_abs, show Complex.I * z * x = ((z * x : ℝ) : ℂ) * Complex.I by push_cast; ring,
        Complex.norm_exp_ofReal_mul_I, one_mul]
  -- the last transition and update
  have hsplit : ys.take (t + 1) = ys.take t ++ [ys[t]] := by rw [List.take_succ_eq_append_getElem ht]
  obtain ⟨D, hD⟩ := hosc ys[t]
  obtain ⟨M, hM⟩ := hlb ys[t]
  have hV := close_run hk hlc hl0' hlb 1 hp (ys.take t)
  set V := run k volume lik 1 p (ys.take t) with hVdef
  have hUV : U = fun x => lik ys[t] x * op k volume V x := by rw [hU, hsplit, run_snoc]
  have hbound : ∀ {z : ℝ} {w w' : ℝ → ℝ}, Wave z w w' → |∫ x, w x * d x| ≤ D * (∫ u, V u) / Z / (1 + z ^ 2) := by
    intro z w w' hw
    have e1 : ∫ x, w x * d x = (∫ x, w x * lik ys[t] x * op k volume V x) / Z := by
      rw [← integral_div]
      refine integral_congr_ae (Eventually.of_forall fun x => ?_)
      simp only [hd, hUV]
      ring
    have hm : Integrable (fun q : ℝ × ℝ => (w q.1 * lik ys[t] q.1) * (k q.1 q.2 * V q.2)) (volume.prod volume) := by
      refine (op_prod_integrable hk hV.int).bdd_mul (c := M) ?_ (Eventually.of_forall fun q => ?_)
      · exact ((hw.cont.comp continuous_fst).mul ((hlc _).comp continuous_fst)).aestronglyMeasurable
      · rw [norm_mul, Real.norm_eq_abs, Real.norm_of_nonneg (hl0' _ _)]
        calc |w q.1| * lik ys[t] q.1 ≤ 1 * lik ys[t] q.1 := mul_le_mul_of_nonneg_right (hw.le _) (hl0' _ _)
          _ ≤ M := by rw [one_mul]; exact hM _
    rw [e1, op_dual hm, abs_div, abs_of_pos hpos, div_right_comm]
    refine div_le_div_of_nonneg_right ?_ hpos.le
    have hVi := hV.int
    have hprod : Integrable fun u => (∫ x, k x u * (w x * lik ys[t] x)) * V u := by
      have := hm.integral_prod_right
      refine this.congr (Eventually.of_forall fun u => ?_)
      simp only
      rw [← integral_mul_const]
      exact integral_congr_ae (Eventually.of_forall fun x => by ring)
    calc |∫ u, (∫ x, k x u * (w x * lik ys[t] x)) * V u| ≤ ∫ u, |(∫ x, k x u * (w x * lik ys[t] x)) * V u| := abs_integral_le_integral_abs
      _ ≤ ∫ u, D / (1 + z ^ 2) * V u := integral_mono hprod.abs (hVi.const_mul _) fun u => by
          simp only
          rw [abs_mul, abs_of_nonneg (hV.pos u)]
          exact mul_le_mul_of_nonneg_right (hD z w w' hw u) (hV.pos u)
      _ = D * (∫ u, V u) / (1 + z ^ 2) := by rw [integral_const_mul]; ring
  set E := D * (∫ u, V u) / Z with hE
  refine ((integrable_inv_one_add_sq.const_mul (2 * E))).mono' hcont.aestronglyMeasurable (Eventually.of_forall fun z => ?_)
  refine (Complex.norm_le_abs_re_add_abs_im _).trans ?_
  have b1 := hbound (wave_cos z)
  have b2 := hbound (wave_sin z)
  rw [posteriorCf, hdens.eq _ (hwd (wave_cos z)), hdens.eq _ (hwd (wave_sin z))]
  rw [div_eq_mul_inv] at b1 b2
  simp only
  linarith

end general

/-! ### The likelihood of the model -/

/-- a bounded likelihood with two bounded derivatives. -/
structure Smooth2 (l : ℝ → ℝ) (M : ℝ) (l1 l2 : ℝ → ℝ) : Prop where
  d1 : ∀ x, HasDerivAt l (l1 x) x
  d2 : ∀ x, HasDerivAt l1 (l2 x) x
  c2 : Continuous l2
  b0 : ∀ x, |l x| ≤ M
  b1 : ∀ x, |l1 x| ≤ M
  b2 : ∀ x, |l2 x| ≤ M

/-- `w exp(-w)` and `w² exp(-w)`. -/
theorem mul_exp_neg_le {w : ℝ} (hw : 0 ≤ w) : w * Real.exp (-w) ≤ 1 ∧ w ^ 2 * Real.exp (-w) ≤ 2 := by
  have h1 := Real.quadratic_le_exp_of_nonneg hw
  have he := Real.exp_pos w
  rw [Real.exp_neg]
  constructor
  · rw [← div_eq_mul_inv, div_le_one he]
    nlinarith
  · rw [← div_eq_mul_inv, div_le_iff₀ he]
    nlinarith

theorem logistic_smooth2 : ∃ l1 l2, Smooth2 logistic 200 l1 l2 := by
  set s : ℝ → ℝ := logistic with hs
  have hs0 : ∀ x, 0 < s x ∧ s x < 1 := logistic_pos
  have hsd : ∀ x, HasDerivAt s (3 * x ^ 2 / 5 * (s x * (1 - s x))) x := by
    intro x
    have hpos : 0 < 1 + Real.exp (-x ^ 3 / 5) := by positivity
    have h := ((((hasDerivAt_id x).pow 3).neg.div_const 5).exp.const_add 1).inv hpos.ne'
    have e : s = fun x => (1 + Real.exp (-x ^ 3 / 5))⁻¹ := by
      funext x
      simp [hs, logistic]
    rw [e]
    refine h.congr_deriv ?_
    simp only [Pi.neg_apply, Pi.pow_apply, id]
    field_simp
    norm_num
    ring
  set r : ℝ → ℝ := fun x => s x * (1 - s x) with hr
  have hrd : ∀ x, HasDerivAt r ((1 - 2 * s x) * (3 * x ^ 2 / 5 * r x)) x := fun x => by
    refine ((hsd x).mul ((hsd x).const_sub 1)).congr_deriv ?_
    simp only [hr]
    ring
  have hr0 : ∀ x, 0 < r x := fun x => mul_pos (hs0 x).1 (by linarith [(hs0 x).2])
  have hr1 : ∀ x, r x ≤ 1 := fun x => by nlinarith [hs0 x]
  -- exponential decay of `r`
  have hrle : ∀ x, r x ≤ Real.exp (-(|x| ^ 3 / 5)) := by
    intro x
    have e1 : s x = 1 / (1 + Real.exp (-x ^ 3 / 5)) := rfl
    have hq := Real.exp_pos (-x ^ 3 / 5)
    have e2 : r x = Real.exp (-x ^ 3 / 5) / (1 + Real.exp (-x ^ 3 / 5)) ^ 2 := by
      simp only [hr, e1]
      field_simp
      ring
    rw [e2, div_le_iff₀ (by positivity)]
    rcases le_total 0 x with hx | hx
    · rw [abs_of_nonneg hx, show -(x ^ 3 / 5) = -x ^ 3 / 5 by ring]
      exact le_mul_of_one_le_right hq.le (one_le_pow₀ (by linarith))
    · rw [abs_of_nonpos hx, show -((-x) ^ 3 / 5) = -(-x ^ 3 / 5) by ring]
      have h1 : Real.exp (-(-x ^ 3 / 5)) * Real.exp (-x ^ 3 / 5) = 1 := by rw [← Real.exp_add]; simp
      have h2 := Real.exp_pos (-(-x ^ 3 / 5))
      nlinarith
  have hx2 : ∀ x, x ^ 2 * r x ≤ 6 := by
    intro x
    have hw : 0 ≤ |x| ^ 3 / 5 := by positivity
    have h1 := (mul_exp_neg_le hw).1
    have h2 : x ^ 2 ≤ 1 + |x| ^ 3 := by
      rw [← sq_abs]
      have := abs_nonneg x
      rcases le_total |x| 1 with h | h <;> nlinarith [pow_nonneg this 2, pow_nonneg this 3]
    have h3 : |x| ^ 3 * r x ≤ 5 := by
      have := mul_le_mul_of_nonneg_left (hrle x) hw
      linarith
    nlinarith [hr0 x, hr1 x]
  have hx4 : ∀ x, x ^ 4 * r x ≤ 51 := by
    intro x
    have hw : 0 ≤ |x| ^ 3 / 5 := by positivity
    have h1 := (mul_exp_neg_le hw).2
    have h2 : x ^ 4 ≤ 1 + (|x| ^ 3) ^ 2 := by
      have e : x ^ 4 = |x| ^ 4 := by rw [← abs_pow, abs_of_nonneg (by positivity)]
      rw [e, ← pow_mul]
      have := abs_nonneg x
      rcases le_total |x| 1 with h | h
      · have := pow_le_one₀ (n := 4) this h
        have : 0 ≤ |x| ^ 6 := by positivity
        norm_num
        linarith
      · have := pow_le_pow_right₀ h (show 4 ≤ 6 by norm_num)
        norm_num
        linarith
    have h3 : (|x| ^ 3) ^ 2 * r x ≤ 50 := by
      have := mul_le_mul_of_nonneg_left (hrle x) (sq_nonneg (|x| ^ 3 / 5))
      nlinarith
    nlinarith [hr0 x, hr1 x]
  have hx1 : ∀ x, |x| * r x ≤ 7 := by
    intro x
    have h2 : |x| ≤ 1 + x ^ 2 := by
      rw [← sq_abs]
      nlinarith [sq_nonneg (|x| - 1), abs_nonneg x]
    nlinarith [hr0 x, hr1 x, hx2 x]
  refine ⟨fun x => 3 * x ^ 2 / 5 * r x, fun x => 6 * x / 5 * r x + 9 * x ^ 4 / 25 * ((1 - 2 * s x) * r x), hsd, fun x => ?_, ?_, fun x => ?_, fun x => ?_, fun x => ?_⟩
  · refine (((((hasDerivAt_id x).pow 2).const_mul 3).div_const 5).mul (hrd x)).congr_deriv ?_
    simp only [Pi.pow_apply, id]
    norm_num
    ring
  · have h1 : Continuous s := logistic_continuous
    simp only [hr]
    fun_prop
  · have := hs0 x
    rw [abs_of_pos this.1]
    linarith
  · rw [abs_of_nonneg (mul_nonneg (by positivity) (hr0 x).le)]
    have := hx2 x
    nlinarith
  · have a1 := abs_add_le (6 * x / 5 * r x) (9 * x ^ 4 / 25 * ((1 - 2 * s x) * r x))
    have a2 : |6 * x / 5 * r x| = 6 / 5 * (|x| * r x) := by
      rw [show 6 * x / 5 * r x = 6 / 5 * (x * r x) by ring, abs_mul, abs_mul, abs_of_pos (hr0 x), abs_of_pos (by norm_num : (0 : ℝ) < 6 / 5)]
    have a3 : |9 * x ^ 4 / 25 * ((1 - 2 * s x) * r x)| ≤ 9 / 25 * (x ^ 4 * r x) := by
      have hx : 0 ≤ x ^ 4 * r x := mul_nonneg (by positivity) (hr0 x).le
      rw [show 9 * x ^ 4 / 25 * ((1 - 2 * s x) * r x) = 9 / 25 * ((1 - 2 * s x) * (x ^ 4 * r x)) by ring, abs_mul, abs_of_pos (by norm_num : (0 : ℝ) < 9 / 25), abs_mul, abs_of_nonneg hx]
      have : |1 - 2 * s x| ≤ 1 := by
        rw [abs_le]
        constructor <;> linarith [(hs0 x).1, (hs0 x).2]
      have := mul_le_mul_of_nonneg_right this hx
      linarith
    have := hx1 x
    have := hx4 x
    linarith

theorem benesBool_smooth2 (y : Bool) : ∃ l1 l2, Smooth2 (benesBool y) 200 l1 l2 := by
  obtain ⟨l1, l2, h⟩ := logistic_smooth2
  cases y
  · have e : benesBool false = fun x => 1 - logistic x := funext fun x => by simp [benesBool, benesPmf, bernoulliPmf]
    rw [e]
    refine ⟨fun x => -l1 x, fun x => -l2 x, fun x => (h.d1 x).const_sub 1, fun x => (h.d2 x).neg, h.c2.neg, fun x => ?_, fun x => ?_, fun x => ?_⟩
    · have := logistic_pos x
      rw [abs_of_pos (by linarith [this.2])]
      linarith [this.1]
    · rw [abs_neg]; exact h.b1 x
    · rw [abs_neg]; exact h.b2 x
  · have e : benesBool true = logistic := funext fun x => by simp [benesBool, benesPmf, bernoulliPmf]
    rw [e]
    exact ⟨l1, l2, h⟩

/-! ### The two chains -/

theorem oscDecay_normal {lik : Y → ℝ → ℝ} (hl : ∀ y, ∃ M l1 l2, Smooth2 (lik y) M l1 l2) {m s : ℝ → ℝ} {c : ℝ} (hc : 0 < c)
    (hsc : ∀ u, c ≤ s u ^ 2) : OscDecay (fun x u => BruteForce.normPdf x (m u) (s u)) lik := by
  intro y
  obtain ⟨M, l1, l2, h⟩ := hl y
  refine ⟨M * (3 + 3 / c), fun z w w' hw u => ?_⟩
  have hs0 : s u ≠ 0 := fun h0 => by
    have := hsc u
    rw [h0] at this
    norm_num at this
    linarith
  have := gauss_osc h.d1 h.d2 h.c2 h.b0 h.b1 h.b2 hc (m u) (v := (s u ^ 2).toNNReal) (by rw [Real.coe_toNNReal _ (sq_nonneg _)]; exact hsc u) hw
  refine le_of_eq_of_le (congrArg _ (integral_congr_ae (Eventually.of_forall fun x => ?_))) this
  simp only [bfNormPdf_eq hs0]
  ring

theorem oscDecay_benes {lik : Y → ℝ → ℝ} (hl : ∀ y, ∃ M l1 l2, Smooth2 (lik y) M l1 l2) {t : ℝ} (ht : 0 < t) :
    OscDecay (fun x u => benesDens t u x) lik := by
  intro y
  obtain ⟨M, l1, l2, h⟩ := hl y
  refine ⟨M * (3 + 3 / t), fun z w w' hw u => ?_⟩
  have hv : t.toNNReal ≠ 0 := by rw [Ne, Real.toNNReal_eq_zero, not_le]; exact ht
  have hlc : Continuous (lik y) := continuous_iff_continuousAt.2 fun x => (h.d1 x).continuousAt
  have hi : ∀ m, Integrable fun x => w x * (lik y x * gaussianPDFReal m t.toNNReal x) := fun m =>
    (((integrable_gaussianPDFReal m t.toNNReal).bdd_mul (c := M) hlc.aestronglyMeasurable (Eventually.of_forall h.b0)).bdd_mul (c := 1)
      hw.cont.aestronglyMeasurable (Eventually.of_forall hw.le))
  have hb : ∀ m, |∫ x, w x * (lik y x * gaussianPDFReal m t.toNNReal x)| ≤ M * (3 + 3 / t) / (1 + z ^ 2) := fun m =>
    gauss_osc h.d1 h.d2 h.c2 h.b0 h.b1 h.b2 ht m (by rw [Real.coe_toNNReal _ ht.le]) hw
  have e : ∫ x, benesDens t u x * (w x * lik y x) = pr u * (∫ x, w x * (lik y x * gaussianPDFReal (u + t) t.toNNReal x))
      + pl u * ∫ x, w x * (lik y x * gaussianPDFReal (u - t) t.toNNReal x) := by
    rw [← integral_const_mul, ← integral_const_mul, ← integral_add ((hi _).const_mul _) ((hi _).const_mul _)]
    refine integral_congr_ae (Eventually.of_forall fun x => ?_)
    simp only [benesDens_eq ht]
    ring
  rw [e]
  refine (abs_add_le _ _).trans ?_
  rw [abs_mul, abs_mul, abs_of_pos (pr_pos u), abs_of_pos (pl_pos u)]
  have h1 := mul_le_mul_of_nonneg_left (hb (u + t)) (pr_pos u).le
  have h2 := mul_le_mul_of_nonneg_left (hb (u - t)) (pl_pos u).le
  have h3 := pr_add_pl u
  calc _ ≤ (pr u + pl u) * (M * (3 + 3 / t) / (1 + z ^ 2)) := by linarith
    _ = _ := by rw [h3, one_mul]

theorem transDens_benes {t : ℝ} (ht : 0 < t) : TransDens (fun x u => benesDens t u x) (√(2 * Real.pi * t))⁻¹ := by
  have hv : t.toNNReal ≠ 0 := by rw [Ne, Real.toNNReal_eq_zero, not_le]; exact ht
  have hle : ∀ m x, gaussianPDFReal m t.toNNReal x ≤ (√(2 * Real.pi * t))⁻¹ := fun m x => by
    rw [gaussianPDFReal, Real.coe_toNNReal _ ht.le]
    refine mul_le_of_le_one_right (by positivity) (Real.exp_le_one_iff.2 ?_)
    rw [neg_div, neg_nonpos]
    positivity
  have hint : ∀ u, Integrable fun x => pr u * gaussianPDFReal (u + t) t.toNNReal x + pl u * gaussianPDFReal (u - t) t.toNNReal x := fun u =>
    ((integrable_gaussianPDFReal _ _).const_mul _).add ((integrable_gaussianPDFReal _ _).const_mul _)
  refine ⟨?_, fun x u => (benesDens_pos ht u x).le, fun x u => ?_, fun u => ?_, fun u => ?_⟩
  · unfold Function.uncurry benesDens
    refine Continuous.mul (Continuous.mul (Continuous.div ?_ ?_ fun q => (Real.cosh_pos _).ne') (by fun_prop)) (by fun_prop)
    · exact Real.continuous_cosh.comp continuous_fst
    · exact Real.continuous_cosh.comp continuous_snd
  · rw [benesDens_eq ht]
    have h1 := mul_le_mul_of_nonneg_left (hle (u + t) x) (pr_pos u).le
    have h2 := mul_le_mul_of_nonneg_left (hle (u - t) x) (pl_pos u).le
    calc _ ≤ (pr u + pl u) * (√(2 * Real.pi * t))⁻¹ := by linarith
      _ = _ := by rw [pr_add_pl, one_mul]
  · simp only [benesDens_eq ht]
    exact hint u
  · simp only [benesDens_eq ht]
    rw [integral_add ((integrable_gaussianPDFReal _ _).const_mul _) ((integrable_gaussianPDFReal _ _).const_mul _), integral_const_mul, integral_const_mul,
      integral_gaussianPDFReal_eq_one _ hv, integral_gaussianPDFReal_eq_one _ hv, mul_one, mul_one, pr_add_pl]

/-! ### The plotted curves -/

/-- the curves computed by `inverse_fourier` from the values `cf N` converge to `d`, uniformly on every bounded set: for every
sufficiently long range of frequencies and every sufficiently fine grid on it, the error is at most `ε` for all large `N`. -/
def CurvesConverge (cf : ℕ → ℝ → ℂ) (d : ℝ → ℝ) : Prop :=
  ∀ R ε : ℝ, 0 < ε → ∃ Z₀, ∀ Z ≥ Z₀, ∃ h > 0, ∀ zs : List ℝ, FreqGrid Z h zs → ∀ᶠ N in atTop, ∀ x, |x| ≤ R →
    |inverseFourier x (zs.map fun z => (z, cf N z)) - d x| ≤ ε

/-- **C189 (a).** The densities of the moment filters converge to the density of the exact filter whenever the outputs converge, the
transition has a density and the characteristic integrals decay. -/
theorem C189_curves (B : Backend) {k : ℝ → ℝ → ℝ} {C : ℝ} {lik : Y → ℝ → ℝ} (hk : TransDens k C) (K : Kernel ℝ ℝ) [IsMarkovKernel K]
    (hK : ∀ u, K u = wd fun x => k x u) (hlc : ∀ y, Continuous (lik y)) (hl0 : ∀ y x, 0 < lik y x) (hlb : ∀ y, ∃ M, ∀ x, lik y x ≤ M)
    (hosc : OscDecay k lik) (comps : List Component) (hw : ∀ c ∈ comps, 0 ≤ c.weight) (h1 : (comps.map (·.weight)).sum = 1)
    (hv : ∀ c ∈ comps, 0 < c.variance) (ys : List Y) (t : ℕ) (ht : t < ys.length) :
    ∃ d, IsPosteriorDensity K lik (mixture comps) ys t d ∧
      (∀ a, RawConverges B K lik (mixture comps) ys a → CurvesConverge (fun N z => characteristicFn B z ((a N).1.getD t [])) d) ∧
      ∀ b, CentralConverges B K lik (mixture comps) ys b →
        CurvesConverge (fun N z => characteristicFn B z ((b N).1.getD t ([], 0)).1 ((b N).1.getD t ([], 0)).2) d := by
  obtain ⟨q1, q2, q3, q4, q5, -⟩ := pdf1_props comps hw h1 hv
  obtain ⟨d, hd, hcf, hi⟩ := posterior_density hk K hK hlc hl0 hlb hosc q1 q2 q3 q4 ys t ht
  rw [wd, q5] at hd hcf hi
  exact ⟨d, hd, fun a ha R ε hε => C187_approximations hd.int hd.cont hcf hi _ (fun z => ha.cf ht z) R hε,
    fun b hb R ε hε => C187_approximations hd.int hd.cont hcf hi _ (fun z => hb.cf ht z) R hε⟩

theorem benes_lik_smooth : ∀ y : Bool, ∃ M l1 l2, Smooth2 (benesBool y) M l1 l2 := fun y => ⟨200, benesBool_smooth2 y⟩

/-- **C189 (b).** The curves labelled "Moment filter PDF" in `plot_benes_bernoulli_estimation.py` converge to the density of the exact
filter of the chain with the normal transitions of the Taylor moment expansion, in both modes `raw` and `central`, at every time and for
all measurements. -/
theorem C189_plot (B : Backend) (hB : B.Valid) (stable : Bool) (order : ℕ) (ho : 1 ≤ order) (ys : List Bool) (t : ℕ) (ht : t < ys.length) :
    let F := fun N => sdeCondMomentsTmeNormal (expectation benesDrift dispersion1 dt1 order) (Tme.meanCov benesDrift dispersion1 dt1 order) N
    let μ := mixture [⟨-0.5, 0.05, 0.5⟩, ⟨0.5, 0.05, 0.5⟩]
    let lik := fun (y : Bool) (x : ℝ) => if y then 1 / (1 + Real.exp (-x ^ 3 / 5)) else 1 - 1 / (1 + Real.exp (-x ^ 3 / 5))
    ∃ K : Kernel ℝ ℝ, (∀ x, K x = gaussianReal (x + Real.tanh x * 0.01)
        (if order = 1 then 0.01 else 0.01 + (1 - Real.tanh x ^ 2) * 0.01 ^ 2 : ℝ).toNNReal) ∧
    ∃ d, IsPosteriorDensity K lik μ ys t d ∧
      (CurvesConverge (fun N z => characteristicFn B z ((filterRms B (F N).raw benesBool (init1 N).rms ys stable).1.getD t [])) d) ∧
      CurvesConverge (fun N z =>
        let o := (filterCms B (F N).central (F N).mean benesBool (init1 N).cms (init1 N).mean ys stable).1.getD t ([], 0)
        characteristicFn B z o.1 o.2) d := by
  intro F μ lik
  have hdt : (0 : ℝ) < dt1 := by norm_num [dt1]
  obtain ⟨p1, p2, p3⟩ := benes_meanCov_props dt1 hdt order ho
  set mc := Tme.meanCov benesDrift dispersion1 dt1 order with hmc
  have hlik : benesBool = lik := benesBool_eq
  have hpos : ∀ x, 0 < (mc x).2 := fun x => hdt.trans_le (p2 x)
  set K := normalKernel (fun x => (mc x).1) (fun x => (mc x).2.toNNReal) p1.measurable.fst p1.measurable.snd.real_toNNReal with hKdef
  refine ⟨K, fun x => ?_, ?_⟩
  · rw [hKdef, normalKernel_apply, hmc, (C153_benes_mean_cov dt1 hdt order ho x).1]
    rfl
  obtain ⟨ha, hb⟩ := C135_tme_normal_converges B hB stable (expectation benesDrift dispersion1 dt1 order) mc p1 hpos _ p3 _ init1_ok.1 init1_ok.2.1
    init1_ok.2.2 benesBool benesBool_continuous benesBool_pos (fun y => ⟨1, benesBool_le y⟩) ys
  have hsq : ∀ u, Real.sqrt (mc u).2 ^ 2 = (mc u).2 := fun u => Real.sq_sqrt (hpos u).le
  have hs0 : ∀ u, Real.sqrt (mc u).2 ≠ 0 := fun u => (Real.sqrt_pos.2 (hpos u)).ne'
  have hmk : IsMarkovKernel K := ⟨fun x => by rw [hKdef, normalKernel_apply]; infer_instance⟩
  obtain ⟨d, hd, h1, h2⟩ := C189_curves B
    (transDens_normal (m := fun u => (mc u).1) (s := fun u => Real.sqrt (mc u).2) p1.fst p1.snd.sqrt hdt fun u => by rw [hsq]; exact p2 u) K
    (fun u => by rw [wd_normal (hs0 u), hsq, hKdef, normalKernel_apply]) benesBool_continuous benesBool_pos (fun y => ⟨1, benesBool_le y⟩)
    (oscDecay_normal benes_lik_smooth hdt fun u => by rw [hsq]; exact p2 u) _ init1_ok.1 init1_ok.2.1 init1_ok.2.2 ys t ht
  exact ⟨d, hlik ▸ hd, h1 _ ha, h2 _ hb⟩

/-- **C189 (c).** With `sde_cond_moments_tme` at an order of at least `2 N - 1` the curves converge to the density of the exact filter of
the stochastic differential equation itself. -/
theorem C189_exact (B : Backend) (hB : B.Valid) (stable : Bool) (dt : ℝ) (hdt : 0 < dt) (order : ℕ → ℕ) (ho : ∀ N, 2 * N ≤ order N + 1)
    (meanCov : ℝ → ℝ × ℝ) (ys : List Bool) (t : ℕ) (ht : t < ys.length) :
    let F := fun N => sdeCondMomentsTme (expectation benesDrift dispersion1 dt (order N)) meanCov
    let μ := mixture [⟨-0.5, 0.05, 0.5⟩, ⟨0.5, 0.05, 0.5⟩]
    let lik := fun (y : Bool) (x : ℝ) => if y then 1 / (1 + Real.exp (-x ^ 3 / 5)) else 1 - 1 / (1 + Real.exp (-x ^ 3 / 5))
    ∃ d, IsPosteriorDensity (benesKernel dt) lik μ ys t d ∧
      (CurvesConverge (fun N z => characteristicFn B z ((filterRms B (F N).raw benesBool (init1 N).rms ys stable).1.getD t [])) d) ∧
      CurvesConverge (fun N z =>
        let o := (filterCms B (F N).central (F N).mean benesBool (init1 N).cms (init1 N).mean ys stable).1.getD t ([], 0)
        characteristicFn B z o.1 o.2) d := by
  intro F μ lik
  have hlik : benesBool = lik := benesBool_eq
  obtain ⟨-, ha, hb⟩ := C154_benes_exact_filter B hB stable dt hdt order ho meanCov ys
  have hmk := isMarkov_benesKernel hdt
  have hKw : ∀ u, benesKernel dt u = wd fun x => benesDens dt u x := fun u => by
    rw [benesKernel, Kernel.withDensity_apply _ (by exact ENNReal.measurable_ofReal.comp (measurable_benesDens dt)), Kernel.const_apply]
    rfl
  obtain ⟨d, hd, h1, h2⟩ := C189_curves B (transDens_benes hdt) (benesKernel dt) hKw benesBool_continuous benesBool_pos
    (fun y => ⟨1, benesBool_le y⟩) (oscDecay_benes benes_lik_smooth hdt) _ init1_ok.1 init1_ok.2.1 init1_ok.2.2 ys t ht
  rw [hlik] at hd h1 h2
  exact ⟨d, hd, h1 _ ha, h2 _ hb⟩

/-- a case meeting the hypotheses: the settings of the script, two measurements, the second time. -/
example : (1 : ℕ) ≤ 3 ∧ 1 < [true, false].length ∧ (∀ N, 2 * N ≤ (2 * N - 1) + 1) ∧ ∃ B : Backend, B.Valid :=
  ⟨by norm_num, by norm_num, fun N => by omega, _, theBackend_valid⟩

end Mfs.Props

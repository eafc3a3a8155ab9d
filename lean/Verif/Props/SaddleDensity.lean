import Verif.Props.Pdf
import Mathlib.MeasureTheory.Integral.IntegrableOn
import Mathlib.MeasureTheory.Measure.Lebesgue.Basic

/-!
# C184: the function returned by `saddle_point` is not a density
-/

namespace Mfs.Props

open Mfs.Utils Mfs.Pdf MeasureTheory
open scoped Nat

theorem firstArgmin_min_mem (f : ℝ → ℝ) (l : List ℝ) (b : ℝ) (h : ∀ c ∈ l, f b ≤ f c) : firstArgmin f b l = b := by
  induction l with
  | nil => rfl
  | cons c l ih => rw [firstArgmin, if_neg (not_lt.2 (h c List.mem_cons_self)), ih fun d hd => h d (List.mem_cons_of_mem _ hd)]

/-- the second derivative of the cumulant-generating function. -/
theorem deriv2_saddleCgf (sms : List ℝ) (mean scale s : ℝ) (h : (mgfPoly sms scale).eval s ≠ 0) :
    deriv (deriv (saddleCgf sms mean scale)) s
      = ((mgfPoly sms scale).derivative.derivative.eval s * (mgfPoly sms scale).eval s - (mgfPoly sms scale).derivative.eval s ^ 2)
        / (mgfPoly sms scale).eval s ^ 2 := by
  set P := mgfPoly sms scale with hP
  have e : saddleCgf sms mean scale = fun z => z * mean + Real.log (P.eval z) := by
    rw [saddleCgf_eq]; funext z; rw [truncatedCgf_eq]
  have h1 : deriv (saddleCgf sms mean scale) =ᶠ[nhds s] fun z => mean + P.derivative.eval z / P.eval z := by
    filter_upwards [P.continuous.continuousAt.eventually_ne h] with z hz
    have h3 : HasDerivAt (fun z : ℝ => z * mean) mean z := by simpa using (hasDerivAt_id z).mul_const mean
    rw [e]
    exact (h3.add ((P.hasDerivAt z).log hz)).deriv
  have h2 : HasDerivAt (fun z => mean + P.derivative.eval z / P.eval z)
      ((P.derivative.derivative.eval s * P.eval s - P.derivative.eval s * P.derivative.eval s) / P.eval s ^ 2) s :=
    ((P.derivative.hasDerivAt s).div (P.hasDerivAt s) h).const_add mean
  rw [h1.deriv_eq, h2.deriv]
  ring

theorem mgfPoly_at_zero {sms : List ℝ} (h3 : 3 ≤ sms.length) (scale : ℝ) :
    (mgfPoly sms scale).eval 0 = sms.getD 0 0 ∧ (mgfPoly sms scale).derivative.eval 0 = scale * sms.getD 1 0 ∧
    (mgfPoly sms scale).derivative.derivative.eval 0 = scale ^ 2 * sms.getD 2 0 := by
  simp only [← Polynomial.coeff_zero_eq_eval_zero, Polynomial.coeff_derivative, zero_add, Nat.reduceAdd]
  rw [coeff_mgfPoly _ _ 0 (by omega), coeff_mgfPoly _ _ 1 (by omega), coeff_mgfPoly _ _ 2 (by omega)]
  refine ⟨by simp, by simp, ?_⟩
  norm_num [Nat.factorial]
  ring

/-- the value of `pdf` where the code takes `s = 0`. -/
theorem saddlePoint_of_zero {sms : List ℝ} (h3 : 3 ≤ sms.length) (h0 : sms.getD 0 0 = 1) (h1 : sms.getD 1 0 = 0) (h2 : sms.getD 2 0 = 1) (mean : ℝ) {scale : ℝ}
    (hs : 0 < scale) {x : ℝ} (h : saddleS sms mean scale x = 0) : saddlePoint sms mean scale x = 1 / (√(2 * Real.pi) * scale) := by
  obtain ⟨e0, e1, e2⟩ := mgfPoly_at_zero h3 scale
  rw [h0] at e0; rw [h1, mul_zero] at e1; rw [h2, mul_one] at e2
  have hd := deriv2_saddleCgf sms mean scale 0 (by rw [e0]; exact one_ne_zero)
  rw [e0, e1, e2] at hd
  simp only [saddlePoint, h]
  have hk : saddleCgf sms mean scale 0 = 0 := by
    rw [saddleCgf_eq]; simp only [truncatedCgf_eq]; rw [e0]; simp
  rw [hd, hk]
  rw [show 2 * Real.pi * ((scale ^ 2 * 1 - 0 ^ 2) / 1 ^ 2) = 2 * Real.pi * scale ^ 2 by ring, Real.sqrt_mul (by positivity), Real.sqrt_sq hs.le, zero_mul, sub_zero,
    Real.exp_zero]

/-- **C184 (constant on a half-line).** Let the scaled moments be non-negative with `s_0 = 1`, `s_1 = 0`, `s_2 = 1` and the last one zero, as those of every
symmetric standardised law in even number. Then `saddle_point` returns `1 / (√(2π) scale)` at every point left of the mean, however far. -/
theorem C184_constant {sms : List ℝ} (h3 : 3 ≤ sms.length) (h0 : sms.getD 0 0 = 1) (h1 : sms.getD 1 0 = 0) (h2 : sms.getD 2 0 = 1)
    (hnn : ∀ n, 0 ≤ sms.getD n 0) (hlast : sms.getD (sms.length - 1) 0 = 0) (mean : ℝ) {scale : ℝ} (hs : 0 < scale) {x : ℝ} (hx : x ≤ mean) :
    saddlePoint sms mean scale x = 1 / (√(2 * Real.pi) * scale) := by
  refine saddlePoint_of_zero h3 h0 h1 h2 mean hs ?_
  obtain ⟨L, hL⟩ : ∃ L, sms.length = L + 1 := ⟨sms.length - 1, by omega⟩
  have hc : ∀ c ∈ smsPoly sms, 0 ≤ c := by
    intro c hc
    simp only [smsPoly, List.mem_reverse, List.mem_map] at hc
    obtain ⟨n, -, rfl⟩ := hc
    exact div_nonneg (hnn n) (by positivity)
  have hlen : (smsPoly sms).length = L + 1 := by simp [smsPoly, hL]
  have hhead : (smsPoly sms).headD 0 = 0 := by
    rw [smsPoly, hL, List.range_succ, List.map_append, List.reverse_append]
    rw [hL, Nat.add_sub_cancel] at hlast
    rw [List.map_singleton, List.reverse_singleton, hlast]
    simp
  obtain ⟨l, hl⟩ : ∃ l, smsPoly sms = 0 :: l := by
    rcases hq : smsPoly sms with _ | ⟨c, l⟩
    · rw [hq] at hlen; simp at hlen
    · rw [hq] at hhead; exact ⟨l, by simpa using hhead⟩
  have hd : ∀ c ∈ polyder (smsPoly sms), 0 ≤ c := by
    intro c hc'
    simp only [polyder, List.mem_map] at hc'
    obtain ⟨i, hi, rfl⟩ := hc'
    refine mul_nonneg ?_ (Nat.cast_nonneg _)
    rw [List.mem_range] at hi
    rw [List.getD_eq_getElem _ _ (by omega)]
    exact hc _ (List.getElem_mem _)
  have hdl : (polyder (smsPoly sms)).length = L := by simp [polyder, hlen]
  -- the list of candidates starts with zero and has no negative entry
  have hlist : ∃ t, saddleEquationPoly sms mean scale x = 0 :: t ∧ ∀ c ∈ t, 0 ≤ c := by
    refine ⟨List.zipWith (· + ·) (l.map fun c => (mean - x) * c) ((polyder (smsPoly sms)).map fun c => scale * c), ?_, ?_⟩
    · rw [saddleEquationPoly, polyadd]
      simp only [List.length_map, hlen, hdl, Nat.le_add_right, max_eq_left, Nat.sub_self, Nat.add_sub_cancel_left, List.replicate_zero, List.replicate_one, List.nil_append]
      nth_rw 1 [hl]
      simp
    · intro c hc'
      obtain ⟨i, hi, rfl⟩ := List.mem_iff_getElem.1 hc'
      simp only [List.getElem_zipWith, List.getElem_map]
      refine add_nonneg (mul_nonneg (sub_nonneg.2 hx) (hc _ ?_)) (mul_nonneg hs.le (hd _ (List.getElem_mem _)))
      have hmem : ∀ (j : ℕ) (hj : j < l.length), l[j] ∈ smsPoly sms := fun j hj => by
        rw [hl]; exact List.mem_cons_of_mem _ (List.getElem_mem _)
      exact hmem _ _
  obtain ⟨t, ht, htn⟩ := hlist
  rw [saddleS, findNearestRealRoot, ht, List.headD_cons, List.tail_cons, firstArgmin_min_mem, zero_div]
  intro c hc'
  have hp : (x - mean) / scale ^ 2 ≤ 0 := div_nonpos_of_nonpos_of_nonneg (by linarith) (by positivity)
  rw [abs_of_nonneg (by linarith), abs_of_nonneg (by linarith [htn c hc'])]
  linarith [htn c hc']

/-- **C184 is false (no density).** For those moments the returned function is not integrable. -/
theorem C184_not_integrable {sms : List ℝ} (h3 : 3 ≤ sms.length) (h0 : sms.getD 0 0 = 1) (h1 : sms.getD 1 0 = 0) (h2 : sms.getD 2 0 = 1)
    (hnn : ∀ n, 0 ≤ sms.getD n 0) (hlast : sms.getD (sms.length - 1) 0 = 0) (mean : ℝ) {scale : ℝ} (hs : 0 < scale) :
    ¬ Integrable (saddlePoint sms mean scale) := by
  intro hi
  have h4 : IntegrableOn (fun _ : ℝ => 1 / (√(2 * Real.pi) * scale)) (Set.Iic mean) :=
    hi.integrableOn.congr_fun (fun x hx => C184_constant h3 h0 h1 h2 hnn hlast mean hs hx) measurableSet_Iic
  rw [integrableOn_const_iff] at h4
  rcases h4 with h | h
  · have : 0 < 1 / (√(2 * Real.pi) * scale) := by positivity
    exact this.ne' (enorm_eq_zero.1 h)
  · simp at h

theorem saddleS_tail {mean scale x : ℝ} (hs : 0 < scale) (hx : scale ^ 3 / 2 < x - mean) : saddleS [1, 0, 1, 0] mean scale x = 1 := by
  have hw : 0 < x - mean := lt_of_le_of_lt (by positivity) hx
  set p := (x - mean) / scale ^ 2 with hp
  have hp0 : 0 < p := by positivity
  have hps : scale < 2 * p := by
    rw [hp, mul_div_assoc', lt_div_iff₀ (by positivity)]; nlinarith
  have hl : saddleEquationPoly [1, 0, 1, 0] mean scale x = [0, (mean - x) * (1 / 2), scale, mean - x] := by
    norm_num [saddleEquationPoly, smsPoly, polyder, polyadd, List.range_succ, Nat.factorial]
  rw [saddleS, ← hp, hl, findNearestRealRoot]
  simp only [List.headD_cons, List.tail_cons, firstArgmin]
  have a0 : |0 - p| = p := by rw [zero_sub, abs_neg, abs_of_pos hp0]
  have a1 : ¬ |(mean - x) * (1 / 2) - p| < |0 - p| := by
    rw [a0, abs_of_neg (by linarith)]; linarith
  have a2 : |scale - p| < |0 - p| := by
    rw [a0, abs_lt]; constructor <;> linarith
  have a3 : ¬ |mean - x - p| < |scale - p| := by
    rw [abs_of_neg (by linarith), not_lt]
    rw [a0] at a2
    linarith
  rw [if_neg a1, if_pos a2, if_neg a3, div_self hs.ne']

/-- **C184 (other half-line).** For the four moments `1, 0, 1, 0` (normal law with the given mean and scale), right of `mean + scale³ / 2` the value used is `s = 1`.
If `scale² < 2` the function is a multiple of `exp (mean - x)`; if `scale² > 2` the number under the square root is negative, and the code returns NaN. -/
theorem C184_tail {mean scale x : ℝ} (hs : 0 < scale) (hx : scale ^ 3 / 2 < x - mean) :
    (scale ^ 2 < 2 → saddlePoint [1, 0, 1, 0] mean scale x = (1 + scale ^ 2 / 2) ^ 2 / √(2 * Real.pi * (scale ^ 2 * (1 - scale ^ 2 / 2))) * Real.exp (mean - x)) ∧
    (2 < scale ^ 2 → 2 * Real.pi * deriv (deriv (saddleCgf [1, 0, 1, 0] mean scale)) (saddleS [1, 0, 1, 0] mean scale x) < 0) := by
  have hs1 := saddleS_tail hs hx
  have hP : mgfPoly [1, 0, 1, 0] scale = 1 + Polynomial.C (scale ^ 2 / 2) * Polynomial.X ^ 2 := by
    norm_num [mgfPoly, Finset.sum_range_succ, Nat.factorial]
  have e0 : (mgfPoly [1, 0, 1, 0] scale).eval 1 = 1 + scale ^ 2 / 2 := by rw [hP]; simp
  have e1 : (mgfPoly [1, 0, 1, 0] scale).derivative.eval 1 = scale ^ 2 := by rw [hP]; simp; ring
  have e2 : (mgfPoly [1, 0, 1, 0] scale).derivative.derivative.eval 1 = scale ^ 2 := by rw [hP]; simp; ring
  have hpos : 0 < 1 + scale ^ 2 / 2 := by positivity
  have hd := deriv2_saddleCgf [1, 0, 1, 0] mean scale 1 (by rw [e0]; exact hpos.ne')
  rw [e0, e1, e2, show scale ^ 2 * (1 + scale ^ 2 / 2) - (scale ^ 2) ^ 2 = scale ^ 2 * (1 - scale ^ 2 / 2) by ring] at hd
  constructor
  · intro h
    have hq : 0 < scale ^ 2 * (1 - scale ^ 2 / 2) := mul_pos (by positivity) (by linarith)
    simp only [saddlePoint, hs1]
    have hk : saddleCgf [1, 0, 1, 0] mean scale 1 = 1 * mean + Real.log (1 + scale ^ 2 / 2) := by
      rw [saddleCgf_eq]; simp only [truncatedCgf_eq]; rw [e0]
    rw [hd, hk, show (1 : ℝ) * mean + Real.log (1 + scale ^ 2 / 2) - 1 * x = Real.log (1 + scale ^ 2 / 2) + (mean - x) by ring,
      Real.exp_add, Real.exp_log hpos, mul_div_assoc', Real.sqrt_div (by positivity), Real.sqrt_sq hpos.le]
    have : √(2 * Real.pi * (scale ^ 2 * (1 - scale ^ 2 / 2))) ≠ 0 := (Real.sqrt_pos.2 (by positivity)).ne'
    field_simp
  · intro h
    rw [hs1, hd]
    have : scale ^ 2 * (1 - scale ^ 2 / 2) / (1 + scale ^ 2 / 2) ^ 2 < 0 := div_neg_of_neg_of_pos (mul_neg_of_pos_of_neg (by positivity) (by linarith)) (by positivity)
    exact mul_neg_of_pos_of_neg (by positivity) this

/-- **C184, what is true.** At the mean the value is that of the normal density with the given mean and scale, for all moments with `s_0 = 1`, `s_1 = 0`, `s_2 = 1`.
Missing: every other point, where the code takes a coefficient of the saddle-point polynomial for its root (C52). -/
theorem C184_mean_partial {sms : List ℝ} (h3 : 3 ≤ sms.length) (h0 : sms.getD 0 0 = 1) (h1 : sms.getD 1 0 = 0) (h2 : sms.getD 2 0 = 1) (mean : ℝ) {scale : ℝ} (hs : 0 < scale) :
    saddlePoint sms mean scale mean = 1 / (√(2 * Real.pi) * scale) := by
  refine saddlePoint_of_zero h3 h0 h1 h2 mean hs ?_
  rw [saddleS, findNearestRealRoot, sub_self, zero_div]
  have hhead : (saddleEquationPoly sms mean scale mean).headD 0 = 0 := by
    have hlen : (smsPoly sms).length = sms.length := by simp [smsPoly]
    rw [saddleEquationPoly, polyadd]
    have hl1 : ((smsPoly sms).map fun c => (mean - mean) * c).length = sms.length := by simp [hlen]
    have hl2 : ((polyder (smsPoly sms)).map fun c => scale * c).length = sms.length - 1 := by simp [polyder, hlen]
    simp only [hl1, hl2, max_eq_left (Nat.sub_le _ _), Nat.sub_self, show sms.length - (sms.length - 1) = 1 by omega,
      List.replicate_zero, List.replicate_one, List.nil_append]
    obtain ⟨c, l, hcl⟩ := List.exists_cons_of_length_pos (l := smsPoly sms) (by omega)
    rw [hcl]
    simp
  rw [hhead, firstArgmin_min _ _ _ fun c => by simp, zero_div]

/-! ## Cases -/

/-- the six moments of a standard normal law. -/
example : ¬ Integrable (saddlePoint [1, 0, 1, 0, 3, 0] 0 1) := by
  refine C184_not_integrable (by norm_num) rfl rfl rfl (fun n => ?_) rfl 0 one_pos
  rcases n with _ | _ | _ | _ | _ | _ | n <;> norm_num

/-- a normal law with variance 4: no number at `x = 5`. -/
example : 2 * Real.pi * deriv (deriv (saddleCgf [1, 0, 1, 0] 0 2)) (saddleS [1, 0, 1, 0] 0 2 5) < 0 :=
  (C184_tail two_pos (by norm_num)).2 (by norm_num)

end Mfs.Props

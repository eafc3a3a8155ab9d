import Verif.Spec.PathKernel
import Verif.Lemmas.BenesSemigroup
import Mathlib.MeasureTheory.Constructions.Pi
import Mathlib.Probability.Kernel.Composition.IntegralCompProd

/-!
# Paths of a scheme with small normal increments for the Beneš equation
-/

namespace Mfs.Benes

open Mfs.Spec Mfs.SmoothB MeasureTheory ProbabilityTheory
open scoped NNReal

theorem measurable_finCons {X : Type} [MeasurableSpace X] (T : ℕ) : Measurable fun p : X × (Fin T → X) => (Fin.cons p.1 p.2 : Fin (T + 1) → X) := by
  refine measurable_pi_lambda _ fun t => ?_
  refine Fin.cases ?_ (fun t => ?_) t
  · simpa using measurable_fst
  · simp only [Fin.cons_succ]
    exact (measurable_pi_apply t).comp measurable_snd

instance isMarkov_pathKernel {X : Type} [MeasurableSpace X] (P : Kernel X X) [IsMarkovKernel P] (T : ℕ) : IsMarkovKernel (pathKernel P T) := by
  induction T with
  | zero => unfold pathKernel; infer_instance
  | succ T ih =>
    unfold pathKernel
    exact Kernel.IsMarkovKernel.map _ (measurable_finCons T)

/-- the mean after one step of the scheme. -/
noncomputable def qop (m v : ℝ → ℝ) (g : ℝ → ℝ) (x : ℝ) : ℝ := ∫ z, g (m x + √(v x) * z) ∂gaussianReal 0 1

variable {m v : ℝ → ℝ}

theorem measurable_step (hm : Measurable m) (hv : Measurable v) : Measurable fun p : ℝ × ℝ => m p.1 + √(v p.1) * p.2 := by fun_prop

theorem measurable_qop (hm : Measurable m) (hv : Measurable v) {g : ℝ → ℝ} (hg : Measurable g) : Measurable (qop m v g) :=
  (StronglyMeasurable.integral_prod_right' (ν := gaussianReal 0 1) (f := fun p : ℝ × ℝ => g (m p.1 + √(v p.1) * p.2))
    (hg.comp (measurable_step hm hv)).stronglyMeasurable).measurable

theorem abs_qop_le {g : ℝ → ℝ} {M : ℝ} (hg : ∀ x, |g x| ≤ M) (x : ℝ) : |qop m v g x| ≤ M := by
  have := norm_integral_le_of_norm_le_const (μ := gaussianReal 0 1) (f := fun z => g (m x + √(v x) * z)) (C := M) (Filter.Eventually.of_forall fun _ => hg _)
  rw [Real.norm_eq_abs] at this
  simpa [qop] using this

theorem integrable_qop {g : ℝ → ℝ} {M : ℝ} (hgm : Measurable g) (hg : ∀ x, |g x| ≤ M) (x : ℝ) : Integrable (fun z => g (m x + √(v x) * z)) (gaussianReal 0 1) :=
  Integrable.of_bound (C := M) (hgm.comp (by fun_prop)).aestronglyMeasurable (Filter.Eventually.of_forall fun _ => hg _)

theorem qop_iter_meas (hm : Measurable m) (hv : Measurable v) {g : ℝ → ℝ} (hg : Measurable g) (j : ℕ) : Measurable ((qop m v)^[j] g) := by
  induction j with
  | zero => exact hg
  | succ j ih => rw [Function.iterate_succ_apply']; exact measurable_qop hm hv ih

theorem qop_iter_bound {g : ℝ → ℝ} {M : ℝ} (hg : ∀ x, |g x| ≤ M) (j : ℕ) (x : ℝ) : |(qop m v)^[j] g x| ≤ M := by
  induction j generalizing x with
  | zero => exact hg x
  | succ j ih => rw [Function.iterate_succ_apply']; exact abs_qop_le ih x

theorem qop_iter_sub (hm : Measurable m) (hv : Measurable v) {f g : ℝ → ℝ} {M M' : ℝ} (hfm : Measurable f) (hgm : Measurable g) (hf : ∀ x, |f x| ≤ M)
    (hg : ∀ x, |g x| ≤ M') (j : ℕ) (x : ℝ) : (qop m v)^[j] f x - (qop m v)^[j] g x = (qop m v)^[j] (fun y => f y - g y) x := by
  induction j generalizing x with
  | zero => rfl
  | succ j ih =>
    rw [Function.iterate_succ_apply', Function.iterate_succ_apply', Function.iterate_succ_apply', qop, qop,
      ← integral_sub (integrable_qop (qop_iter_meas hm hv hfm j) (qop_iter_bound hf j) x) (integrable_qop (qop_iter_meas hm hv hgm j) (qop_iter_bound hg j) x)]
    simp only [ih]
    rfl

theorem qop_smooth {f : ℝ → ℝ} (hf : Continuous f) (x : ℝ) : qop m v f x = ∫ y, f (x + y) ∂gaussianReal (m x - x) (v x).toNNReal := by
  rw [integral_shift hf, add_sub_cancel, integral_gaussianReal_std _ _ _ hf, qop]
  rcases le_total 0 (v x) with h | h
  · rw [Real.coe_toNNReal _ h]
  · rw [Real.toNNReal_of_nonpos h, Real.sqrt_eq_zero_of_nonpos h, NNReal.coe_zero, Real.sqrt_zero]

/-- many steps. -/
theorem qop_iter_error (hm : Measurable m) (hv : Measurable v) {h C L K M : ℝ} (h0 : 0 ≤ h) (h1 : h ≤ 1)
    (hmC : ∀ x, |m x - x - h * Real.tanh x| ≤ C * h ^ 2) (hvC : ∀ x, |v x - h| ≤ C * h ^ 2) (hv0 : ∀ x, 0 ≤ v x)
    (hL : ∀ (h M : ℝ) (f : ℝ → ℝ), 0 ≤ h → h ≤ 1 → CB M 4 f → ∀ (x a : ℝ) (v : ℝ≥0),
      |a - h * Real.tanh x| ≤ C * h ^ 2 → |v - h| ≤ C * h ^ 2 → |∫ y, f (x + y) ∂gaussianReal a v - bop h f x| ≤ L * M * h ^ 2)
    (hK : ∀ (t M : ℝ) (f : ℝ → ℝ), CB M 4 f → CB (K * M) 4 (bop t f)) {f : ℝ → ℝ} (hf : CB M 4 f) (j : ℕ) (x : ℝ) :
    |(qop m v)^[j] f x - bop (j * h) f x| ≤ j * (L * (K * M) * h ^ 2) := by
  induction j generalizing x with
  | zero => simp [bop_zero]
  | succ j ih =>
    have hb := hK (j * h) M f hf
    have e1 : |qop m v ((qop m v)^[j] f) x - qop m v (bop (j * h) f) x| ≤ j * (L * (K * M) * h ^ 2) := by
      have := qop_iter_sub hm hv (qop_iter_meas hm hv hf.cont.measurable j) hb.cont.measurable (qop_iter_bound hf.bound j) hb.bound 1 x
      simp only [Function.iterate_one] at this
      rw [this]
      exact abs_qop_le ih x
    have e2 : |qop m v (bop (j * h) f) x - bop h (bop (j * h) f) x| ≤ L * (K * M) * h ^ 2 := by
      rw [qop_smooth hb.cont]
      refine hL h _ _ h0 h1 hb x _ _ (hmC x) ?_
      rw [Real.coe_toNNReal _ (hv0 x)]
      exact hvC x
    rw [bop_bop h0 (by positivity) hf] at e2
    rw [Function.iterate_succ_apply', show ((j + 1 : ℕ) : ℝ) * h = h + j * h by push_cast; ring]
    have := abs_sub_le (qop m v ((qop m v)^[j] f) x) (qop m v (bop (j * h) f) x) (bop (h + j * h) f x)
    push_cast
    linarith

/-- the mean of a product along a path of the scheme with `n` steps between the observed times. -/
noncomputable def qpath (m v : ℝ → ℝ) (n : ℕ) : (T : ℕ) → (Fin T → ℝ → ℝ) → ℝ → ℝ
  | 0, _ => fun _ => 1
  | T + 1, f => (qop m v)^[n] fun y => f 0 y * qpath m v n T (Fin.tail f) y

/-- the same for the equation. -/
noncomputable def bpath (dt : ℝ) : (T : ℕ) → (Fin T → ℝ → ℝ) → ℝ → ℝ
  | 0, _ => fun _ => 1
  | T + 1, f => bop dt fun y => f 0 y * bpath dt T (Fin.tail f) y

theorem qpath_meas (hm : Measurable m) (hv : Measurable v) (n T : ℕ) (f : Fin T → ℝ → ℝ) (hf : ∀ t, Measurable (f t)) : Measurable (qpath m v n T f) := by
  induction T with
  | zero => exact measurable_const
  | succ T ih => exact qop_iter_meas hm hv ((hf 0).mul (ih _ fun t => hf t.succ)) n

theorem qpath_bound (n T : ℕ) (f : Fin T → ℝ → ℝ) {M : ℝ} (hM : 1 ≤ M) (hf : ∀ t x, |f t x| ≤ M) (x : ℝ) : |qpath m v n T f x| ≤ M ^ T := by
  induction T generalizing x with
  | zero => simp [qpath]
  | succ T ih =>
    refine qop_iter_bound (fun y => ?_) n x
    rw [abs_mul, pow_succ']
    exact mul_le_mul (hf 0 y) (ih _ (fun t => hf t.succ) y) (abs_nonneg _) (by linarith)

theorem CB_const (n : ℕ) : CB 1 n fun _ => (1 : ℝ) := by
  have h0 : ∀ n, CB 1 n fun _ => (0 : ℝ) := by
    intro n
    induction n with
    | zero => exact ⟨continuous_const, by simp⟩
    | succ n ih => exact ⟨by simp, _, fun x => hasDerivAt_const x _, ih⟩
  cases n with
  | zero => exact ⟨continuous_const, by simp⟩
  | succ n => exact ⟨by simp, _, fun x => hasDerivAt_const x _, h0 n⟩

theorem exists_bpath_CB (dt : ℝ) (T : ℕ) (f : Fin T → ℝ → ℝ) (hf : ∀ t, ∃ M, CB M 4 (f t)) : ∃ M, CB M 4 (bpath dt T f) := by
  induction T with
  | zero => exact ⟨1, CB_const 4⟩
  | succ T ih =>
    obtain ⟨M, hM⟩ := ih (Fin.tail f) fun t => hf t.succ
    obtain ⟨M', hM'⟩ := hf 0
    obtain ⟨K, -, hK⟩ := exists_CB_bop 4
    exact ⟨_, hK dt _ _ (hM'.mul hM)⟩

/-- **the scheme converges along paths, at rate `1/n`.** -/
theorem exists_path_error (m v : ℝ → ℝ → ℝ) (hm : ∀ h, Measurable fun x => m x h) (hv : ∀ h, Measurable fun x => v x h) {C : ℝ} (hC : 0 ≤ C)
    (hmC : ∀ x h, 0 < h → h ≤ 1 → |m x h - x - h * Real.tanh x| ≤ C * h ^ 2) (hvC : ∀ x h, 0 < h → h ≤ 1 → |v x h - h| ≤ C * h ^ 2)
    (hv0 : ∀ x h, 0 < h → h ≤ 1 → 0 ≤ v x h) {dt : ℝ} (hdt : 0 < dt) (T : ℕ) (f : Fin T → ℝ → ℝ) (hf : ∀ t, ∃ M, CB M 4 (f t)) :
    ∃ c, 0 ≤ c ∧ ∀ n : ℕ, dt ≤ n → ∀ x, |qpath (fun x => m x (dt / n)) (fun x => v x (dt / n)) n T f x - bpath dt T f x| ≤ c / n := by
  obtain ⟨L, hL0, hL⟩ := exists_local C hC
  obtain ⟨K, hK0, hK⟩ := exists_CB_bop 4
  induction T with
  | zero => exact ⟨0, le_rfl, fun n _ x => by simp [qpath, bpath]⟩
  | succ T ih =>
    obtain ⟨c, hc0, hc⟩ := ih (Fin.tail f) fun t => hf t.succ
    obtain ⟨M, hM⟩ := hf 0
    obtain ⟨M', hM'⟩ := exists_bpath_CB dt T (Fin.tail f) fun t => hf t.succ
    have hP := hM.mul hM'
    have hP0 := hP.nonneg
    have hM0 := hM.nonneg
    set MP := 2 ^ 4 * (M * M')
    refine ⟨M * c + L * (K * MP) * dt ^ 2, by positivity, fun n hn x => ?_⟩
    have hn0 : (0 : ℝ) < n := hdt.trans_le hn
    have h0 : 0 < dt / n := by positivity
    have h1 : dt / n ≤ 1 := (div_le_one hn0).2 hn
    set q := qop (fun x => m x (dt / n)) (fun x => v x (dt / n)) with hq
    have e1 : |q^[n] (fun y => f 0 y * qpath (fun x => m x (dt / n)) (fun x => v x (dt / n)) n T (Fin.tail f) y) x
        - q^[n] (fun y => f 0 y * bpath dt T (Fin.tail f) y) x| ≤ M * (c / n) := by
      have hx : ∃ M'', 1 ≤ M'' ∧ ∀ t x, |Fin.tail f t x| ≤ M'' := by
        choose Mt hMt using hf
        refine ⟨1 + ∑ t, |Mt t|, by linarith [Finset.sum_nonneg fun t (_ : t ∈ Finset.univ) => abs_nonneg (Mt t)], fun t x => ?_⟩
        have := Finset.single_le_sum (f := fun t => |Mt t|) (fun t _ => abs_nonneg (Mt t)) (Finset.mem_univ t.succ)
        have h2 := (hMt t.succ).bound x
        have h3 := le_abs_self (Mt t.succ)
        show |f t.succ x| ≤ _
        linarith
      obtain ⟨M'', h1'', hM''⟩ := hx
      have hmeas : ∀ t, Measurable (Fin.tail f t) := fun t => by
        obtain ⟨_, h⟩ := hf t.succ
        exact h.cont.measurable
      have hbq := qpath_bound (m := fun x => m x (dt / n)) (v := fun x => v x (dt / n)) n T (Fin.tail f) h1'' hM''
      have hfm : Measurable fun y => f 0 y * qpath (fun x => m x (dt / n)) (fun x => v x (dt / n)) n T (Fin.tail f) y :=
        hM.cont.measurable.mul (qpath_meas (hm _) (hv _) n T _ hmeas)
      rw [hq, qop_iter_sub (hm _) (hv _) hfm hP.cont.measurable
        (M := M * M'' ^ T) (fun y => by rw [abs_mul]; exact mul_le_mul (hM.bound y) (hbq y) (abs_nonneg _) hM0) hP.bound]
      refine qop_iter_bound (fun y => ?_) n x
      rw [← mul_sub, abs_mul]
      exact mul_le_mul (hM.bound y) (hc n hn y) (abs_nonneg _) hM0
    have e2 := qop_iter_error (hm _) (hv _) h0.le h1 (fun x => hmC x _ h0 h1) (fun x => hvC x _ h0 h1) (fun x => hv0 x _ h0 h1) hL hK hP n x
    rw [mul_div_cancel₀ _ hn0.ne'] at e2
    have e3 : (n : ℝ) * (L * (K * MP) * (dt / n) ^ 2) = L * (K * MP) * dt ^ 2 / n := by
      field_simp
    rw [e3] at e2
    have := abs_sub_le (q^[n] (fun y => f 0 y * qpath (fun x => m x (dt / n)) (fun x => v x (dt / n)) n T (Fin.tail f) y) x)
      (q^[n] (fun y => f 0 y * bpath dt T (Fin.tail f) y) x) (bop dt (fun y => f 0 y * bpath dt T (Fin.tail f) y) x)
    show |q^[n] (fun y => f 0 y * qpath (fun x => m x (dt / n)) (fun x => v x (dt / n)) n T (Fin.tail f) y) x
      - bop dt (fun y => f 0 y * bpath dt T (Fin.tail f) y) x| ≤ _
    rw [add_div, mul_div_assoc M c]
    linarith

/-- means of products under the law of the path of the equation. -/
theorem integral_pathKernel {dt : ℝ} (hdt : 0 < dt) (T : ℕ) (f : Fin T → ℝ → ℝ) (hf : ∀ t, ∃ M, CB M 4 (f t)) (x : ℝ) :
    ∫ xs, ∏ t, f t (xs t) ∂pathKernel (benesKernel dt) T x = bpath dt T f x := by
  have hMk := isMarkov_benesKernel hdt
  induction T generalizing x with
  | zero => simp [pathKernel, bpath]
  | succ T ih =>
    obtain ⟨M, hM⟩ := hf 0
    obtain ⟨M', hM'⟩ := exists_bpath_CB dt T (Fin.tail f) fun t => hf t.succ
    have hP := hM.mul hM'
    have hmeas : Measurable fun xs : Fin (T + 1) → ℝ => ∏ t, f t (xs t) := by
      refine Finset.measurable_fun_prod _ fun t _ => ?_
      obtain ⟨_, h⟩ := hf t
      exact h.cont.measurable.comp (measurable_pi_apply t)
    have hb : ∃ b, ∀ xs : Fin (T + 1) → ℝ, |∏ t, f t (xs t)| ≤ b := by
      choose Mt hMt using hf
      refine ⟨∏ t, Mt t, fun xs => ?_⟩
      rw [Finset.abs_prod]
      exact Finset.prod_le_prod (fun t _ => abs_nonneg _) fun t _ => (hMt t).bound _
    obtain ⟨b, hb⟩ := hb
    show ∫ xs : Fin (T + 1) → ℝ, ∏ t, f t (xs t) ∂((benesKernel dt ⊗ₖ Kernel.prodMkLeft ℝ (pathKernel (benesKernel dt) T)).map _) x = bop dt _ x
    rw [Kernel.map_apply _ (measurable_finCons T), integral_map (measurable_finCons T).aemeasurable hmeas.aestronglyMeasurable, integral_compProd]
    · rw [bop_eq hdt hP]
      refine integral_congr_ae (Filter.Eventually.of_forall fun y => ?_)
      simp only [Fin.prod_univ_succ, Fin.cons_zero, Fin.cons_succ, Kernel.prodMkLeft_apply]
      rw [integral_const_mul]
      congr 1
      exact ih (Fin.tail f) (fun t => hf t.succ) y
    · exact Integrable.of_bound (C := b) (hmeas.comp (measurable_finCons T)).aestronglyMeasurable (Filter.Eventually.of_forall fun p => hb _)

end Mfs.Benes

import Verif.Lemmas.ContiMeasurable
import Verif.Props.SmcConverge

/-!
# C183: the bootstrap filter with `conti_resampling=True` converges in mean square

`continuous_resampling` is biased for every finite number of particles, so that the argument of C148 does not apply; its error is of order `1/n` for functions
of bounded variation, whatever the draws.
-/

namespace Mfs.Props

open Mfs.Smc Mfs.Spec Mfs.OrderStat MeasureTheory ProbabilityTheory

/-- `f` is the difference of two nondecreasing functions with values in `[0, A]`; such a number exists if and only if `f` is bounded and of bounded
variation. -/
def Jor (f : ℝ → ℝ) (A : ℝ) : Prop :=
  ∃ p q : ℝ → ℝ, Monotone p ∧ Monotone q ∧ (∀ x, 0 ≤ p x ∧ p x ≤ A) ∧ (∀ x, 0 ≤ q x ∧ q x ≤ A) ∧ ∀ x, f x = p x - q x

theorem Jor.nonneg {f : ℝ → ℝ} {A : ℝ} (h : Jor f A) : 0 ≤ A := by
  obtain ⟨p, q, -, -, hp, -⟩ := h
  exact (hp 0).1.trans (hp 0).2

theorem Jor.abs_le {f : ℝ → ℝ} {A : ℝ} (h : Jor f A) (x : ℝ) : |f x| ≤ A := by
  obtain ⟨p, q, -, -, hp, hq, e⟩ := h
  rw [e, _root_.abs_le]
  constructor <;> linarith [(hp x).1, (hp x).2, (hq x).1, (hq x).2]

theorem Jor.measurable {f : ℝ → ℝ} {A : ℝ} (h : Jor f A) : Measurable f := by
  obtain ⟨p, q, hp, hq, -, -, e⟩ := h
  rw [show f = fun x => p x - q x from funext e]
  exact hp.measurable.sub hq.measurable

theorem Jor.mul {f g : ℝ → ℝ} {A B : ℝ} (hf : Jor f A) (hg : Jor g B) : Jor (fun x => f x * g x) (2 * A * B) := by
  have hA := hf.nonneg
  have hB := hg.nonneg
  obtain ⟨p, q, mp, mq, hp, hq, e⟩ := hf
  obtain ⟨p', q', mp', mq', hp', hq', e'⟩ := hg
  have mm : ∀ {u v : ℝ → ℝ}, Monotone u → Monotone v → (∀ x, 0 ≤ u x) → (∀ x, 0 ≤ v x) → Monotone fun x => u x * v x :=
    fun hu hv u0 v0 x y hxy => mul_le_mul (hu hxy) (hv hxy) (v0 x) (u0 y)
  refine ⟨fun x => p x * p' x + q x * q' x, fun x => p x * q' x + q x * p' x,
    (mm mp mp' (fun x => (hp x).1) fun x => (hp' x).1).add (mm mq mq' (fun x => (hq x).1) fun x => (hq' x).1),
    (mm mp mq' (fun x => (hp x).1) fun x => (hq' x).1).add (mm mq mp' (fun x => (hq x).1) fun x => (hp' x).1), fun x => ⟨?_, ?_⟩, fun x => ⟨?_, ?_⟩,
    fun x => by simp only [e, e']; ring⟩
  · exact add_nonneg (mul_nonneg (hp x).1 (hp' x).1) (mul_nonneg (hq x).1 (hq' x).1)
  · have h1 := mul_le_mul (hp x).2 (hp' x).2 (hp' x).1 hA
    have h2 := mul_le_mul (hq x).2 (hq' x).2 (hq' x).1 hA
    linarith
  · exact add_nonneg (mul_nonneg (hp x).1 (hq' x).1) (mul_nonneg (hq x).1 (hp' x).1)
  · have h1 := mul_le_mul (hp x).2 (hq' x).2 (hq' x).1 hA
    have h2 := mul_le_mul (hq x).2 (hp' x).2 (hp' x).1 hA
    linarith

theorem Jor.const_one : Jor (fun _ => 1) 1 :=
  ⟨fun _ => 1, fun _ => 0, monotone_const, monotone_const, fun _ => by norm_num, fun _ => by norm_num, fun _ => by norm_num⟩

section
variable {Y K : Type} {n : ℕ} [NeZero n]

/-- **C183 (one resampling).** `continuous_resampling` replaces the weighted average of `f` by an average over the new particles that differs by at most
`2 A (1 / n + max weight / 2)`, for all samples, weights and draws. -/
theorem C183_resampling {eps : ℝ} (heps : 0 ≤ eps) (draw : K → ℕ → ℝ) (key : K) (hu : ∀ j < n, 0 ≤ draw key j ∧ draw key j < 1)
    (s w : Fin n → ℝ) (hw0 : ∀ i, 0 ≤ w i) (hw1 : ∑ i, w i = 1) {b : ℝ} (hb : ∀ i, w i ≤ b) {f : ℝ → ℝ} {A : ℝ} (hf : Jor f A) :
    |(∑ j, f (resampleConti eps draw s w key j)) / n - ∑ i, w i * f (s i)| ≤ 2 * A * (1 / n + b / 2) := by
  obtain ⟨p, q, mp, mq, hp, hq, e⟩ := hf
  have h1 := Resampling.conti_monotone heps draw key hu s w hw0 hw1 hb mp (fun x => (hp x).1) fun x => (hp x).2
  have h2 := Resampling.conti_monotone heps draw key hu s w hw0 hw1 hb mq (fun x => (hq x).1) fun x => (hq x).2
  have : (∑ j, f (resampleConti eps draw s w key j)) / n - ∑ i, w i * f (s i)
      = ((∑ j, p (resampleConti eps draw s w key j)) / n - ∑ i, w i * p (s i)) - ((∑ j, q (resampleConti eps draw s w key j)) / n - ∑ i, w i * q (s i)) := by
    simp only [e, Finset.sum_sub_distrib, mul_sub, sub_div]
    ring
  rw [this]
  refine (abs_sub _ _).trans ?_
  linarith

/-- the cloud after one step. -/
noncomputable def stepC (g : Y → ℝ → ℝ) (transition : (Fin n → ℝ) → K → Fin n → ℝ) (eps : ℝ) (draw : K → ℕ → ℝ) (splitFst : K → K) (s : Fin n → ℝ) (y : Y)
    (k : K) : Fin n → ℝ := resampleConti eps draw (transition s k) (normW g y (transition s k)) (splitFst k)

/-- likelihood estimate times the mean of `f` over the last cloud. -/
noncomputable def runC (g : Y → ℝ → ℝ) (f : ℝ → ℝ) (transition : (Fin n → ℝ) → K → Fin n → ℝ) (eps : ℝ) (draw : K → ℕ → ℝ) (splitFst : K → K) :
    (ys : List Y) → (Fin n → ℝ) → (Fin ys.length → K) → ℝ
  | [], s, _ => (∑ j, f (s j)) / n
  | y :: ys, s, keys => (∑ i, g y (transition s (keys 0) i)) / n
      * runC g f transition eps draw splitFst ys (stepC g transition eps draw splitFst s y (keys 0)) (Fin.tail keys)

/-- the last cloud. -/
noncomputable def lastC (g : Y → ℝ → ℝ) (transition : (Fin n → ℝ) → K → Fin n → ℝ) (eps : ℝ) (draw : K → ℕ → ℝ) (splitFst : K → K) :
    (ys : List Y) → (Fin n → ℝ) → (Fin ys.length → K) → Fin n → ℝ
  | [], s, _ => s
  | y :: ys, s, keys => lastC g transition eps draw splitFst ys (stepC g transition eps draw splitFst s y (keys 0)) (Fin.tail keys)

variable {g : Y → ℝ → ℝ} {f : ℝ → ℝ} {transition : (Fin n → ℝ) → K → Fin n → ℝ} {eps : ℝ} {draw : K → ℕ → ℝ} {splitFst : K → K}

theorem runC_lastC (ys : List Y) (s : Fin n → ℝ) (keys : Fin ys.length → K) :
    runC g f transition eps draw splitFst ys s keys = runC g (fun _ => 1) transition eps draw splitFst ys s keys
      * ((∑ j, f (lastC g transition eps draw splitFst ys s keys j)) / n) := by
  have hn1 : (n : ℝ) ≠ 0 := Nat.cast_ne_zero.2 (NeZero.ne n)
  induction ys generalizing s with
  | nil => simp [runC, lastC, hn1]
  | cons y ys ih => rw [runC, runC, lastC, ih, mul_assoc]

/-- the code's outputs in terms of `runC`. -/
theorem runC_eq (hg : ∀ y x, 0 < g y x) (ys : List Y) (keys : Fin ys.length → K) (s : Fin n → ℝ) (r : ℝ) :
    let R := scan (bootstrapBody transition (fun y s i => g y (s i)) (resampleConti eps draw) splitFst) (s, r) (ys.zip (List.ofFn keys))
    Real.exp (-R.1.2) * ((∑ j, f (R.2.getLastD s j)) / n) = Real.exp (-r) * runC g f transition eps draw splitFst ys s keys ∧
      R.2.getLastD s = lastC g transition eps draw splitFst ys s keys := by
  induction ys generalizing s r with
  | nil => exact ⟨rfl, rfl⟩
  | cons y ys ih =>
    have hn1 : (0 : ℝ) < n := Nat.cast_pos.2 (Nat.pos_of_ne_zero (NeZero.ne n))
    have hpos : 0 < (∑ i, g y (transition s (keys 0) i)) / n :=
      div_pos (Finset.sum_pos (fun i _ => hg y _) ⟨0, Finset.mem_univ _⟩) hn1
    have hz : (y :: ys).zip (List.ofFn keys) = (y, keys 0) :: ys.zip (List.ofFn (Fin.tail keys)) := by
      have : List.ofFn keys = keys 0 :: List.ofFn (Fin.tail keys) := List.ofFn_succ
      rw [this, List.zip_cons_cons]
    obtain ⟨h, h2⟩ := ih (Fin.tail keys) (stepC g transition eps draw splitFst s y (keys 0)) (r - Real.log ((∑ i, g y (transition s (keys 0) i)) / n))
    dsimp only at h h2 ⊢
    rw [hz, runC, lastC, ← mul_assoc (Real.exp (-r))]
    have he : Real.exp (-(r - Real.log ((∑ i, g y (transition s (keys 0) i)) / n)))
        = Real.exp (-r) * ((∑ i, g y (transition s (keys 0) i)) / n) := by
      rw [neg_sub, sub_eq_add_neg, Real.exp_add, Real.exp_log hpos, mul_comm]
    rw [he] at h
    rw [← h, ← h2]
    simp only [scan, bootstrapBody, List.getLastD_cons]
    exact ⟨rfl, rfl⟩

variable [MeasurableSpace K]

theorem measurable_stepC (hgm : ∀ y, Measurable (g y)) (htm : Measurable fun p : (Fin n → ℝ) × K => transition p.1 p.2) (hd : ∀ j, Measurable fun k => draw k j)
    (hsm : Measurable splitFst) (y : Y) : Measurable fun p : (Fin n → ℝ) × K => stepC g transition eps draw splitFst p.1 y p.2 := by
  have h1 : Measurable fun p : (Fin n → ℝ) × K => (transition p.1 p.2, normW g y (transition p.1 p.2), splitFst p.2) :=
    htm.prodMk (((measurable_normW hgm y).comp htm).prodMk (hsm.comp measurable_snd))
  have h := (Resampling.measurable_resampleConti (n := n) eps hd).comp h1
  have e : (fun p : (Fin n → ℝ) × K => stepC g transition eps draw splitFst p.1 y p.2)
      = (fun q : (Fin n → ℝ) × (Fin n → ℝ) × K => resampleConti eps draw q.1 q.2.1 q.2.2) ∘ fun p => (transition p.1 p.2, normW g y (transition p.1 p.2), splitFst p.2) := by
    funext p
    rw [Function.comp, stepC]
  rw [e]
  exact h

theorem measurable_runC (hgm : ∀ y, Measurable (g y)) (hf : Measurable f) (htm : Measurable fun p : (Fin n → ℝ) × K => transition p.1 p.2)
    (hd : ∀ j, Measurable fun k => draw k j) (hsm : Measurable splitFst) (ys : List Y) :
    Measurable fun p : (Fin n → ℝ) × (Fin ys.length → K) => runC g f transition eps draw splitFst ys p.1 p.2 := by
  induction ys with
  | nil =>
    simp only [runC]
    exact (Finset.measurable_sum _ fun j _ => hf.comp ((measurable_pi_apply j).comp measurable_fst)).div_const _
  | cons y ys ih =>
    simp only [runC]
    have h0 : Measurable fun p : (Fin n → ℝ) × (Fin (ys.length + 1) → K) => (p.1, p.2 0) := measurable_fst.prodMk ((measurable_pi_apply 0).comp measurable_snd)
    have ht : Measurable fun p : (Fin n → ℝ) × (Fin (ys.length + 1) → K) => transition p.1 (p.2 0) := htm.comp h0
    refine Measurable.mul ?_ ?_
    · refine Measurable.div_const (Finset.measurable_sum _ fun i _ => ?_) _
      exact (hgm y).comp ((measurable_pi_apply i).comp ht)
    · refine ih.comp (Measurable.prodMk ((measurable_stepC hgm htm hd hsm y).comp h0) ?_)
      exact measurable_pi_lambda _ fun i => (measurable_pi_apply _).comp measurable_snd

omit [MeasurableSpace K] in
theorem abs_runC_le {G F : ℝ} (hg0 : ∀ y x, 0 < g y x) (hgG : ∀ y x, g y x ≤ G) (hfF : ∀ x, |f x| ≤ F) (ys : List Y) (s : Fin n → ℝ) (keys : Fin ys.length → K) :
    |runC g f transition eps draw splitFst ys s keys| ≤ G ^ ys.length * F := by
  induction ys generalizing s with
  | nil => simpa [runC] using abs_mean_le hfF s
  | cons y ys ih =>
    have e : G ^ (y :: ys).length * F = G * (G ^ ys.length * F) := by rw [List.length_cons, pow_succ', mul_assoc]
    rw [runC, abs_mul, e]
    have hG : 0 ≤ G := (hg0 y (s 0)).le.trans (hgG y (s 0))
    exact mul_le_mul (abs_mean_le (φ := g y) (fun x => by rw [abs_of_pos (hg0 y x)]; exact hgG y x) _) (ih _ _) (abs_nonneg _) hG

omit [NeZero n] in
/-- average and variance of independent draws. -/
theorem mean_var_le (hn : 0 < n) {Q : Fin n → Measure ℝ} [∀ j, IsProbabilityMeasure (Q j)] {h : ℝ → ℝ} (hm : Measurable h) {B : ℝ} (hB : ∀ x, |h x| ≤ B) (m : ℝ)
    (hs : ∑ j, ∫ x, h x ∂(Q j) = n * m) : ∫ z, ((∑ i, h (z i)) / n - m) ^ 2 ∂(Measure.pi Q) ≤ B ^ 2 / n := by
  have hn1 : (0 : ℝ) < n := Nat.cast_pos.2 hn
  have hL : ∀ j, MemLp h 2 (Q j) := fun j =>
    MemLp.of_bound hm.aestronglyMeasurable B (Filter.Eventually.of_forall fun x => by rw [Real.norm_eq_abs]; exact hB x)
  rw [integral_sq_mean_pi hn Q (fun _ => h) hL m hs]
  have : ∑ j, variance h (Q j) ≤ n * B ^ 2 := by
    have hj : ∀ j ∈ (Finset.univ : Finset (Fin n)), variance h (Q j) ≤ B ^ 2 := by
      intro j _
      refine (variance_le_expectation_sq hm.aestronglyMeasurable).trans ?_
      have hi : Integrable (fun x => (h ^ 2) x) (Q j) := integrable_of_abs_le _ (hm.pow_const 2) (B := B ^ 2) fun x => by
        rw [Pi.pow_apply, abs_pow]; exact pow_le_pow_left₀ (abs_nonneg _) (hB x) 2
      refine (integral_mono hi (integrable_const (B ^ 2)) fun x => ?_).trans (by simp)
      exact (sq_abs (h x)).symm.le.trans (pow_le_pow_left₀ (abs_nonneg _) (hB x) 2)
    refine (Finset.sum_le_sum hj).trans ?_
    simp
  calc _ ≤ (n * B ^ 2) / (n : ℝ) ^ 2 := by gcongr
    _ = _ := by field_simp

end

/-- the constants of C183. -/
theorem jor_markovE {Y : Type} {P : Kernel ℝ ℝ} {g : Y → ℝ → ℝ} {G : ℝ} (hg : ∀ y, Jor (g y) G) (hP : ∀ f A, Jor f A → ∃ B, Jor (fun x => ∫ x', f x' ∂(P x)) B)
    {f : ℝ → ℝ} {A : ℝ} (hf : Jor f A) (ys : List Y) : ∃ B, Jor (markovE P g f ys) B := by
  induction ys with
  | nil => exact ⟨A, hf⟩
  | cons y ys ih =>
    obtain ⟨B, hB⟩ := ih
    exact hP _ _ ((hg y).mul hB)

/-- mean square error over the keys, for a given cloud. -/
theorem runC_moments {Y : Type} {P : Kernel ℝ ℝ} [IsMarkovKernel P] {g : Y → ℝ → ℝ} {G : ℝ} (hg0 : ∀ y x, 0 < g y x) (hg : ∀ y, Jor (g y) G)
    (hP : ∀ f A, Jor f A → ∃ B, Jor (fun x => ∫ x', f x' ∂(P x)) B) {f : ℝ → ℝ} {A : ℝ} (hf : Jor f A) (ys : List Y) :
    ∃ C, 0 ≤ C ∧ ∀ (n : ℕ) [NeZero n] (K : Type) [MeasurableSpace K] (ν : Measure K) [IsProbabilityMeasure ν] (transition : (Fin n → ℝ) → K → Fin n → ℝ) (eps : ℝ)
      (draw : K → ℕ → ℝ) (splitFst : K → K), 0 ≤ eps → Measurable (fun p : (Fin n → ℝ) × K => transition p.1 p.2) → (∀ j, Measurable fun k => draw k j) →
      Measurable splitFst → (∀ s, ν.map (transition s) = Measure.pi fun j => P (s j)) → (∀ᵐ k ∂ν, ∀ j < n, 0 ≤ draw (splitFst k) j ∧ draw (splitFst k) j < 1) →
      ∀ s : Fin n → ℝ, ∫ keys, (runC g f transition eps draw splitFst ys s keys - (∑ j, markovE P g f ys (s j)) / n) ^ 2 ∂(Measure.pi fun _ : Fin ys.length => ν)
        ≤ C / n := by
  have hgm : ∀ y, Measurable (g y) := fun y => (hg y).measurable
  have hgG : ∀ y x, g y x ≤ G := fun y x => (le_abs_self _).trans ((hg y).abs_le x)
  have hfF := hf.abs_le
  induction ys with
  | nil => exact ⟨0, le_rfl, fun n _ K _ ν _ transition eps draw splitFst _ _ _ _ _ _ s => by simp [runC, markovE]⟩
  | cons y ys ih =>
    obtain ⟨C, hC, ih⟩ := ih
    obtain ⟨B, hB⟩ := jor_markovE hg hP hf ys
    obtain ⟨B', hB'⟩ := jor_markovE hg hP hf (y :: ys)
    have hB0 := hB.nonneg
    have hG0 : 0 ≤ G := (hg y).nonneg
    refine ⟨3 * (G ^ 2 * C + (3 * B * G) ^ 2 + (G * B) ^ 2), by positivity, ?_⟩
    intro n _ K _ ν _ transition eps draw splitFst heps htm hd hsm hind hdr s
    have hn : 0 < n := Nat.pos_of_ne_zero (NeZero.ne n)
    have hn1 : (0 : ℝ) < n := Nat.cast_pos.2 hn
    have hn2 : (1 : ℝ) ≤ n := by exact_mod_cast hn
    have ih' := ih n K ν transition eps draw splitFst heps htm hd hsm hind hdr
    clear ih
    set L := markovE P g f ys with hL
    set m := (∑ j, markovE P g f (y :: ys) (s j)) / n with hm
    have hmL : Measurable L := hB.measurable
    have hbL := hB.abs_le
    set h : ℝ → ℝ := fun x => g y x * L x with hh
    have hhm : Measurable h := (hgm y).mul hmL
    have hhB : ∀ x, |h x| ≤ G * B := fun x => by
      rw [hh, abs_mul, abs_of_pos (hg0 y x)]
      exact mul_le_mul (hgG y x) (hbL x) (abs_nonneg _) hG0
    set Am : (Fin n → ℝ) → ℝ := fun z => (∑ i, g y (z i)) / n with hA
    have hA0 : ∀ z, 0 < Am z := fun z => div_pos (Finset.sum_pos (fun i _ => hg0 y _) ⟨0, Finset.mem_univ _⟩) hn1
    have hAG : ∀ z, Am z ≤ G := fun z => (le_abs_self _).trans (abs_mean_le (φ := g y) (fun x => by rw [abs_of_pos (hg0 y x)]; exact hgG y x) z)
    have hpos : ∀ z : Fin n → ℝ, 0 < ∑ i, g y (z i) := fun z => Finset.sum_pos (fun i _ => hg0 y _) ⟨0, Finset.mem_univ _⟩
    have hw0 : ∀ z : Fin n → ℝ, ∀ i, 0 ≤ normW g y z i := fun z i => div_nonneg (hg0 y _).le (hpos z).le
    have hw1 : ∀ z : Fin n → ℝ, ∑ i, normW g y z i = 1 := fun z => by
      simp only [normW]
      rw [← Finset.sum_div, div_self (hpos z).ne']
    have hAw : ∀ z : Fin n → ℝ, Am z * ∑ i, normW g y z i * L (z i) = (∑ i, h (z i)) / n := by
      intro z
      have := (hpos z).ne'
      simp only [hA, hh, normW, div_mul_eq_mul_div]
      rw [← Finset.sum_div]
      field_simp
    have hwb : ∀ (z : Fin n → ℝ) i, normW g y z i ≤ G / (n * Am z) := by
      intro z i
      have e : n * Am z = ∑ i, g y (z i) := by rw [hA]; field_simp
      rw [e]
      exact div_le_div_of_nonneg_right (hgG y _) (hpos z).le
    have hts : Measurable (transition s) := htm.comp (measurable_const.prodMk measurable_id)
    -- error of the resampling
    have hre : ∀ᵐ k ∂ν, |Am (transition s k) * ((∑ j, L (stepC g transition eps draw splitFst s y k j)) / n - ∑ i, normW g y (transition s k) i * L (transition s k i))|
        ≤ 3 * B * G / n := by
      filter_upwards [hdr] with k hk
      have h1 := C183_resampling heps draw (splitFst k) hk (transition s k) (normW g y (transition s k)) (hw0 _) (hw1 _) (hwb _) hB
      set z := transition s k
      rw [abs_mul, abs_of_pos (hA0 z)]
      refine (mul_le_mul_of_nonneg_left h1 (hA0 z).le).trans ?_
      have e : Am z * (2 * B * (1 / n + G / (n * Am z) / 2)) = (2 * B * Am z + B * G) / n := by
        have := (hA0 z).ne'
        field_simp
      rw [e]
      gcongr
      nlinarith [hAG z]
    have hPm : ∑ j, ∫ x, h x ∂(P (s j)) = n * m := by
      rw [hm, mul_div_cancel₀ _ hn1.ne']
      rfl
    have hzvar := mean_var_le hn (Q := fun j => P (s j)) hhm hhB m hPm
    have hhs : Measurable fun z : Fin n → ℝ => (∑ i, h (z i)) / n :=
      (Finset.measurable_sum _ fun i _ => hhm.comp (measurable_pi_apply i)).div_const _
    rw [← hind s, integral_map hts.aemeasurable ((hhs.sub_const m).pow_const 2).aestronglyMeasurable] at hzvar
    have hmB : |m| ≤ B' := abs_mean_le hB'.abs_le s
    have hrun : ∀ k (keys : Fin ys.length → K), runC g f transition eps draw splitFst (y :: ys) s (Fin.cons k keys : Fin (ys.length + 1) → K)
        = Am (transition s k) * runC g f transition eps draw splitFst ys (stepC g transition eps draw splitFst s y k) keys := by
      intro k keys
      simp only [runC, Fin.cons_zero, Fin.tail_cons]
      rfl
    have hRs : Measurable fun keys : Fin (ys.length + 1) → K => runC g f transition eps draw splitFst (y :: ys) s keys :=
      (measurable_runC (n := n) hgm hf.measurable htm hd hsm (y :: ys)).comp (measurable_const.prodMk measurable_id)
    have hRB := abs_runC_le (transition := transition) (eps := eps) (draw := draw) (splitFst := splitFst) hg0 hgG hfF (y :: ys) s
    have hR's : ∀ s', Measurable fun keys : Fin ys.length → K => runC g f transition eps draw splitFst ys s' keys := fun s' =>
      (measurable_runC (n := n) hgm hf.measurable htm hd hsm ys).comp (measurable_const.prodMk measurable_id)
    have hR'B := abs_runC_le (transition := transition) (eps := eps) (draw := draw) (splitFst := splitFst) hg0 hgG hfF ys
    set D := G ^ (y :: ys).length * A with hD
    set D' := G ^ ys.length * A with hD'
    have hb2 : ∀ x : ℝ, |x| ≤ D → |(x - m) ^ 2| ≤ (D + B') ^ 2 := by
      intro x hx
      rw [abs_pow]
      exact pow_le_pow_left₀ (abs_nonneg _) ((abs_sub _ _).trans (add_le_add hx hmB)) 2
    refine (integral_keys_succ ν ys.length ((hRs.sub_const m).pow_const 2) (fun x => hb2 _ (hRB x))).trans_le ?_
    have h1 : ∀ᵐ k ∂ν, ∫ keys, (runC g f transition eps draw splitFst (y :: ys) s (Fin.cons k keys : Fin (ys.length + 1) → K) - m) ^ 2
        ∂(Measure.pi fun _ : Fin ys.length => ν)
        ≤ 3 * (G ^ 2 * (C / n) + (3 * B * G / n) ^ 2) + 3 * ((∑ i, h (transition s k i)) / n - m) ^ 2 := by
      filter_upwards [hre] with k hk
      set z := transition s k with hz
      set s' := stepC g transition eps draw splitFst s y k with hs'
      have h2 := ih' s'
      set l := (∑ j, L (s' j)) / n with hl
      simp only [hrun]
      have hlB : |l| ≤ B := abs_mean_le hbL s'
      have hi : Integrable (fun keys : Fin ys.length → K => (runC g f transition eps draw splitFst ys s' keys - l) ^ 2) (Measure.pi fun _ : Fin ys.length => ν) :=
        integrable_of_abs_le _ (((hR's s').sub_const l).pow_const 2) (B := (D' + B) ^ 2) fun keys => by
          rw [abs_pow]
          exact pow_le_pow_left₀ (abs_nonneg _) ((abs_sub _ _).trans (add_le_add (hR'B s' keys) hlB)) 2
      have hpt : ∀ keys : Fin ys.length → K, (Am z * runC g f transition eps draw splitFst ys s' keys - m) ^ 2
          ≤ 3 * G ^ 2 * (runC g f transition eps draw splitFst ys s' keys - l) ^ 2 + (3 * (3 * B * G / n) ^ 2 + 3 * ((∑ i, h (z i)) / n - m) ^ 2) := by
        intro keys
        generalize runC g f transition eps draw splitFst ys s' keys = R
        have e : Am z * R - m = Am z * (R - l) + Am z * (l - ∑ i, normW g y z i * L (z i)) + ((∑ i, h (z i)) / n - m) := by
          rw [← hAw]; ring
        have hA2 : Am z ^ 2 * (R - l) ^ 2 ≤ G ^ 2 * (R - l) ^ 2 :=
          mul_le_mul_of_nonneg_right (pow_le_pow_left₀ (hA0 z).le (hAG z) 2) (sq_nonneg _)
        have hr2 : (Am z * (l - ∑ i, normW g y z i * L (z i))) ^ 2 ≤ (3 * B * G / n) ^ 2 := by
          rw [← sq_abs]; exact pow_le_pow_left₀ (abs_nonneg _) hk 2
        rw [e]
        generalize Am z * (l - ∑ i, normW g y z i * L (z i)) = b at *
        generalize (∑ i, h (z i)) / n - m = c
        nlinarith [sq_nonneg (Am z * (R - l) - b), sq_nonneg (b - c), sq_nonneg (Am z * (R - l) - c)]
      refine (integral_mono_of_nonneg (Filter.Eventually.of_forall fun k => sq_nonneg _) ((hi.const_mul (3 * G ^ 2)).add (integrable_const _))
        (Filter.Eventually.of_forall hpt)).trans ?_
      rw [integral_add' (hi.const_mul _) (integrable_const _), integral_const_mul, integral_const, probReal_univ, one_smul]
      have : 3 * G ^ 2 * ∫ keys, (runC g f transition eps draw splitFst ys s' keys - l) ^ 2 ∂(Measure.pi fun _ : Fin ys.length => ν) ≤ 3 * G ^ 2 * (C / n) := by gcongr
      linarith
    have hi1 : Integrable (fun k => ((∑ i, h (transition s k i)) / n - m) ^ 2) ν :=
      integrable_of_abs_le ν (((hhs.comp hts).sub_const m).pow_const 2) (B := (G * B + B') ^ 2) fun k => by
        rw [abs_pow]
        exact pow_le_pow_left₀ (abs_nonneg _) ((abs_sub _ _).trans (add_le_add (abs_mean_le hhB _) hmB)) 2
    refine (integral_mono_of_nonneg (Filter.Eventually.of_forall fun k => integral_nonneg fun _ => sq_nonneg _)
      ((integrable_const _).add (hi1.const_mul 3)) h1).trans ?_
    rw [integral_add' (integrable_const _) (hi1.const_mul 3), integral_const, probReal_univ, one_smul, integral_const_mul]
    have h3 : (3 * B * G / n) ^ 2 ≤ (3 * B * G) ^ 2 / n := by
      rw [div_pow]
      gcongr
      nlinarith
    calc _ ≤ 3 * (G ^ 2 * (C / n) + (3 * B * G) ^ 2 / n) + 3 * ((G * B) ^ 2 / n) := by gcongr
      _ = _ := by ring

/-- **C183.** `bootstrap_filter` with `conti_resampling=True`, for a transition kernel that maps functions of bounded variation to functions of bounded variation
and likelihoods of bounded variation: for every `f` of bounded variation there is a number `C`, which does not depend on the number `n` of particles nor on the
generator, such that `exp(-nell)` times the average of `f` over the last cloud estimates `E[f(x_T) p(y_{1:T} | x_{0:T})]`, and the average of `f` over the last cloud
the filtering mean `E[f(x_T) | y_{1:T}]`, with mean square errors of at most `C / n`. The draws of the resampling need not be independent of those of the
transition. -/
theorem C183_bootstrap_mse {Y : Type} (P : Kernel ℝ ℝ) [IsMarkovKernel P] (μ0 : Measure ℝ) [IsProbabilityMeasure μ0] (g : Y → ℝ → ℝ) (G : ℝ) (hg0 : ∀ y x, 0 < g y x)
    (hg : ∀ y, Jor (g y) G) (hP : ∀ f A, Jor f A → ∃ B, Jor (fun x => ∫ x', f x' ∂(P x)) B) (f : ℝ → ℝ) (A : ℝ) (hf : Jor f A) (ys : List Y) :
    ∃ C, ∀ (n : ℕ) [NeZero n] (K : Type) [MeasurableSpace K] (ρ ν : Measure K) [IsProbabilityMeasure ν] (transition : (Fin n → ℝ) → K → Fin n → ℝ)
      (init : K → Fin n → ℝ) (eps : ℝ) (draw : K → ℕ → ℝ) (splitFst : K → K) (splitN : K → ℕ → List K) (keysOf : K → Fin ys.length → K),
      0 ≤ eps → Measurable (fun p : (Fin n → ℝ) × K => transition p.1 p.2) → (∀ j, Measurable fun k => draw k j) → Measurable splitFst →
      (∀ key, splitN key ys.length = List.ofFn (keysOf key)) →
      ρ.map (fun key => (init key, keysOf key)) = (Measure.pi fun _ => μ0).prod (Measure.pi fun _ => ν) →
      (∀ s, ν.map (transition s) = Measure.pi fun j => P (s j)) → (∀ᵐ k ∂ν, ∀ j < n, 0 ≤ draw (splitFst k) j ∧ draw (splitFst k) j < 1) →
      let out := fun key => bootstrapFilter transition (fun y s i => g y (s i)) ys init key (resampleConti eps draw) splitFst splitN
      let avg := fun key => (∑ j, f ((out key).1.getLastD (init key) j)) / n
      Integrable (fun key => (Real.exp (-(out key).2) * avg key - ∫ x, markovE P g f ys x ∂μ0) ^ 2) ρ ∧
      ∫ key, (Real.exp (-(out key).2) * avg key - ∫ x, markovE P g f ys x ∂μ0) ^ 2 ∂ρ ≤ C / n ∧
      ∫ key, (avg key - (∫ x, markovE P g f ys x ∂μ0) / ∫ x, markovE P g (fun _ => 1) ys x ∂μ0) ^ 2 ∂ρ ≤ C / n := by
  have hgm : ∀ y, Measurable (g y) := fun y => (hg y).measurable
  have hgG : ∀ y x, g y x ≤ G := fun y x => (le_abs_self _).trans ((hg y).abs_le x)
  -- mean square error of the unnormalised estimate
  have key : ∀ (f : ℝ → ℝ) (A : ℝ), Jor f A → ∃ C, 0 ≤ C ∧ ∀ (n : ℕ) [NeZero n] (K : Type) [MeasurableSpace K] (ρ ν : Measure K) [IsProbabilityMeasure ν]
      (transition : (Fin n → ℝ) → K → Fin n → ℝ) (init : K → Fin n → ℝ) (eps : ℝ) (draw : K → ℕ → ℝ) (splitFst : K → K) (keysOf : K → Fin ys.length → K),
      0 ≤ eps → Measurable (fun p : (Fin n → ℝ) × K => transition p.1 p.2) → (∀ j, Measurable fun k => draw k j) → Measurable splitFst →
      ρ.map (fun key => (init key, keysOf key)) = (Measure.pi fun _ => μ0).prod (Measure.pi fun _ => ν) →
      (∀ s, ν.map (transition s) = Measure.pi fun j => P (s j)) → (∀ᵐ k ∂ν, ∀ j < n, 0 ≤ draw (splitFst k) j ∧ draw (splitFst k) j < 1) →
      Integrable (fun key => (runC g f transition eps draw splitFst ys (init key) (keysOf key) - ∫ x, markovE P g f ys x ∂μ0) ^ 2) ρ ∧
      ∫ key, (runC g f transition eps draw splitFst ys (init key) (keysOf key) - ∫ x, markovE P g f ys x ∂μ0) ^ 2 ∂ρ ≤ C / n := by
    intro f A hf
    obtain ⟨C, hC, hmom⟩ := runC_moments hg0 hg hP hf ys
    obtain ⟨B, hB⟩ := jor_markovE hg hP hf ys
    refine ⟨2 * C + 2 * B ^ 2, by positivity, ?_⟩
    intro n _ K _ ρ ν _ transition init eps draw splitFst keysOf heps htm hd hsm hideal hind hdr
    have hn : 0 < n := Nat.pos_of_ne_zero (NeZero.ne n)
    have hn1 : (0 : ℝ) < n := Nat.cast_pos.2 hn
    have hne : ρ.map (fun key => (init key, keysOf key)) ≠ 0 := by
      rw [hideal]; exact IsProbabilityMeasure.ne_zero _
    have hae : AEMeasurable (fun key => (init key, keysOf key)) ρ := by
      by_contra hc
      exact hne (Measure.map_of_not_aemeasurable hc)
    have hρ : IsFiniteMeasure ρ := by
      refine ⟨?_⟩
      have := Measure.map_apply_of_aemeasurable hae (MeasurableSet.univ (α := (Fin n → ℝ) × (Fin ys.length → K)))
      rw [hideal, measure_univ, Set.preimage_univ] at this
      rw [← this]; exact ENNReal.one_lt_top
    have hmW := measurable_runC (n := n) (eps := eps) hgm hf.measurable htm hd hsm ys
    have hbW := abs_runC_le (transition := transition) (eps := eps) (draw := draw) (splitFst := splitFst) hg0 hgG hf.abs_le ys
    have hmL := hB.measurable
    have hbL := hB.abs_le
    set D := G ^ ys.length * A with hD
    set c := ∫ x, markovE P g f ys x ∂μ0 with hc
    have hcB : |c| ≤ B := by
      rw [hc, ← Real.norm_eq_abs]
      refine (norm_integral_le_of_norm_le_const (C := B) (Filter.Eventually.of_forall fun x => hbL x)).trans (by simp)
    have hb2 : ∀ (E x c : ℝ), |x| ≤ E → |c| ≤ B → |(x - c) ^ 2| ≤ (E + B) ^ 2 := by
      intro E x c hx hcB
      rw [abs_pow]
      exact pow_le_pow_left₀ (abs_nonneg _) ((abs_sub _ _).trans (add_le_add hx hcB)) 2
    have hm2 : Measurable fun p : (Fin n → ℝ) × (Fin ys.length → K) => (runC g f transition eps draw splitFst ys p.1 p.2 - c) ^ 2 :=
      (hmW.sub_const c).pow_const 2
    refine ⟨?_, ?_⟩
    · refine Integrable.of_bound (hm2.comp_aemeasurable hae).aestronglyMeasurable ((D + B) ^ 2) (Filter.Eventually.of_forall fun key => ?_)
      rw [Real.norm_eq_abs]
      exact hb2 _ _ _ (hbW _ _) hcB
    rw [← integral_map (f := fun p : (Fin n → ℝ) × (Fin ys.length → K) => (runC g f transition eps draw splitFst ys p.1 p.2 - c) ^ 2)
      hae hm2.aestronglyMeasurable, hideal, integral_prod _ (integrable_of_abs_le _ hm2 fun p => hb2 _ _ _ (hbW _ _) hcB)]
    have h2 : ∀ s : Fin n → ℝ, ∫ keys, (runC g f transition eps draw splitFst ys s keys - c) ^ 2 ∂(Measure.pi fun _ : Fin ys.length => ν)
        ≤ 2 * (C / n) + 2 * ((∑ j, markovE P g f ys (s j)) / n - c) ^ 2 := by
      intro s
      have hs' : Measurable fun keys : Fin ys.length → K => runC g f transition eps draw splitFst ys s keys :=
        hmW.comp (measurable_const.prodMk measurable_id)
      set l := (∑ j, markovE P g f ys (s j)) / n with hl
      have hi : Integrable (fun keys : Fin ys.length → K => (runC g f transition eps draw splitFst ys s keys - l) ^ 2) (Measure.pi fun _ : Fin ys.length => ν) :=
        integrable_of_abs_le _ ((hs'.sub_const l).pow_const 2) fun keys => hb2 _ _ _ (hbW s keys) (abs_mean_le hbL s)
      have hpt : ∀ keys : Fin ys.length → K, (runC g f transition eps draw splitFst ys s keys - c) ^ 2
          ≤ 2 * (runC g f transition eps draw splitFst ys s keys - l) ^ 2 + 2 * (l - c) ^ 2 := fun keys => by
        nlinarith [sq_nonneg ((runC g f transition eps draw splitFst ys s keys - l) - (l - c))]
      refine (integral_mono_of_nonneg (Filter.Eventually.of_forall fun k => sq_nonneg _) ((hi.const_mul 2).add (integrable_const _))
        (Filter.Eventually.of_forall hpt)).trans ?_
      rw [integral_add' (hi.const_mul _) (integrable_const _), integral_const_mul, integral_const, probReal_univ, one_smul]
      have := hmom n K ν transition eps draw splitFst heps htm hd hsm hind hdr s
      linarith
    have hms : Measurable fun s : Fin n → ℝ => (∑ j, markovE P g f ys (s j)) / n :=
      (Finset.measurable_sum _ fun j _ => hmL.comp (measurable_pi_apply j)).div_const _
    have hi : Integrable (fun s : Fin n → ℝ => ((∑ j, markovE P g f ys (s j)) / n - c) ^ 2) (Measure.pi fun _ => μ0) :=
      integrable_of_abs_le _ ((hms.sub_const c).pow_const 2) fun s => hb2 _ _ _ (abs_mean_le hbL s) hcB
    refine (integral_mono_of_nonneg (Filter.Eventually.of_forall fun k => integral_nonneg fun _ => sq_nonneg _)
      ((integrable_const _).add (hi.const_mul 2)) (Filter.Eventually.of_forall h2)).trans ?_
    rw [integral_add' (integrable_const _) (hi.const_mul 2), integral_const, probReal_univ, one_smul, integral_const_mul]
    have h4 := mean_var_le hn (Q := fun _ : Fin n => μ0) hmL hbL c (by simp [hc])
    calc _ ≤ 2 * (C / n) + 2 * (B ^ 2 / n) := by gcongr
      _ = _ := by ring
  obtain ⟨CF, hCF0, hF⟩ := key f A hf
  obtain ⟨C1, hC10, h1⟩ := key (fun _ => 1) 1 Jor.const_one
  obtain ⟨B1, hB1⟩ := jor_markovE hg hP Jor.const_one ys
  set a := ∫ x, markovE P g f ys x ∂μ0 with ha
  set z := ∫ x, markovE P g (fun _ => 1) ys x ∂μ0 with hz
  have hz0 : 0 < z := by
    have hpos := markovEY_one_pos (fun _ => P) hgm hg0 hgG ys
    simp only [markovEY_const] at hpos
    rw [hz, integral_pos_iff_support_of_nonneg (fun x => (hpos x).le) (integrable_of_abs_le _ hB1.measurable hB1.abs_le),
      show Function.support (markovE P g (fun _ => 1) ys) = Set.univ from Set.eq_univ_of_forall fun x => (hpos x).ne']
    simp
  have hA0 := hf.nonneg
  refine ⟨CF + 2 / z ^ 2 * (A ^ 2 * C1 + CF), ?_⟩
  intro n _ K _ ρ ν _ transition init eps draw splitFst splitN keysOf heps htm hd hsm hsplit hideal hind hdr out avg
  have hn1 : (0 : ℝ) < n := Nat.cast_pos.2 (Nat.pos_of_ne_zero (NeZero.ne n))
  obtain ⟨hiF, hF⟩ := hF n K ρ ν transition init eps draw splitFst keysOf heps htm hd hsm hideal hind hdr
  obtain ⟨hi1, h1⟩ := h1 n K ρ ν transition init eps draw splitFst keysOf heps htm hd hsm hideal hind hdr
  have hout : ∀ key, Real.exp (-(out key).2) * avg key = runC g f transition eps draw splitFst ys (init key) (keysOf key) ∧
      (out key).1.getLastD (init key) = lastC g transition eps draw splitFst ys (init key) (keysOf key) := by
    intro key
    have h := runC_eq (f := f) (transition := transition) (eps := eps) (draw := draw) (splitFst := splitFst) hg0 ys (keysOf key) (init key) 0
    dsimp only at h
    rw [neg_zero, Real.exp_zero, one_mul, ← hsplit] at h
    exact h
  set Zf := fun key => runC g (fun _ => 1) transition eps draw splitFst ys (init key) (keysOf key) with hZf
  have hRZ : ∀ key, runC g f transition eps draw splitFst ys (init key) (keysOf key) = Zf key * avg key := fun key => by
    rw [runC_lastC]
    simp only [avg, (hout key).2]
    rfl
  have hC2 : CF / n ≤ (CF + 2 / z ^ 2 * (A ^ 2 * C1 + CF)) / n := by
    gcongr
    have : 0 ≤ 2 / z ^ 2 * (A ^ 2 * C1 + CF) := by positivity
    linarith
  simp only [(hout _).1]
  refine ⟨hiF, hF.trans hC2, ?_⟩
  simp only [hRZ] at hiF hF
  have hpt : ∀ key, (avg key - a / z) ^ 2 ≤ 2 / z ^ 2 * (A ^ 2 * (Zf key - z) ^ 2 + (Zf key * avg key - a) ^ 2) := by
    intro key
    have hav : avg key ^ 2 ≤ A ^ 2 := by
      rw [← sq_abs]
      exact pow_le_pow_left₀ (abs_nonneg _) (abs_mean_le hf.abs_le _) 2
    generalize avg key = v at hav ⊢
    generalize Zf key = Z
    have e : v - a / z = ((Z * v - a) - v * (Z - z)) / z := by field_simp; ring
    rw [e, div_pow, div_mul_eq_mul_div]
    refine div_le_div_of_nonneg_right ?_ (sq_nonneg z)
    have h5 : v ^ 2 * (Z - z) ^ 2 ≤ A ^ 2 * (Z - z) ^ 2 := mul_le_mul_of_nonneg_right hav (sq_nonneg _)
    nlinarith [sq_nonneg ((Z * v - a) + v * (Z - z))]
  refine (integral_mono_of_nonneg (Filter.Eventually.of_forall fun k => sq_nonneg _) (((hi1.const_mul (A ^ 2)).add hiF).const_mul (2 / z ^ 2))
    (Filter.Eventually.of_forall hpt)).trans ?_
  rw [integral_const_mul, integral_add' (hi1.const_mul (A ^ 2)) hiF, integral_const_mul]
  calc 2 / z ^ 2 * (A ^ 2 * _ + _)
      ≤ 2 / z ^ 2 * (A ^ 2 * (C1 / n) + CF / n) := by gcongr
    _ = (2 / z ^ 2 * (A ^ 2 * C1 + CF)) / n := by ring
    _ ≤ _ := by gcongr; linarith

end Mfs.Props

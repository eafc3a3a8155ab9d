import Verif.Props.ResamplingVar
import Mathlib.Probability.Kernel.MeasurableIntegral
import Mathlib.MeasureTheory.Integral.Prod

/-!
# C148: the bootstrap filter converges in mean square

The keys are idealised as in C107; in addition the particles are moved independently of each other.
-/

namespace Mfs.Props

open Mfs.Smc Mfs.Spec Mfs.OrderStat MeasureTheory ProbabilityTheory

variable {X Y K : Type} {n : ℕ} [NeZero n] [MeasurableSpace X] [MeasurableSpace K]

theorem integrable_of_abs_le {Ω : Type} [MeasurableSpace Ω] (μ : Measure Ω) [IsFiniteMeasure μ] {φ : Ω → ℝ} (hm : Measurable φ) {B : ℝ}
    (hb : ∀ x, |φ x| ≤ B) : Integrable φ μ :=
  Integrable.of_bound hm.aestronglyMeasurable B (Filter.Eventually.of_forall fun x => by rw [Real.norm_eq_abs]; exact hb x)

/-- bias and variance. -/
theorem bias_variance {Ω : Type} [MeasurableSpace Ω] (μ : Measure Ω) [IsProbabilityMeasure μ] {W : Ω → ℝ} (hm : Measurable W) {B : ℝ}
    (hb : ∀ x, |W x| ≤ B) {M : ℝ} (hM : ∫ x, W x ∂μ = M) (a m : ℝ) :
    ∫ x, (a * W x - m) ^ 2 ∂μ = a ^ 2 * ∫ x, (W x - M) ^ 2 ∂μ + (a * M - m) ^ 2 := by
  have hW := integrable_of_abs_le μ hm hb
  have hB : ∀ x, |(W x - M) ^ 2| ≤ (B + |M|) ^ 2 := by
    intro x
    rw [abs_pow]
    gcongr
    exact (abs_sub _ _).trans (by gcongr; exact hb x)
  have h2 : Integrable (fun x => (W x - M) ^ 2) μ := integrable_of_abs_le μ ((hm.sub_const _).pow_const _) hB
  have h1 : Integrable (fun x => W x - M) μ := hW.sub (integrable_const _)
  have h0 : ∫ x, (W x - M) ∂μ = 0 := by
    rw [integral_sub hW (integrable_const _), hM]; simp
  have e : ∀ x, (a * W x - m) ^ 2 = a ^ 2 * (W x - M) ^ 2 + 2 * a * (a * M - m) * (W x - M) + (a * M - m) ^ 2 := fun x => by ring
  simp only [e]
  have h3 : Integrable (fun x => a ^ 2 * (W x - M) ^ 2 + 2 * a * (a * M - m) * (W x - M)) μ := (h2.const_mul _).add (h1.const_mul _)
  rw [integral_add h3 (integrable_const _), integral_add (h2.const_mul _) (h1.const_mul _), integral_const_mul, integral_const_mul, h0]
  simp

theorem integral_keys_succ (ν : Measure K) [IsProbabilityMeasure ν] (T : ℕ) {φ : (Fin (T + 1) → K) → ℝ} (hφ : Measurable φ) {B : ℝ}
    (hb : ∀ x, |φ x| ≤ B) :
    ∫ keys, φ keys ∂(Measure.pi fun _ : Fin (T + 1) => ν) = ∫ k, ∫ keys, φ (Fin.cons k keys) ∂(Measure.pi fun _ : Fin T => ν) ∂ν := by
  have hmp := (measurePreserving_piFinSuccAbove (fun _ : Fin (T + 1) => ν) 0).symm
  rw [← hmp.integral_comp']
  refine (integral_prod (μ := ν) (ν := Measure.pi fun _ : Fin T => ν) _
    (integrable_of_abs_le _ (hφ.comp hmp.measurable) fun x => hb _)).trans ?_
  refine integral_congr_ae (Filter.Eventually.of_forall fun x => integral_congr_ae (Filter.Eventually.of_forall fun xs => congrArg φ ?_))
  exact Fin.insertNth_zero' x xs

/-- `markovE` for a kernel that may depend on the measurement. -/
noncomputable def markovEY (P : Y → Kernel X X) (g : Y → X → ℝ) (f : X → ℝ) : List Y → X → ℝ
  | [], x => f x
  | y :: ys, x => ∫ x', g y x' * markovEY P g f ys x' ∂(P y x)

theorem markovEY_const (P : Kernel X X) (g : Y → X → ℝ) (f : X → ℝ) (ys : List Y) : markovEY (fun _ => P) g f ys = markovE P g f ys := by
  induction ys with
  | nil => rfl
  | cons y ys ih => funext x; simp only [markovEY, markovE, ih]

section
variable (g : Y → X → ℝ) (f : X → ℝ) (transition : Y → (Fin n → X) → K → Fin n → X) (resampling : (Fin n → ℝ) → K → Fin n → ℕ)
  (splitFst : K → K)

/-- likelihood estimate times the mean of `f` over the last cloud. -/
noncomputable def runR : (ys : List Y) → (Fin n → X) → (Fin ys.length → K) → ℝ
  | [], s, _ => (∑ j, f (s j)) / n
  | y :: ys, s, keys => (∑ i, g y (transition y s (keys 0) i)) / n
      * runR ys (cloudStep g (transition y) resampling splitFst s y (keys 0)) (Fin.tail keys)

variable {g f transition resampling splitFst}

theorem measurable_runR (hgm : ∀ y, Measurable (g y)) (hf : Measurable f)
    (htm : ∀ y, Measurable fun p : (Fin n → X) × K => transition y p.1 p.2) (hrm : Measurable fun p : (Fin n → ℝ) × K => resampling p.1 p.2)
    (hsm : Measurable splitFst) (ys : List Y) :
    Measurable fun p : (Fin n → X) × (Fin ys.length → K) => runR g f transition resampling splitFst ys p.1 p.2 := by
  induction ys with
  | nil =>
    simp only [runR]
    exact (Finset.measurable_sum _ fun j _ => hf.comp ((measurable_pi_apply j).comp measurable_fst)).div_const _
  | cons y ys ih =>
    simp only [runR]
    have ht : Measurable fun p : (Fin n → X) × (Fin (ys.length + 1) → K) => transition y p.1 (p.2 0) :=
      (htm y).comp (measurable_fst.prodMk ((measurable_pi_apply 0).comp measurable_snd))
    have hk : Measurable fun p : (Fin n → X) × (Fin (ys.length + 1) → K) => splitFst (p.2 0) :=
      hsm.comp ((measurable_pi_apply 0).comp measurable_snd)
    refine Measurable.mul ?_ ?_
    · refine Measurable.div_const (Finset.measurable_sum _ fun i _ => ?_) _
      exact (hgm y).comp ((measurable_pi_apply i).comp ht)
    · refine ih.comp (Measurable.prodMk ?_ ?_)
      · exact measurable_gather.comp (ht.prodMk (hrm.comp (((measurable_normW hgm y).comp ht).prodMk hk)))
      · exact measurable_pi_lambda _ fun i => (measurable_pi_apply _).comp measurable_snd

theorem measurable_markovEY (P : Y → Kernel X X) [∀ y, IsMarkovKernel (P y)] (hgm : ∀ y, Measurable (g y)) (hf : Measurable f) (ys : List Y) :
    Measurable (markovEY P g f ys) := by
  induction ys with
  | nil => exact hf
  | cons y ys ih =>
    exact (StronglyMeasurable.integral_kernel (κ := P y) ((hgm y).mul ih).stronglyMeasurable).measurable

omit [MeasurableSpace X] in
theorem abs_mean_le {φ : X → ℝ} {B : ℝ} (hφ : ∀ x, |φ x| ≤ B) (s : Fin n → X) : |(∑ j, φ (s j)) / n| ≤ B := by
  have hn1 : (0 : ℝ) < n := Nat.cast_pos.2 (Nat.pos_of_ne_zero (NeZero.ne n))
  rw [abs_div, Nat.abs_cast, div_le_iff₀ hn1]
  refine (Finset.abs_sum_le_sum_abs _ _).trans ?_
  refine (Finset.sum_le_sum fun j _ => hφ (s j)).trans ?_
  simp [mul_comm]

theorem abs_markovEY_le (P : Y → Kernel X X) [∀ y, IsMarkovKernel (P y)] {G F : ℝ} (hg0 : ∀ y x, 0 < g y x) (hgG : ∀ y x, g y x ≤ G)
    (hfF : ∀ x, |f x| ≤ F) (ys : List Y) (x : X) : |markovEY P g f ys x| ≤ G ^ ys.length * F := by
  induction ys generalizing x with
  | nil => simpa [markovEY] using hfF x
  | cons y ys ih =>
    rw [markovEY, ← Real.norm_eq_abs]
    refine (norm_integral_le_of_norm_le_const (C := G ^ (y :: ys).length * F) (Filter.Eventually.of_forall fun x' => ?_)).trans ?_
    · rw [Real.norm_eq_abs, abs_mul, abs_of_pos (hg0 y x'), List.length_cons, pow_succ']
      have := ih x'
      calc g y x' * |markovEY P g f ys x'| ≤ G * (G ^ ys.length * F) :=
            mul_le_mul (hgG y x') this (abs_nonneg _) ((hg0 y x').le.trans (hgG y x'))
        _ = _ := by ring
    · simp

omit [MeasurableSpace X] [MeasurableSpace K] in
theorem abs_runR_le {G F : ℝ} (hg0 : ∀ y x, 0 < g y x) (hgG : ∀ y x, g y x ≤ G)
    (hfF : ∀ x, |f x| ≤ F) (ys : List Y) (s : Fin n → X) (keys : Fin ys.length → K) :
    |runR g f transition resampling splitFst ys s keys| ≤ G ^ ys.length * F := by
  induction ys generalizing s with
  | nil => simpa [runR] using abs_mean_le hfF s
  | cons y ys ih =>
    have e : G ^ (y :: ys).length * F = G * (G ^ ys.length * F) := by rw [List.length_cons, pow_succ', mul_assoc]
    rw [runR, abs_mul, e]
    have hG : 0 ≤ G := (hg0 y (s 0)).le.trans (hgG y (s 0))
    exact mul_le_mul (abs_mean_le (φ := g y) (fun x => by rw [abs_of_pos (hg0 y x)]; exact hgG y x) _) (ih _ _) (abs_nonneg _) hG

omit [MeasurableSpace X] in
theorem gather_comp {Z : Type} (φ : X → Z) (z : Fin n → X) (idx : Fin n → ℕ) (j : Fin n) : φ (gather z idx j) = gather (fun i => φ (z i)) idx j := rfl

/-- mean and mean square error over the keys, for a given cloud. -/
theorem runR_moments {ν ν' : Measure K} [IsProbabilityMeasure ν] [IsProbabilityMeasure ν'] (P : Y → Kernel X X) [∀ y, IsMarkovKernel (P y)] {G F : ℝ}
    (hgm : ∀ y, Measurable (g y)) (hg0 : ∀ y x, 0 < g y x) (hgG : ∀ y x, g y x ≤ G) (hf : Measurable f) (hfF : ∀ x, |f x| ≤ F)
    (htm : ∀ y, Measurable fun p : (Fin n → X) × K => transition y p.1 p.2) (hrm : Measurable fun p : (Fin n → ℝ) × K => resampling p.1 p.2)
    (hsm : Measurable splitFst)
    (hind : ∀ y s, ν.map (fun k => (transition y s k, splitFst k)) = (Measure.pi fun j => P y (s j)).prod ν')
    (hmean : ∀ w : Fin n → ℝ, (∀ i, 0 ≤ w i) → ∑ i, w i = 1 → ∀ φ : Fin n → ℝ,
      ∫ k, (∑ j, gather φ (resampling w k) j) / n ∂ν' = ∑ i, w i * φ i)
    (hvar : ∀ w : Fin n → ℝ, (∀ i, 0 ≤ w i) → ∑ i, w i = 1 → ∀ φ : Fin n → ℝ,
      ∫ k, ((∑ j, gather φ (resampling w k) j) / n - ∑ i, w i * φ i) ^ 2 ∂ν' ≤ (∑ i, w i * (φ i - ∑ i, w i * φ i) ^ 2) / n)
    (ys : List Y) (s : Fin n → X) :
    ∫ keys, runR g f transition resampling splitFst ys s keys ∂(Measure.pi fun _ : Fin ys.length => ν) = (∑ j, markovEY P g f ys (s j)) / n ∧
    ∫ keys, (runR g f transition resampling splitFst ys s keys - (∑ j, markovEY P g f ys (s j)) / n) ^ 2 ∂(Measure.pi fun _ : Fin ys.length => ν)
      ≤ 2 * ys.length * (G ^ ys.length * F) ^ 2 / n := by
  have hn : 0 < n := Nat.pos_of_ne_zero (NeZero.ne n)
  have hn1 : (0 : ℝ) < n := Nat.cast_pos.2 hn
  have hF : 0 ≤ F := (abs_nonneg _).trans (hfF (s 0))
  induction ys generalizing s with
  | nil =>
    simp [runR, markovEY]
  | cons y ys ih =>
    have hG : 0 ≤ G := (hg0 y (s 0)).le.trans (hgG y (s 0))
    have hmL := measurable_markovEY P hgm hf ys
    have hbL := abs_markovEY_le P hg0 hgG hfF ys
    set L := markovEY P g f ys with hL
    set B := G ^ ys.length * F with hB
    have hB0 : 0 ≤ B := by positivity
    set m := (∑ j, markovEY P g f (y :: ys) (s j)) / n with hm
    -- the next cloud and its mean
    set A : (Fin n → X) → ℝ := fun z => (∑ i, g y (z i)) / n with hA
    have hAm : Measurable A := (Finset.measurable_sum _ fun i _ => (hgm y).comp (measurable_pi_apply i)).div_const _
    have hA0 : ∀ z, 0 < A z := fun z => div_pos (Finset.sum_pos (fun i _ => hg0 y _) ⟨0, Finset.mem_univ _⟩) hn1
    have hAG : ∀ z, |A z| ≤ G := fun z => abs_mean_le (φ := g y) (fun x => by rw [abs_of_pos (hg0 y x)]; exact hgG y x) z
    set Q : (Fin n → X) × K → ℝ := fun p => (∑ j, gather (fun i => L (p.1 i)) (resampling (normW g y p.1) p.2) j) / n with hQ
    have hQm : Measurable Q := by
      have hga : Measurable fun p : (Fin n → X) × K => gather p.1 (resampling (normW g y p.1) p.2) :=
        measurable_gather.comp (measurable_fst.prodMk (hrm.comp (((measurable_normW hgm y).comp measurable_fst).prodMk measurable_snd)))
      exact (Finset.measurable_sum _ fun j _ => hmL.comp (measurable_pi_iff.1 hga j)).div_const _
    have hQB : ∀ p, |Q p| ≤ B := fun p => abs_mean_le (φ := L) hbL (gather p.1 (resampling (normW g y p.1) p.2))
    have hts : Measurable (transition y s) := (htm y).comp (measurable_const.prodMk measurable_id)
    -- expectations over one key
    have hkey : ∀ φ : (Fin n → X) × K → ℝ, Measurable φ → ∀ C, (∀ p, |φ p| ≤ C) →
        ∫ k, φ (transition y s k, splitFst k) ∂ν = ∫ z, ∫ k, φ (z, k) ∂ν' ∂(Measure.pi fun j => P y (s j)) := by
      intro φ hφ C hC
      rw [← integral_prod _ (integrable_of_abs_le _ hφ hC), ← hind y s, integral_map (hts.prodMk hsm).aemeasurable hφ.aestronglyMeasurable]
    -- the mean after resampling
    set h : X → ℝ := fun x => g y x * L x with hh
    have hhm : Measurable h := (hgm y).mul hmL
    have hhB : ∀ x, |h x| ≤ G * B := fun x => by
      rw [hh, abs_mul, abs_of_pos (hg0 y x)]
      exact mul_le_mul (hgG y x) (hbL x) (abs_nonneg _) hG
    have hw0 : ∀ z : Fin n → X, ∀ i, 0 ≤ normW g y z i := fun z i =>
      div_nonneg (hg0 y _).le (Finset.sum_nonneg fun i _ => (hg0 y _).le)
    have hpos : ∀ z : Fin n → X, 0 < ∑ i, g y (z i) := fun z => Finset.sum_pos (fun i _ => hg0 y _) ⟨0, Finset.mem_univ _⟩
    have hw1 : ∀ z : Fin n → X, ∑ i, normW g y z i = 1 := fun z => by
      simp only [normW]
      rw [← Finset.sum_div, div_self (hpos z).ne']
    have hAw : ∀ z : Fin n → X, A z * ∑ i, normW g y z i * L (z i) = (∑ i, h (z i)) / n := by
      intro z
      have := (hpos z).ne'
      simp only [hA, hh, normW, div_mul_eq_mul_div]
      rw [← Finset.sum_div]
      field_simp
    have hmean' : ∀ z, ∫ k, Q (z, k) ∂ν' = ∑ i, normW g y z i * L (z i) := fun z => hmean _ (hw0 z) (hw1 z) fun i => L (z i)
    have hQz : ∀ z, Measurable fun k => Q (z, k) := fun z => hQm.comp (measurable_const.prodMk measurable_id)
    -- the mean after the transition
    have hPm : ∑ j, ∫ x, h x ∂(P y (s j)) = n * m := by
      rw [hm, mul_div_cancel₀ _ hn1.ne']
      rfl
    have hhL : ∀ j, MemLp h 2 (P y (s j)) := fun j =>
      MemLp.of_bound hhm.aestronglyMeasurable (G * B) (Filter.Eventually.of_forall fun x => by rw [Real.norm_eq_abs]; exact hhB x)
    have hzvar : ∫ z, ((∑ i, h (z i)) / n - m) ^ 2 ∂(Measure.pi fun j => P y (s j)) ≤ (G * B) ^ 2 / n := by
      rw [integral_sq_mean_pi hn (fun j => P y (s j)) (fun _ => h) hhL m hPm]
      have : ∑ j, variance h (P y (s j)) ≤ n * (G * B) ^ 2 := by
        have hj : ∀ j ∈ (Finset.univ : Finset (Fin n)), variance h (P y (s j)) ≤ (G * B) ^ 2 := by
          intro j _
          refine (variance_le_expectation_sq hhm.aestronglyMeasurable).trans ?_
          have hi : Integrable (fun x => (h ^ 2) x) (P y (s j)) := integrable_of_abs_le _ (hhm.pow_const 2) (B := (G * B) ^ 2) fun x => by
            rw [Pi.pow_apply, abs_pow]; exact pow_le_pow_left₀ (abs_nonneg _) (hhB x) 2
          refine (integral_mono hi (integrable_const ((G * B) ^ 2)) fun x => ?_).trans (by simp)
          exact (sq_abs (h x)).symm.le.trans (pow_le_pow_left₀ (abs_nonneg _) (hhB x) 2)
        refine (Finset.sum_le_sum hj).trans ?_
        simp
      calc _ ≤ (n * (G * B) ^ 2) / (n : ℝ) ^ 2 := by gcongr
        _ = _ := by field_simp
    have hmB : |m| ≤ G * B := by
      have := abs_mean_le (abs_markovEY_le P hg0 hgG hfF (y :: ys)) s
      rw [List.length_cons, pow_succ', mul_assoc] at this
      exact this
    have hzmean : ∫ z, (∑ i, h (z i)) / n ∂(Measure.pi fun j => P y (s j)) = m := by
      rw [integral_div, integral_finsetSum]
      · rw [hm]
        congr 1
        refine Finset.sum_congr rfl fun j _ => ?_
        exact integral_comp_eval (μ := fun j => P y (s j)) (i := j) hhm.aestronglyMeasurable
      · exact fun j _ => integrable_comp_eval (μ := fun j => P y (s j)) (i := j) ((hhL j).integrable one_le_two)
    -- the key step
    have hrun : ∀ k (keys : Fin ys.length → K), runR g f transition resampling splitFst (y :: ys) s (Fin.cons k keys : Fin (ys.length + 1) → K)
        = A (transition y s k) * runR g f transition resampling splitFst ys (cloudStep g (transition y) resampling splitFst s y k) keys := by
      intro k keys
      simp only [runR, Fin.cons_zero, Fin.tail_cons]
      rfl
    have hQc : ∀ k, (∑ j, L (cloudStep g (transition y) resampling splitFst s y k j)) / n = Q (transition y s k, splitFst k) := fun k => rfl
    have hRm := measurable_runR (n := n) hgm hf htm hrm hsm (y :: ys)
    have hRs : Measurable fun keys : Fin (ys.length + 1) → K => runR g f transition resampling splitFst (y :: ys) s keys :=
      hRm.comp (measurable_const.prodMk measurable_id)
    have hRB := abs_runR_le (transition := transition) (resampling := resampling) (splitFst := splitFst) hg0 hgG hfF (y :: ys) s
    have hR's : ∀ s', Measurable fun keys : Fin ys.length → K => runR g f transition resampling splitFst ys s' keys := fun s' =>
      (measurable_runR (n := n) hgm hf htm hrm hsm ys).comp (measurable_const.prodMk measurable_id)
    have hR'B := abs_runR_le (transition := transition) (resampling := resampling) (splitFst := splitFst) hg0 hgG hfF ys
    refine ⟨?_, ?_⟩
    · refine (integral_keys_succ ν ys.length hRs hRB).trans ?_
      have h1 : ∀ k, ∫ keys, runR g f transition resampling splitFst (y :: ys) s (Fin.cons k keys : Fin (ys.length + 1) → K)
          ∂(Measure.pi fun _ : Fin ys.length => ν) = A (transition y s k) * Q (transition y s k, splitFst k) := by
        intro k
        simp only [hrun]
        rw [integral_const_mul, (ih _).1, hQc]
      simp only [h1]
      rw [hkey (fun p => A p.1 * Q p) ((hAm.comp measurable_fst).mul hQm) (G * B) fun p => by
        rw [abs_mul]; exact mul_le_mul (hAG _) (hQB _) (abs_nonneg _) hG]
      simp only [integral_const_mul, hmean', hAw]
      exact hzmean
    · have hb2 : ∀ x : ℝ, |x| ≤ G * B → |(x - m) ^ 2| ≤ (G * B + G * B) ^ 2 := by
        intro x hx
        rw [abs_pow]
        exact pow_le_pow_left₀ (abs_nonneg _) ((abs_sub _ _).trans (add_le_add hx hmB)) 2
      have hGB : G ^ (y :: ys).length * F = G * B := by rw [List.length_cons, pow_succ', mul_assoc]
      rw [hGB] at hRB
      refine (integral_keys_succ ν ys.length ((hRs.sub_const m).pow_const 2) (fun x => hb2 _ (hRB x))).trans_le ?_
      have h1 : ∀ k, ∫ keys, (runR g f transition resampling splitFst (y :: ys) s (Fin.cons k keys : Fin (ys.length + 1) → K) - m) ^ 2
          ∂(Measure.pi fun _ : Fin ys.length => ν)
          ≤ G ^ 2 * (2 * ys.length * B ^ 2 / n) + (A (transition y s k) * Q (transition y s k, splitFst k) - m) ^ 2 := by
        intro k
        simp only [hrun]
        rw [bias_variance _ (hR's _) (hR'B _) (ih _).1, hQc]
        have h2 := (ih (cloudStep g (transition y) resampling splitFst s y k)).2
        rw [hQc] at h2
        have h3 : A (transition y s k) ^ 2 ≤ G ^ 2 := by
          rw [← sq_abs]; exact pow_le_pow_left₀ (abs_nonneg _) (hAG _) 2
        gcongr
      have hAQ : Measurable fun p : (Fin n → X) × K => A p.1 * Q p := (hAm.comp measurable_fst).mul hQm
      have hAQB : ∀ p : (Fin n → X) × K, |A p.1 * Q p| ≤ G * B := fun p => by
        rw [abs_mul]; exact mul_le_mul (hAG _) (hQB _) (abs_nonneg _) hG
      have hi1 : Integrable (fun k => (A (transition y s k) * Q (transition y s k, splitFst k) - m) ^ 2) ν :=
        integrable_of_abs_le ν (((hAQ.comp (hts.prodMk hsm)).sub_const m).pow_const 2) fun k => hb2 _ (hAQB (transition y s k, splitFst k))
      refine (integral_mono_of_nonneg (Filter.Eventually.of_forall fun k => integral_nonneg fun _ => sq_nonneg _)
        ((integrable_const _).add hi1) (Filter.Eventually.of_forall h1)).trans ?_
      rw [integral_add' (integrable_const _) hi1, integral_const, probReal_univ, one_smul,
        hkey (fun p => (A p.1 * Q p - m) ^ 2) ((hAQ.sub_const m).pow_const 2) _ fun p => hb2 _ (hAQB p)]
      have h4 : ∀ z, ∫ k, (A z * Q (z, k) - m) ^ 2 ∂ν' ≤ G ^ 2 * (B ^ 2 / n) + ((∑ i, h (z i)) / n - m) ^ 2 := by
        intro z
        rw [bias_variance ν' (hQz z) (fun k => hQB _) (hmean' z), hAw]
        have h2 := hvar _ (hw0 z) (hw1 z) fun i => L (z i)
        have h5 : ∑ i, normW g y z i * (L (z i) - ∑ i, normW g y z i * L (z i)) ^ 2 ≤ B ^ 2 := by
          set c := ∑ i, normW g y z i * L (z i) with hc
          have e : ∑ i, normW g y z i * (L (z i) - c) ^ 2 = ∑ i, normW g y z i * L (z i) ^ 2 - c ^ 2 := by
            have : ∀ i, normW g y z i * (L (z i) - c) ^ 2
                = normW g y z i * L (z i) ^ 2 - 2 * c * (normW g y z i * L (z i)) + c ^ 2 * normW g y z i := fun i => by ring
            simp only [this, Finset.sum_add_distrib, Finset.sum_sub_distrib, ← Finset.mul_sum, hw1, ← hc]
            ring
          have h6 : ∑ i, normW g y z i * L (z i) ^ 2 ≤ ∑ i, normW g y z i * B ^ 2 := by
            refine Finset.sum_le_sum fun i _ => mul_le_mul_of_nonneg_left ?_ (hw0 z i)
            rw [← sq_abs]; exact pow_le_pow_left₀ (abs_nonneg _) (hbL _) 2
          rw [← Finset.sum_mul, hw1, one_mul] at h6
          rw [e]
          linarith [sq_nonneg c]
        have h3 : A z ^ 2 ≤ G ^ 2 := by
          rw [← sq_abs]; exact pow_le_pow_left₀ (abs_nonneg _) (hAG _) 2
        have h7 : ∫ k, (Q (z, k) - ∑ i, normW g y z i * L (z i)) ^ 2 ∂ν' ≤ B ^ 2 / n :=
          h2.trans (by gcongr)
        gcongr
      have hhs : Measurable fun z : Fin n → X => (∑ i, h (z i)) / n :=
        (Finset.measurable_sum _ fun i _ => hhm.comp (measurable_pi_apply i)).div_const _
      have hi2 : Integrable (fun z => ((∑ i, h (z i)) / n - m) ^ 2) (Measure.pi fun j => P y (s j)) :=
        integrable_of_abs_le _ ((hhs.sub_const m).pow_const 2) fun z => hb2 _ (abs_mean_le hhB z)
      have h8 : ∫ z, ∫ k, (A z * Q (z, k) - m) ^ 2 ∂ν' ∂(Measure.pi fun j => P y (s j)) ≤ G ^ 2 * (B ^ 2 / n) + (G * B) ^ 2 / n := by
        refine (integral_mono_of_nonneg (Filter.Eventually.of_forall fun k => integral_nonneg fun _ => sq_nonneg _)
          ((integrable_const _).add hi2) (Filter.Eventually.of_forall h4)).trans ?_
        rw [integral_add' (integrable_const _) hi2, integral_const, probReal_univ, one_smul]
        gcongr
      refine (add_le_add_right h8 _).trans (le_of_eq ?_)
      rw [hGB, List.length_cons]
      push_cast
      ring

omit [MeasurableSpace X] [MeasurableSpace K] in
/-- the code's outputs in terms of `runR`. -/
theorem runR_eq {transition : (Fin n → X) → K → Fin n → X} (hg : ∀ y x, 0 < g y x) (ys : List Y) (keys : Fin ys.length → K) (s : Fin n → X) (r : ℝ) :
    let R := scan (bootstrapBody transition (fun y s i => g y (s i)) (resampleIdx resampling) splitFst) (s, r) (ys.zip (List.ofFn keys))
    Real.exp (-R.1.2) * ((∑ j, f (R.2.getLastD s j)) / n) = Real.exp (-r) * runR g f (fun _ => transition) resampling splitFst ys s keys := by
  induction ys generalizing s r with
  | nil => rfl
  | cons y ys ih =>
    have hn1 : (0 : ℝ) < n := Nat.cast_pos.2 (Nat.pos_of_ne_zero (NeZero.ne n))
    have hpos : 0 < (∑ i, g y (transition s (keys 0) i)) / n :=
      div_pos (Finset.sum_pos (fun i _ => hg y _) ⟨0, Finset.mem_univ _⟩) hn1
    have hz : (y :: ys).zip (List.ofFn keys) = (y, keys 0) :: ys.zip (List.ofFn (Fin.tail keys)) := by
      have : List.ofFn keys = keys 0 :: List.ofFn (Fin.tail keys) := List.ofFn_succ
      rw [this, List.zip_cons_cons]
    have h := ih (Fin.tail keys) (cloudStep g transition resampling splitFst s y (keys 0))
      (r - Real.log ((∑ i, g y (transition s (keys 0) i)) / n))
    dsimp only at h ⊢
    rw [hz, runR, ← mul_assoc (Real.exp (-r))]
    have he : Real.exp (-(r - Real.log ((∑ i, g y (transition s (keys 0) i)) / n)))
        = Real.exp (-r) * ((∑ i, g y (transition s (keys 0) i)) / n) := by
      rw [neg_sub, sub_eq_add_neg, Real.exp_add, Real.exp_log hpos, mul_comm]
    rw [he] at h
    rw [← h]
    simp only [scan, bootstrapBody, List.getLastD_cons]
    rfl

end

theorem gather_of_lt {Z : Type} (φ : Fin n → Z) (idx : Fin n → ℕ) (j : Fin n) (h : idx j < n) : gather φ idx j = φ ⟨idx j, h⟩ := by
  rw [gather]
  congr 1
  ext
  simp only [Fin.ofNat]
  rw [min_eq_left (by omega), Nat.mod_eq_of_lt h]

/-- unbiasedness of the counts gives unbiasedness of averages. -/
theorem mean_of_counts (ν' : Measure K) [IsProbabilityMeasure ν'] (resampling : (Fin n → ℝ) → K → Fin n → ℕ)
    (hrm : Measurable fun p : (Fin n → ℝ) × K => resampling p.1 p.2) (hrange : ∀ w k j, resampling w k j < n)
    (hres : ∀ w : Fin n → ℝ, (∀ i, 0 ≤ w i) → ∑ i, w i = 1 → ∀ i : Fin n, ∑ j, ν' {k | resampling w k j = i} = ENNReal.ofReal (n * w i))
    (w : Fin n → ℝ) (hw : ∀ i, 0 ≤ w i) (hw1 : ∑ i, w i = 1) (φ : Fin n → ℝ) :
    ∫ k, (∑ j, gather φ (resampling w k) j) / n ∂ν' = ∑ i, w i * φ i := by
  have hn1 : (0 : ℝ) < n := Nat.cast_pos.2 (Nat.pos_of_ne_zero (NeZero.ne n))
  have hrz : Measurable fun k => resampling w k := hrm.comp (measurable_const.prodMk measurable_id)
  have hset : ∀ i j : Fin n, MeasurableSet {k | resampling w k j = i} := fun i j =>
    ((measurable_pi_apply j).comp hrz) (measurableSet_singleton (i : ℕ))
  have hj : ∀ k j, gather φ (resampling w k) j = ∑ i : Fin n, Set.indicator {k | resampling w k j = i} (fun _ => φ i) k := by
    intro k j
    rw [gather_of_lt _ _ _ (hrange w k j), Finset.sum_eq_single (⟨resampling w k j, hrange w k j⟩ : Fin n)]
    · rw [Set.indicator_of_mem]; simp
    · intro i _ hi
      rw [Set.indicator_of_notMem]
      intro hk
      exact hi (Fin.ext hk.symm)
    · intro hk; exact absurd (Finset.mem_univ _) hk
  have hint : ∀ i j : Fin n, Integrable (Set.indicator {k | resampling w k j = i} (fun _ => φ i)) ν' := fun i j =>
    (integrable_const _).indicator (hset i j)
  simp only [hj]
  rw [integral_div, integral_finsetSum _ fun j _ => integrable_finsetSum _ fun i _ => hint i j]
  simp only [integral_finsetSum _ fun i _ => hint i _, integral_indicator_const _ (hset _ _)]
  rw [Finset.sum_comm, Finset.sum_div]
  refine Finset.sum_congr rfl fun i _ => ?_
  simp only [smul_eq_mul]
  rw [← Finset.sum_mul]
  have h := congrArg ENNReal.toReal (hres w hw hw1 i)
  rw [ENNReal.toReal_sum fun j _ => measure_ne_top _ _, ENNReal.toReal_ofReal (mul_nonneg hn1.le (hw i))] at h
  simp only [Measure.real]
  rw [h]
  field_simp

theorem markovEY_one_pos (P : Y → Kernel X X) [∀ y, IsMarkovKernel (P y)] {g : Y → X → ℝ} {G : ℝ} (hgm : ∀ y, Measurable (g y)) (hg0 : ∀ y x, 0 < g y x)
    (hgG : ∀ y x, g y x ≤ G) (ys : List Y) (x : X) : 0 < markovEY P g (fun _ => 1) ys x := by
  induction ys generalizing x with
  | nil => exact one_pos
  | cons y ys ih =>
    have hb := abs_markovEY_le (f := fun _ => 1) (F := 1) P hg0 hgG (by simp) ys
    have hm : Measurable fun x' => g y x' * markovEY P g (fun _ => 1) ys x' := (hgm y).mul (measurable_markovEY P hgm measurable_const ys)
    have hpos : ∀ x', 0 < g y x' * markovEY P g (fun _ => 1) ys x' := fun x' => mul_pos (hg0 y x') (ih x')
    rw [markovEY, integral_pos_iff_support_of_nonneg (fun x' => (hpos x').le)]
    · rw [show Function.support (fun x' => g y x' * markovEY P g (fun _ => 1) ys x') = Set.univ from
        Set.eq_univ_of_forall fun x' => (hpos x').ne']
      simp
    · refine integrable_of_abs_le _ hm (B := G * (G ^ ys.length * 1)) fun x' => ?_
      rw [abs_mul, abs_of_pos (hg0 y x')]
      exact mul_le_mul (hgG y x') (hb x') (abs_nonneg _) ((hg0 y x').le.trans (hgG y x'))

/-- the last cloud. -/
noncomputable def lastCloud (g : Y → X → ℝ) (transition : Y → (Fin n → X) → K → Fin n → X) (resampling : (Fin n → ℝ) → K → Fin n → ℕ)
    (splitFst : K → K) : (ys : List Y) → (Fin n → X) → (Fin ys.length → K) → Fin n → X
  | [], s, _ => s
  | y :: ys, s, keys => lastCloud g transition resampling splitFst ys (cloudStep g (transition y) resampling splitFst s y (keys 0)) (Fin.tail keys)

omit [MeasurableSpace X] [MeasurableSpace K] in
theorem runR_lastCloud (g : Y → X → ℝ) (f : X → ℝ) (transition : Y → (Fin n → X) → K → Fin n → X) (resampling : (Fin n → ℝ) → K → Fin n → ℕ)
    (splitFst : K → K) (ys : List Y) (s : Fin n → X) (keys : Fin ys.length → K) :
    runR g f transition resampling splitFst ys s keys = runR g (fun _ => 1) transition resampling splitFst ys s keys
      * ((∑ j, f (lastCloud g transition resampling splitFst ys s keys j)) / n) := by
  have hn1 : (n : ℝ) ≠ 0 := Nat.cast_ne_zero.2 (NeZero.ne n)
  induction ys generalizing s with
  | nil => simp [runR, lastCloud, hn1]
  | cons y ys ih => rw [runR, runR, lastCloud, ih, mul_assoc]

/-- mean square error of the estimates, for a transition that may depend on the measurement. -/
theorem runR_mse (transition : Y → (Fin n → X) → K → Fin n → X) (g : Y → X → ℝ) (ys : List Y) (init : K → Fin n → X)
    (resampling : (Fin n → ℝ) → K → Fin n → ℕ) (splitFst : K → K) (keysOf : K → Fin ys.length → K)
    (ρ ν ν' : Measure K) [IsProbabilityMeasure ν] [IsProbabilityMeasure ν'] (P : Y → Kernel X X) [∀ y, IsMarkovKernel (P y)]
    (μ0 : Measure X) [IsProbabilityMeasure μ0] (G : ℝ)
    (hgm : ∀ y, Measurable (g y)) (hg : ∀ y x, 0 < g y x) (hgG : ∀ y x, g y x ≤ G)
    (htm : ∀ y, Measurable fun p : (Fin n → X) × K => transition y p.1 p.2) (hrm : Measurable fun p : (Fin n → ℝ) × K => resampling p.1 p.2)
    (hsm : Measurable splitFst)
    (hideal : ρ.map (fun key => (init key, keysOf key)) = (Measure.pi fun _ => μ0).prod (Measure.pi fun _ => ν))
    (hind : ∀ y s, ν.map (fun k => (transition y s k, splitFst k)) = (Measure.pi fun j => P y (s j)).prod ν')
    (hrange : ∀ w k j, resampling w k j < n)
    (hres : ∀ w : Fin n → ℝ, (∀ i, 0 ≤ w i) → ∑ i, w i = 1 → ∀ i : Fin n, ∑ j, ν' {k | resampling w k j = i} = ENNReal.ofReal (n * w i))
    (hvar : ∀ w : Fin n → ℝ, (∀ i, 0 ≤ w i) → ∑ i, w i = 1 → ∀ φ : Fin n → ℝ,
      ∫ k, ((∑ j, gather φ (resampling w k) j) / n - ∑ i, w i * φ i) ^ 2 ∂ν' ≤ (∑ i, w i * (φ i - ∑ i, w i * φ i) ^ 2) / n)
    (f : X → ℝ) (hf : Measurable f) (F : ℝ) (hfF : ∀ x, |f x| ≤ F) :
    let avg := fun key => (∑ j, f (lastCloud g transition resampling splitFst ys (init key) (keysOf key) j)) / n
    ∫ key, (runR g f transition resampling splitFst ys (init key) (keysOf key) - ∫ x, markovEY P g f ys x ∂μ0) ^ 2 ∂ρ
      ≤ (2 * ys.length + 1) * (G ^ ys.length * F) ^ 2 / n ∧
    ∫ key, (avg key - (∫ x, markovEY P g f ys x ∂μ0) / ∫ x, markovEY P g (fun _ => 1) ys x ∂μ0) ^ 2 ∂ρ
      ≤ 4 * (2 * ys.length + 1) * (G ^ ys.length * F) ^ 2 / (n * (∫ x, markovEY P g (fun _ => 1) ys x ∂μ0) ^ 2) := by
  intro avg
  have hn : 0 < n := Nat.pos_of_ne_zero (NeZero.ne n)
  have hn1 : (0 : ℝ) < n := Nat.cast_pos.2 hn
  have hne : ρ.map (fun key => (init key, keysOf key)) ≠ 0 := by
    rw [hideal]; exact IsProbabilityMeasure.ne_zero _
  have hae : AEMeasurable (fun key => (init key, keysOf key)) ρ := by
    by_contra hc
    exact hne (Measure.map_of_not_aemeasurable hc)
  have hρ : IsFiniteMeasure ρ := by
    refine ⟨?_⟩
    have := Measure.map_apply_of_aemeasurable hae (MeasurableSet.univ (α := (Fin n → X) × (Fin ys.length → K)))
    rw [hideal, measure_univ, Set.preimage_univ] at this
    rw [← this]; exact ENNReal.one_lt_top
  have hmean := mean_of_counts ν' resampling hrm hrange hres
  -- mean square error of the unnormalised estimate, for any bounded function
  have key : ∀ (f : X → ℝ) (F : ℝ), Measurable f → (∀ x, |f x| ≤ F) →
      Integrable (fun key => (runR g f transition resampling splitFst ys (init key) (keysOf key) - ∫ x, markovEY P g f ys x ∂μ0) ^ 2) ρ ∧
      ∫ key, (runR g f transition resampling splitFst ys (init key) (keysOf key) - ∫ x, markovEY P g f ys x ∂μ0) ^ 2 ∂ρ
        ≤ (2 * ys.length + 1) * (G ^ ys.length * F) ^ 2 / n := by
    intro f F hf hfF
    have hmW := measurable_runR (n := n) hgm hf htm hrm hsm ys
    have hmL := measurable_markovEY P hgm hf ys
    have hbL := abs_markovEY_le P hg hgG hfF ys
    have hbW := abs_runR_le (transition := transition) (resampling := resampling) (splitFst := splitFst) hg hgG hfF ys
    set B := G ^ ys.length * F with hB
    set c := ∫ x, markovEY P g f ys x ∂μ0 with hc
    have hcB : |c| ≤ B := by
      rw [hc, ← Real.norm_eq_abs]
      refine (norm_integral_le_of_norm_le_const (C := B) (Filter.Eventually.of_forall fun x => hbL x)).trans (by simp)
    have hb2 : ∀ x : ℝ, |x| ≤ B → |(x - c) ^ 2| ≤ (B + B) ^ 2 := by
      intro x hx
      rw [abs_pow]
      exact pow_le_pow_left₀ (abs_nonneg _) ((abs_sub _ _).trans (add_le_add hx hcB)) 2
    have hm2 : Measurable fun p : (Fin n → X) × (Fin ys.length → K) => (runR g f transition resampling splitFst ys p.1 p.2 - c) ^ 2 :=
      (hmW.sub_const c).pow_const 2
    refine ⟨?_, ?_⟩
    · refine Integrable.of_bound (hm2.comp_aemeasurable hae).aestronglyMeasurable ((B + B) ^ 2) (Filter.Eventually.of_forall fun key => ?_)
      rw [Real.norm_eq_abs]
      exact hb2 _ (hbW _ _)
    rw [← integral_map (f := fun p : (Fin n → X) × (Fin ys.length → K) => (runR g f transition resampling splitFst ys p.1 p.2 - c) ^ 2)
      hae hm2.aestronglyMeasurable, hideal, integral_prod _ (integrable_of_abs_le _ hm2 fun p => hb2 _ (hbW _ _))]
    have hmom := runR_moments (ν := ν) P hgm hg hgG hf hfF htm hrm hsm hind hmean hvar ys
    have h2 : ∀ s : Fin n → X, ∫ keys, (runR g f transition resampling splitFst ys s keys - c) ^ 2 ∂(Measure.pi fun _ : Fin ys.length => ν)
        ≤ 2 * ys.length * B ^ 2 / n + ((∑ j, markovEY P g f ys (s j)) / n - c) ^ 2 := by
      intro s
      have hs' : Measurable fun keys : Fin ys.length → K => runR g f transition resampling splitFst ys s keys :=
        hmW.comp (measurable_const.prodMk measurable_id)
      have h3 := bias_variance (Measure.pi fun _ : Fin ys.length => ν) hs' (hbW s) (hmom s).1 1 c
      simp only [one_mul, one_pow] at h3
      rw [h3]
      exact add_le_add_left (hmom s).2 _
    have hms : Measurable fun s : Fin n → X => (∑ j, markovEY P g f ys (s j)) / n :=
      (Finset.measurable_sum _ fun j _ => hmL.comp (measurable_pi_apply j)).div_const _
    have hi : Integrable (fun s : Fin n → X => ((∑ j, markovEY P g f ys (s j)) / n - c) ^ 2) (Measure.pi fun _ => μ0) :=
      integrable_of_abs_le _ ((hms.sub_const c).pow_const 2) fun s => hb2 _ (abs_mean_le hbL s)
    refine (integral_mono_of_nonneg (Filter.Eventually.of_forall fun k => integral_nonneg fun _ => sq_nonneg _)
      ((integrable_const _).add hi) (Filter.Eventually.of_forall h2)).trans ?_
    rw [integral_add' (integrable_const _) hi, integral_const, probReal_univ, one_smul]
    have hL2 : MemLp (markovEY P g f ys) 2 μ0 :=
      MemLp.of_bound hmL.aestronglyMeasurable B (Filter.Eventually.of_forall fun x => hbL x)
    rw [integral_sq_mean_pi hn (fun _ => μ0) (fun _ => markovEY P g f ys) (fun _ => hL2) c (by simp [hc])]
    have h4 : variance (markovEY P g f ys) μ0 ≤ B ^ 2 := by
      refine (variance_le_expectation_sq hmL.aestronglyMeasurable).trans ?_
      have hi : Integrable (fun x => (markovEY P g f ys ^ 2) x) μ0 := integrable_of_abs_le _ (hmL.pow_const 2) (B := B ^ 2) fun x => by
        rw [Pi.pow_apply, abs_pow]; exact pow_le_pow_left₀ (abs_nonneg _) (hbL x) 2
      refine (integral_mono hi (integrable_const (B ^ 2)) fun x => ?_).trans (by simp)
      exact (sq_abs (markovEY P g f ys x)).symm.le.trans (pow_le_pow_left₀ (abs_nonneg _) (hbL x) 2)
    simp only [Finset.sum_const, Finset.card_univ, Fintype.card_fin, nsmul_eq_mul]
    calc _ ≤ 2 * ys.length * B ^ 2 / n + n * B ^ 2 / (n : ℝ) ^ 2 := by gcongr
      _ = _ := by field_simp
  obtain ⟨hiF, hF⟩ := key f F hf hfF
  obtain ⟨hi1, h1⟩ := key (fun _ => 1) 1 measurable_const (by simp)
  refine ⟨hF, ?_⟩
  set a := ∫ x, markovEY P g f ys x ∂μ0 with ha
  set z := ∫ x, markovEY P g (fun _ => 1) ys x ∂μ0 with hz
  have hz0 : 0 < z := by
    have hpos := markovEY_one_pos P hgm hg hgG ys
    rw [hz, integral_pos_iff_support_of_nonneg (fun x => (hpos x).le)
      (integrable_of_abs_le _ (measurable_markovEY P hgm measurable_const ys) (abs_markovEY_le (F := 1) P hg hgG (by simp) ys)),
      show Function.support (markovEY P g (fun _ => 1) ys) = Set.univ from Set.eq_univ_of_forall fun x => (hpos x).ne']
    simp
  set Zf := fun key => runR g (fun _ => 1) transition resampling splitFst ys (init key) (keysOf key) with hZf
  have hRZ : ∀ key, runR g f transition resampling splitFst ys (init key) (keysOf key) = Zf key * avg key := fun key =>
    runR_lastCloud g f transition resampling splitFst ys (init key) (keysOf key)
  simp only [hRZ] at hiF hF
  have hpt : ∀ key, (avg key - a / z) ^ 2
      ≤ 2 / z ^ 2 * (F ^ 2 * (Zf key - z) ^ 2 + (Zf key * avg key - a) ^ 2) := by
    intro key
    have hav : avg key ^ 2 ≤ F ^ 2 := by
      rw [← sq_abs]
      exact pow_le_pow_left₀ (abs_nonneg _) (abs_mean_le hfF _) 2
    generalize avg key = v at hav ⊢
    generalize Zf key = Z
    have e : v - a / z = ((Z * v - a) - v * (Z - z)) / z := by field_simp; ring
    rw [e, div_pow, div_mul_eq_mul_div]
    refine div_le_div_of_nonneg_right ?_ (sq_nonneg z)
    have h5 : v ^ 2 * (Z - z) ^ 2 ≤ F ^ 2 * (Z - z) ^ 2 := mul_le_mul_of_nonneg_right hav (sq_nonneg _)
    nlinarith [sq_nonneg ((Z * v - a) + v * (Z - z))]
  refine (integral_mono_of_nonneg (Filter.Eventually.of_forall fun k => sq_nonneg _) (((hi1.const_mul (F ^ 2)).add hiF).const_mul (2 / z ^ 2))
    (Filter.Eventually.of_forall hpt)).trans ?_
  rw [integral_const_mul, integral_add' (hi1.const_mul (F ^ 2)) hiF, integral_const_mul]
  calc 2 / z ^ 2 * (F ^ 2 * _ + _)
      ≤ 2 / z ^ 2 * (F ^ 2 * ((2 * ys.length + 1) * (G ^ ys.length * 1) ^ 2 / n) + (2 * ys.length + 1) * (G ^ ys.length * F) ^ 2 / n) := by gcongr
    _ = _ := by field_simp; ring

/-- **C148.** With idealised random keys, independently moved particles, a likelihood bounded by `G`, and a resampling scheme that is unbiased and has at most
the variance of independent draws: for every number `n` of particles and every bounded measurable `f`, `exp(-nell)` times the average of `f` over
the last cloud returned by `bootstrap_filter` estimates `E[f(x_T) p(y_{1:T} | x_{0:T})]` with a mean square error of at most
`(2 T + 1) (G ^ T F) ^ 2 / n`, and the average of `f` over the last cloud estimates the filtering mean `E[f(x_T) | y_{1:T}]` with a mean square
error of at most a constant over `n`. -/
theorem C148_bootstrap_mse (transition : (Fin n → X) → K → Fin n → X) (g : Y → X → ℝ) (ys : List Y) (init : K → Fin n → X)
    (resampling : (Fin n → ℝ) → K → Fin n → ℕ) (splitFst : K → K) (splitN : K → ℕ → List K) (keysOf : K → Fin ys.length → K)
    (ρ ν ν' : Measure K) [IsProbabilityMeasure ν] [IsProbabilityMeasure ν'] (P : Kernel X X) [IsMarkovKernel P]
    (μ0 : Measure X) [IsProbabilityMeasure μ0] (G : ℝ)
    (hgm : ∀ y, Measurable (g y)) (hg : ∀ y x, 0 < g y x) (hgG : ∀ y x, g y x ≤ G)
    (htm : Measurable fun p : (Fin n → X) × K => transition p.1 p.2) (hrm : Measurable fun p : (Fin n → ℝ) × K => resampling p.1 p.2)
    (hsm : Measurable splitFst) (hsplit : ∀ key, splitN key ys.length = List.ofFn (keysOf key))
    (hideal : ρ.map (fun key => (init key, keysOf key)) = (Measure.pi fun _ => μ0).prod (Measure.pi fun _ => ν))
    (hind : ∀ s, ν.map (fun k => (transition s k, splitFst k)) = (Measure.pi fun j => P (s j)).prod ν')
    (hrange : ∀ w k j, resampling w k j < n)
    (hres : ∀ w : Fin n → ℝ, (∀ i, 0 ≤ w i) → ∑ i, w i = 1 → ∀ i : Fin n, ∑ j, ν' {k | resampling w k j = i} = ENNReal.ofReal (n * w i))
    (hvar : ∀ w : Fin n → ℝ, (∀ i, 0 ≤ w i) → ∑ i, w i = 1 → ∀ φ : Fin n → ℝ,
      ∫ k, ((∑ j, gather φ (resampling w k) j) / n - ∑ i, w i * φ i) ^ 2 ∂ν' ≤ (∑ i, w i * (φ i - ∑ i, w i * φ i) ^ 2) / n)
    (f : X → ℝ) (hf : Measurable f) (F : ℝ) (hfF : ∀ x, |f x| ≤ F) :
    let out := fun key => bootstrapFilter transition (fun y s i => g y (s i)) ys init key (resampleIdx resampling) splitFst splitN
    let avg := fun key => (∑ j, f ((out key).1.getLastD (init key) j)) / n
    ∫ key, (Real.exp (-(out key).2) * avg key - ∫ x, markovE P g f ys x ∂μ0) ^ 2 ∂ρ ≤ (2 * ys.length + 1) * (G ^ ys.length * F) ^ 2 / n ∧
    ∫ key, (avg key - (∫ x, markovE P g f ys x ∂μ0) / ∫ x, markovE P g (fun _ => 1) ys x ∂μ0) ^ 2 ∂ρ
      ≤ 4 * (2 * ys.length + 1) * (G ^ ys.length * F) ^ 2 / (n * (∫ x, markovE P g (fun _ => 1) ys x ∂μ0) ^ 2) := by
  intro out avg
  have h1 : ∀ (f : X → ℝ) key, Real.exp (-(out key).2) * ((∑ j, f ((out key).1.getLastD (init key) j)) / n)
      = runR g f (fun _ => transition) resampling splitFst ys (init key) (keysOf key) := by
    intro f key
    have h := runR_eq (f := f) (transition := transition) (resampling := resampling) (splitFst := splitFst) hg ys (keysOf key) (init key) 0
    dsimp only at h
    rw [neg_zero, Real.exp_zero, one_mul, ← hsplit] at h
    exact h
  have h2 : ∀ key, avg key = (∑ j, f (lastCloud g (fun _ => transition) resampling splitFst ys (init key) (keysOf key) j)) / n := by
    intro key
    have hn1 : (n : ℝ) ≠ 0 := Nat.cast_ne_zero.2 (NeZero.ne n)
    have h3 := h1 (fun _ => 1) key
    have h4 := (h1 f key).trans (runR_lastCloud g f (fun _ => transition) resampling splitFst ys (init key) (keysOf key))
    rw [← h3] at h4
    simp only [Finset.sum_const, Finset.card_univ, Fintype.card_fin, nsmul_eq_mul, mul_one, div_self hn1] at h4
    exact mul_left_cancel₀ (Real.exp_pos _).ne' h4
  have h := runR_mse (fun _ => transition) g ys init resampling splitFst keysOf ρ ν ν' (fun _ => P) μ0 G hgm hg hgG (fun _ => htm) hrm hsm hideal
    (fun _ => hind) hrange hres hvar f hf F hfF
  simp only [markovEY_const, ← h1, ← h2] at h
  exact h

/-- **C148 (schemes).** `stratified` and `multinomial`, fed with independent uniform numbers, meet the two conditions on the resampling scheme. -/
theorem C148_schemes (ν' : Measure K) [IsProbabilityMeasure ν'] (resampling : (Fin n → ℝ) → K → Fin n → ℕ)
    (hr : (∃ draws : K → Fin n → ℝ, Measurable draws ∧ ν'.map draws = Measure.pi (fun _ => (volume : Measure ℝ).restrict (Set.Ico 0 1)) ∧
        ∀ w k j, resampling w k j = (Resampling.stratified ssCount (List.ofFn w) (extend (draws k))).getD j 0) ∨
      (∃ draws : K → Fin (n + 1) → ℝ, Measurable draws ∧ ν'.map draws = Measure.pi (fun _ => (volume : Measure ℝ).restrict (Set.Ico 0 1)) ∧
        ∀ w k j, resampling w k j = (Resampling.multinomial ssCount (List.ofFn w) (List.ofFn (draws k))).getD j 0)) :
    Measurable (fun p : (Fin n → ℝ) × K => resampling p.1 p.2) ∧ (∀ w k j, resampling w k j < n) ∧
    (∀ w : Fin n → ℝ, (∀ i, 0 ≤ w i) → ∑ i, w i = 1 → ∀ i : Fin n, ∑ j, ν' {k | resampling w k j = i} = ENNReal.ofReal (n * w i)) ∧
    ∀ w : Fin n → ℝ, (∀ i, 0 ≤ w i) → ∑ i, w i = 1 → ∀ φ : Fin n → ℝ,
      ∫ k, ((∑ j, gather φ (resampling w k) j) / n - ∑ i, w i * φ i) ^ 2 ∂ν' ≤ (∑ i, w i * (φ i - ∑ i, w i * φ i) ^ 2) / n := by
  have hss : Resampling.SearchSorted ssCount := fun _ _ _ => rfl
  -- an average over a list of ancestors
  have havg : ∀ (φ : Fin n → ℝ) (l : List ℕ), l.length = n → (∀ j : Fin n, l.getD j 0 < n) →
      (l.map (extend φ)).sum = ∑ j, gather φ (fun j : Fin n => l.getD j 0) j := by
    intro φ l hl hlt
    rw [← List.sum_ofFn]
    congr 1
    refine List.ext_getElem (by simp [hl]) fun i h1 h2 => ?_
    have hi : i < n := by simpa using h2
    have h3 := hlt ⟨i, hi⟩
    rw [List.getElem_map, List.getElem_ofFn, gather_of_lt _ _ _ h3]
    rw [List.getD_eq_getElem _ _ (by simpa [hl] using hi)] at h3
    simp only [extend, List.getD_eq_getElem _ _ (show i < l.length by simpa [hl] using hi)]
    rw [dif_pos h3]
  have hcoe : ∀ (w φ : Fin n → ℝ) (c : ℝ), ∑ i : Fin (List.ofFn w).length, (List.ofFn w)[i] * (extend φ i - c) ^ 2 = ∑ i, w i * (φ i - c) ^ 2 ∧
      ∑ i : Fin (List.ofFn w).length, (List.ofFn w)[i] * extend φ i = ∑ i, w i * φ i := by
    intro w φ c
    have hl : (List.ofFn w).length = n := List.length_ofFn
    constructor <;>
    · refine Fintype.sum_equiv (finCongr hl) _ _ fun i => ?_
      have hi : (i : ℕ) < n := by simpa using i.2
      simp [extend, hi]
      try rfl
  rcases hr with ⟨draws, hd, hlaw, hr⟩ | ⟨draws, hd, hlaw, hr⟩
  · obtain ⟨h1, h2, h3⟩ := C107_schemes ν' resampling (Or.inr ⟨draws, hd, hlaw, hr⟩)
    refine ⟨h1, h2, h3, fun w hw hw1 φ => ?_⟩
    have hmse : ∀ (l : List ℝ), l.length = n → (∀ a ∈ l, 0 ≤ a) → l.sum = 1 → ∀ ψ : ℕ → ℝ,
        ∫ k, (((Resampling.stratified ssCount l (extend (draws k))).map ψ).sum / n - ∑ i : Fin l.length, l[i] * ψ i) ^ 2 ∂ν'
          ≤ (∑ i : Fin l.length, l[i] * (ψ i - ∑ i : Fin l.length, l[i] * ψ i) ^ 2) / n := by
      intro l hl hl0 hl1 ψ
      subst hl
      have h := C147_stratified hss l hl0 hl1 ψ
      rw [← hlaw, integral_map hd.aemeasurable ((((measurable_stratified_sum hss l hl0 (length_pos_of_sum l hl1) ψ).div_const _).sub_const _).pow_const
        _).aestronglyMeasurable] at h
      exact h
    have h := hmse (List.ofFn w) List.length_ofFn (by simpa [List.mem_ofFn] using hw) (by rw [List.sum_ofFn, hw1]) (extend φ)
    rw [(hcoe w φ 0).2, (hcoe w φ _).1] at h
    refine le_of_eq_of_le (integral_congr_ae (Filter.Eventually.of_forall fun k => ?_)) h
    simp only
    rw [havg φ _ ?_ fun j => by rw [← hr]; exact h2 w k j, show (fun j : Fin n => _) = resampling w k from funext fun j => (hr w k j).symm]
    simp [Resampling.stratified, Resampling.systematicOrStratified]
  · obtain ⟨h1, h2, h3⟩ := C124_multinomial_scheme ν' resampling draws hd hlaw hr
    refine ⟨h1, h2, h3, fun w hw hw1 φ => ?_⟩
    have hmse : ∀ (l : List ℝ), l.length = n → (∀ a ∈ l, 0 ≤ a) → l.sum = 1 → ∀ ψ : ℕ → ℝ,
        ∫ k, (((Resampling.multinomial ssCount l (List.ofFn (draws k))).map ψ).sum / n - ∑ i : Fin l.length, l[i] * ψ i) ^ 2 ∂ν'
          ≤ (∑ i : Fin l.length, l[i] * (ψ i - ∑ i : Fin l.length, l[i] * ψ i) ^ 2) / n := by
      intro l hl hl0 hl1 ψ
      subst hl
      have h := C147_multinomial hss l hl0 hl1 ψ
      rw [← hlaw, integral_map hd.aemeasurable ((((measurable_multinomial_sum hss l hl0 (length_pos_of_sum l hl1) ψ).div_const _).sub_const _).pow_const
        _).aestronglyMeasurable] at h
      exact h.le
    have h := hmse (List.ofFn w) List.length_ofFn (by simpa [List.mem_ofFn] using hw) (by rw [List.sum_ofFn, hw1]) (extend φ)
    rw [(hcoe w φ 0).2, (hcoe w φ _).1] at h
    refine le_of_eq_of_le (integral_congr_ae (Filter.Eventually.of_forall fun k => ?_)) h
    simp only
    rw [havg φ _ ?_ fun j => by rw [← hr]; exact h2 w k j, show (fun j : Fin n => _) = resampling w k from funext fun j => (hr w k j).symm]
    rw [Resampling.multinomial, List.length_map, sortedUniforms_ofFn, List.length_ofFn]

example : let K := (Fin 2 → ℝ) × (Fin 2 → ℝ)
    let γ : Measure (Fin 2 → ℝ) := Measure.pi fun _ => gaussianReal 0 1
    let U : Measure (Fin 2 → ℝ) := Measure.pi fun _ => (volume : Measure ℝ).restrict (Set.Ico 0 1)
    let ν : Measure K := γ.prod U
    let ν' : Measure K := (Measure.dirac 0).prod U
    let transition : (Fin 2 → ℝ) → K → Fin 2 → ℝ := fun _ k => k.1
    let splitFst : K → K := fun k => (0, k.2)
    let resampling : (Fin 2 → ℝ) → K → Fin 2 → ℕ := fun w k j => (Resampling.stratified ssCount (List.ofFn w) (extend k.2)).getD j 0
    let keysOf : K → Fin [(1 : ℝ)].length → K := fun k _ => k
    let P : Kernel ℝ ℝ := Kernel.const ℝ (gaussianReal 0 1)
    IsProbabilityMeasure ν ∧ IsProbabilityMeasure ν' ∧ Measurable (fun p : (Fin 2 → ℝ) × K => transition p.1 p.2) ∧
    Measurable (fun p : (Fin 2 → ℝ) × K => resampling p.1 p.2) ∧ Measurable splitFst ∧
    ν.map (fun key => ((0 : Fin 2 → ℝ), keysOf key)) = (Measure.pi fun _ => Measure.dirac (0 : ℝ)).prod (Measure.pi fun _ => ν) ∧
    (∀ s, ν.map (fun k => (transition s k, splitFst k)) = (Measure.pi fun j => P (s j)).prod ν') ∧
    (∀ w k j, resampling w k j < 2) ∧
    (∀ w : Fin 2 → ℝ, (∀ i, 0 ≤ w i) → ∑ i, w i = 1 → ∀ i : Fin 2, ∑ j, ν' {k | resampling w k j = i} = ENNReal.ofReal ((2 : ℕ) * w i)) ∧
    (∀ w : Fin 2 → ℝ, (∀ i, 0 ≤ w i) → ∑ i, w i = 1 → ∀ φ : Fin 2 → ℝ,
      ∫ k, ((∑ j, gather φ (resampling w k) j) / (2 : ℕ) - ∑ i, w i * φ i) ^ 2 ∂ν' ≤ (∑ i, w i * (φ i - ∑ i, w i * φ i) ^ 2) / (2 : ℕ)) := by
  intro K γ U ν ν' transition splitFst resampling keysOf P
  have hu : IsProbabilityMeasure ((volume : Measure ℝ).restrict (Set.Ico 0 1)) := ⟨by simp⟩
  have hU : IsProbabilityMeasure U := inferInstance
  have hν : IsProbabilityMeasure ν := inferInstance
  have hν' : IsProbabilityMeasure ν' := inferInstance
  have hs := C148_schemes (n := 2) ν' resampling (Or.inl ⟨Prod.snd, measurable_snd, by
    rw [Measure.map_snd_prod, measure_univ, one_smul], fun _ _ _ => rfl⟩)
  have hsplit : Measurable splitFst := measurable_const.prodMk measurable_snd
  refine ⟨hν, hν', measurable_fst.comp measurable_snd, hs.1, hsplit, ?_, ?_, hs.2.1, hs.2.2.1, hs.2.2.2⟩
  · have h0 : (Measure.pi fun _ : Fin 2 => Measure.dirac (0 : ℝ)) = Measure.dirac 0 := by
      refine Measure.pi_eq fun t ht => ?_
      rw [Measure.dirac_apply' _ (MeasurableSet.univ_pi ht)]
      simp only [Measure.dirac_apply' _ (ht _), Fin.prod_univ_two]
      by_cases h0 : (0 : ℝ) ∈ t 0
      · by_cases h1 : (0 : ℝ) ∈ t 1
        · rw [Set.indicator_of_mem h0, Set.indicator_of_mem h1, Set.indicator_of_mem]
          · simp
          · simp [Fin.forall_fin_two, h0, h1]
        · rw [Set.indicator_of_notMem h1, Set.indicator_of_notMem, mul_zero]
          simp [Fin.forall_fin_two, h1]
      · rw [Set.indicator_of_notMem h0, Set.indicator_of_notMem, zero_mul]
        simp [Fin.forall_fin_two, h0]
    rw [h0, Measure.dirac_prod]
    have h := (measurePreserving_funUnique ν (Fin 1)).symm.map_eq
    have h2 : ν.map (fun key => ((0 : Fin 2 → ℝ), keysOf key)) = (ν.map keysOf).map (Prod.mk 0) := by
      have hk : Measurable keysOf := measurable_pi_lambda _ fun _ => measurable_id
      rw [Measure.map_map measurable_prodMk_left hk]
      rfl
    rw [h2]
    exact congrArg (Measure.map (Prod.mk 0)) h
  · intro s
    show (γ.prod U).map (fun k => (k.1, ((0 : Fin 2 → ℝ), k.2))) = γ.prod ((Measure.dirac 0).prod U)
    rw [Measure.dirac_prod]
    have h := Measure.map_prod_map γ U measurable_id (measurable_prodMk_left (x := (0 : Fin 2 → ℝ)) (β := Fin 2 → ℝ))
    rw [Measure.map_id] at h
    rw [h]
    rfl

end Mfs.Props

import Verif.Spec.Markov
import Verif.Props.Smc
import Mathlib.MeasureTheory.Constructions.Pi
import Mathlib.Probability.Kernel.MeasurableLIntegral
import Mathlib.Probability.Distributions.Gaussian.Real

/-!
# C107: the bootstrap filter is unbiased

Pseudo-random keys are idealised: the keys produced by `split` are independent with a common law, and a key used by
`transition_sampler` is independent of the key split from it.
-/

namespace Mfs.Props

open Mfs.Smc Mfs.Spec MeasureTheory ProbabilityTheory

variable {X Y K : Type} {n : ℕ} [NeZero n] [MeasurableSpace X] [MeasurableSpace K]

theorem measurable_gather : Measurable fun p : (Fin n → X) × (Fin n → ℕ) => gather p.1 p.2 := by
  refine measurable_pi_lambda _ fun j => ?_
  have h : Measurable fun q : (Fin n → X) × Fin n => q.1 q.2 :=
    measurable_from_prod_countable_left fun i => measurable_pi_apply i
  have h2 : Measurable fun p : (Fin n → X) × (Fin n → ℕ) => (p.1, Fin.ofNat n (min (p.2 j) (n - 1))) :=
    measurable_fst.prodMk ((measurable_of_countable fun m : ℕ => Fin.ofNat n (min m (n - 1))).comp
      ((measurable_pi_apply j).comp measurable_snd))
  exact h.comp h2

/-- splitting the first key off. -/
theorem lintegral_keys_succ (ν : Measure K) [IsProbabilityMeasure ν] (T : ℕ) {φ : (Fin (T + 1) → K) → ENNReal} (hφ : Measurable φ) :
    ∫⁻ keys, φ keys ∂(Measure.pi fun _ : Fin (T + 1) => ν)
      = ∫⁻ k, ∫⁻ keys, φ (Fin.cons k keys) ∂(Measure.pi fun _ : Fin T => ν) ∂ν := by
  have hmp := (measurePreserving_piFinSuccAbove (fun _ : Fin (T + 1) => ν) 0).symm
  rw [← hmp.lintegral_comp hφ]
  refine (lintegral_prod (μ := ν) (ν := Measure.pi fun _ : Fin T => ν) _ (hφ.comp hmp.measurable).aemeasurable).trans ?_
  refine lintegral_congr fun x => lintegral_congr fun xs => congrArg φ ?_
  exact Fin.insertNth_zero' x xs

section
variable (g : Y → X → ℝ) (f : X → ENNReal) (transition : (Fin n → X) → K → Fin n → X) (resampling : (Fin n → ℝ) → K → Fin n → ℕ)
  (splitFst : K → K)

/-- normalised likelihoods. -/
noncomputable def normW (y : Y) (z : Fin n → X) : Fin n → ℝ := fun i => g y (z i) / ∑ i, g y (z i)

/-- one step on the cloud. -/
noncomputable def cloudStep (s : Fin n → X) (y : Y) (k : K) : Fin n → X :=
  gather (transition s k) (resampling (normW g y (transition s k)) (splitFst k))

/-- likelihood estimate times the mean of `f` over the last cloud. -/
noncomputable def runW : (ys : List Y) → (Fin n → X) → (Fin ys.length → K) → ENNReal
  | [], s, _ => (n : ENNReal)⁻¹ * ∑ j, f (s j)
  | y :: ys, s, keys => ENNReal.ofReal ((∑ i, g y (transition s (keys 0) i)) / n)
      * runW ys (cloudStep g transition resampling splitFst s y (keys 0)) (Fin.tail keys)

variable {g f transition resampling splitFst}

omit [NeZero n] in
theorem measurable_normW (hgm : ∀ y, Measurable (g y)) (y : Y) : Measurable (normW (n := n) g y) := by
  refine measurable_pi_lambda _ fun i => ?_
  have h : ∀ i : Fin n, Measurable fun z : Fin n → X => g y (z i) := fun i => (hgm y).comp (measurable_pi_apply i)
  exact (h i).div (Finset.measurable_sum _ fun i _ => h i)

theorem measurable_runW (hgm : ∀ y, Measurable (g y)) (hf : Measurable f)
    (htm : Measurable fun p : (Fin n → X) × K => transition p.1 p.2) (hrm : Measurable fun p : (Fin n → ℝ) × K => resampling p.1 p.2)
    (hsm : Measurable splitFst) (ys : List Y) :
    Measurable fun p : (Fin n → X) × (Fin ys.length → K) => runW g f transition resampling splitFst ys p.1 p.2 := by
  induction ys with
  | nil =>
    simp only [runW]
    exact (Finset.measurable_sum _ fun j _ => hf.comp ((measurable_pi_apply j).comp measurable_fst)).const_mul _
  | cons y ys ih =>
    simp only [runW]
    have ht : Measurable fun p : (Fin n → X) × (Fin (ys.length + 1) → K) => transition p.1 (p.2 0) :=
      htm.comp (measurable_fst.prodMk ((measurable_pi_apply 0).comp measurable_snd))
    have hk : Measurable fun p : (Fin n → X) × (Fin (ys.length + 1) → K) => splitFst (p.2 0) :=
      hsm.comp ((measurable_pi_apply 0).comp measurable_snd)
    refine Measurable.mul ?_ ?_
    · refine Measurable.ennreal_ofReal (Measurable.div_const (Finset.measurable_sum _ fun i _ => ?_) _)
      exact (hgm y).comp ((measurable_pi_apply i).comp ht)
    · refine ih.comp (Measurable.prodMk ?_ ?_)
      · exact measurable_gather.comp (ht.prodMk (hrm.comp (((measurable_normW hgm y).comp ht).prodMk hk)))
      · exact measurable_pi_lambda _ fun i => (measurable_pi_apply _).comp measurable_snd

theorem measurable_markovLik (P : Kernel X X) (hgm : ∀ y, Measurable (g y)) (hf : Measurable f) (ys : List Y) :
    Measurable (markovLik P g f ys) := by
  induction ys with
  | nil => exact hf
  | cons y ys ih => exact Measurable.lintegral_kernel ((hgm y).ennreal_ofReal.mul ih)

/-- the expectation over the keys. -/
theorem lintegral_runW {ν ν' : Measure K} [IsProbabilityMeasure ν] [IsProbabilityMeasure ν'] (P : Kernel X X)
    (hgm : ∀ y, Measurable (g y)) (hg : ∀ y x, 0 < g y x) (hf : Measurable f)
    (htm : Measurable fun p : (Fin n → X) × K => transition p.1 p.2) (hrm : Measurable fun p : (Fin n → ℝ) × K => resampling p.1 p.2)
    (hsm : Measurable splitFst)
    (hind : ∀ s, ν.map (fun k => (transition s k, splitFst k)) = (ν.map (transition s)).prod ν')
    (htr : ∀ s j, ν.map (fun k => transition s k j) = P (s j)) (hrange : ∀ w k j, resampling w k j < n)
    (hres : ∀ w : Fin n → ℝ, (∀ i, 0 ≤ w i) → ∑ i, w i = 1 → ∀ i : Fin n, ∑ j, ν' {k | resampling w k j = i} = ENNReal.ofReal (n * w i))
    (ys : List Y) (s : Fin n → X) :
    ∫⁻ keys, runW g f transition resampling splitFst ys s keys ∂(Measure.pi fun _ : Fin ys.length => ν)
      = (n : ENNReal)⁻¹ * ∑ j, markovLik P g f ys (s j) := by
  have hn0 : (n : ℝ) ≠ 0 := Nat.cast_ne_zero.2 (NeZero.ne n)
  have hn1 : (0 : ℝ) < n := Nat.cast_pos.2 (Nat.pos_of_ne_zero (NeZero.ne n))
  induction ys generalizing s with
  | nil =>
    simp only [runW]
    rw [lintegral_const, measure_univ, mul_one]
    rfl
  | cons y ys ih =>
    have hmL := measurable_markovLik P hgm hf ys
    set φ : (Fin (ys.length + 1) → K) → ENNReal := fun keys => ENNReal.ofReal ((∑ i, g y (transition s (keys 0) i)) / n)
      * runW g f transition resampling splitFst ys (cloudStep g transition resampling splitFst s y (keys 0)) (Fin.tail keys) with hφ
    have hφm : Measurable φ := by
      have ht : Measurable fun keys : Fin (ys.length + 1) → K => transition s (keys 0) :=
        htm.comp (measurable_const.prodMk (measurable_pi_apply 0))
      have hk : Measurable fun keys : Fin (ys.length + 1) → K => splitFst (keys 0) := hsm.comp (measurable_pi_apply 0)
      refine Measurable.mul ?_ ?_
      · refine Measurable.ennreal_ofReal (Measurable.div_const (Finset.measurable_sum _ fun i _ => ?_) _)
        exact (hgm y).comp ((measurable_pi_apply i).comp ht)
      · refine (measurable_runW hgm hf htm hrm hsm ys).comp (Measurable.prodMk ?_ ?_)
        · exact measurable_gather.comp (ht.prodMk (hrm.comp (((measurable_normW hgm y).comp ht).prodMk hk)))
        · exact measurable_pi_lambda _ fun i => measurable_pi_apply _
    have h0 : ∀ keys : Fin (y :: ys).length → K, runW g f transition resampling splitFst (y :: ys) s keys = φ keys := fun _ => rfl
    simp only [h0]
    refine (lintegral_keys_succ ν ys.length hφm).trans ?_
    have h2 : ∀ k, ∫⁻ keys, φ (Fin.cons k keys) ∂(Measure.pi fun _ : Fin ys.length => ν)
        = ENNReal.ofReal ((∑ i, g y (transition s k i)) / n) * ((n : ENNReal)⁻¹
          * ∑ j, markovLik P g f ys (cloudStep g transition resampling splitFst s y k j)) := by
      intro k
      simp only [hφ, Fin.cons_zero, Fin.tail_cons]
      have hmr : Measurable fun keys : Fin ys.length → K =>
          runW g f transition resampling splitFst ys (cloudStep g transition resampling splitFst s y k) keys :=
        (measurable_runW hgm hf htm hrm hsm ys).comp (measurable_const.prodMk measurable_id)
      rw [lintegral_const_mul _ hmr, ih]
    simp only [h2]
    clear_value φ
    have hts : Measurable (transition s) := htm.comp (measurable_const.prodMk measurable_id)
    set h : (Fin n → X) × K → ENNReal := fun p => ENNReal.ofReal ((∑ i, g y (p.1 i)) / n) * ((n : ENNReal)⁻¹
      * ∑ j, markovLik P g f ys (gather p.1 (resampling (normW g y p.1) p.2) j)) with hh
    have hgz : ∀ i : Fin n, Measurable fun z : Fin n → X => g y (z i) := fun i => (hgm y).comp (measurable_pi_apply i)
    have hhm : Measurable h := by
      refine Measurable.mul ?_ (Measurable.const_mul ?_ _)
      · exact ((Finset.measurable_sum _ fun i _ => (hgz i).comp measurable_fst).div_const _).ennreal_ofReal
      · have hga : Measurable fun p : (Fin n → X) × K => gather p.1 (resampling (normW g y p.1) p.2) :=
          measurable_gather.comp (measurable_fst.prodMk (hrm.comp (((measurable_normW hgm y).comp measurable_fst).prodMk measurable_snd)))
        exact Finset.measurable_sum _ fun j _ => hmL.comp (measurable_pi_iff.1 hga j)
    have h3 : ∫⁻ k, ENNReal.ofReal ((∑ i, g y (transition s k i)) / n) * ((n : ENNReal)⁻¹
          * ∑ j, markovLik P g f ys (cloudStep g transition resampling splitFst s y k j)) ∂ν
        = ∫⁻ z, ∫⁻ k, h (z, k) ∂ν' ∂(ν.map (transition s)) := by
      have : IsProbabilityMeasure (ν.map (transition s)) := Measure.isProbabilityMeasure_map hts.aemeasurable
      rw [← lintegral_prod _ hhm.aemeasurable, ← hind, lintegral_map hhm (hts.prodMk hsm)]
      rfl
    rw [h3]
    have h4 : ∀ z, ∫⁻ k, h (z, k) ∂ν' = (n : ENNReal)⁻¹ * ∑ i, ENNReal.ofReal (g y (z i)) * markovLik P g f ys (z i) := by
      intro z
      have hpos : 0 < ∑ i, g y (z i) := Finset.sum_pos (fun i _ => hg y (z i)) ⟨0, Finset.mem_univ _⟩
      have hw0 : ∀ i, 0 ≤ normW g y z i := fun i => div_nonneg (hg y _).le hpos.le
      have hw1 : ∑ i, normW g y z i = 1 := by
        simp only [normW]
        rw [← Finset.sum_div, div_self hpos.ne']
      have hrz : Measurable fun k => resampling (normW g y z) k := hrm.comp (measurable_const.prodMk measurable_id)
      have hset : ∀ i j : Fin n, MeasurableSet {k | resampling (normW g y z) k j = i} := fun i j =>
        ((measurable_pi_apply j).comp hrz) (measurableSet_singleton (i : ℕ))
      have hj : ∀ (k : K) (j : Fin n), markovLik P g f ys (gather z (resampling (normW g y z) k) j)
          = ∑ i : Fin n, Set.indicator {k | resampling (normW g y z) k j = i} (fun _ => markovLik P g f ys (z i)) k := by
        intro k j
        have hr := hrange (normW g y z) k j
        have he : Fin.ofNat n (min (resampling (normW g y z) k j) (n - 1)) = ⟨resampling (normW g y z) k j, hr⟩ := by
          ext
          simp only [Fin.ofNat]
          rw [min_eq_left (by omega), Nat.mod_eq_of_lt hr]
        rw [gather, he, Finset.sum_eq_single (⟨resampling (normW g y z) k j, hr⟩ : Fin n)]
        · rw [Set.indicator_of_mem]; simp
        · intro i _ hi
          rw [Set.indicator_of_notMem]
          intro hk
          exact hi (Fin.ext hk.symm)
        · intro hk; exact absurd (Finset.mem_univ _) hk
      have hsumm : Measurable fun k => ∑ j, markovLik P g f ys (gather z (resampling (normW g y z) k) j) := by
        have hga : Measurable fun k => gather z (resampling (normW g y z) k) := measurable_gather.comp (measurable_const.prodMk hrz)
        exact Finset.measurable_sum _ fun j _ => hmL.comp (measurable_pi_iff.1 hga j)
      change ∫⁻ k, ENNReal.ofReal ((∑ i, g y (z i)) / n) * ((n : ENNReal)⁻¹
        * ∑ j, markovLik P g f ys (gather z (resampling (normW g y z) k) j)) ∂ν' = _
      rw [lintegral_const_mul _ (hsumm.const_mul _), lintegral_const_mul _ hsumm]
      have h5 : ∫⁻ k, ∑ j, markovLik P g f ys (gather z (resampling (normW g y z) k) j) ∂ν'
          = ∑ i, ENNReal.ofReal (n * normW g y z i) * markovLik P g f ys (z i) := by
        simp only [hj]
        rw [lintegral_finsetSum _ fun j _ => Finset.measurable_sum _ fun i _ => measurable_const.indicator (hset i j)]
        have : ∀ j, ∫⁻ k, ∑ i : Fin n, Set.indicator {k | resampling (normW g y z) k j = i} (fun _ => markovLik P g f ys (z i)) k ∂ν'
            = ∑ i : Fin n, markovLik P g f ys (z i) * ν' {k | resampling (normW g y z) k j = i} := by
          intro j
          rw [lintegral_finsetSum _ fun i _ => measurable_const.indicator (hset i j)]
          refine Finset.sum_congr rfl fun i _ => ?_
          rw [lintegral_indicator_const (hset i j)]
        simp only [this]
        rw [Finset.sum_comm]
        refine Finset.sum_congr rfl fun i _ => ?_
        rw [← Finset.mul_sum, hres _ hw0 hw1, mul_comm]
      rw [h5, mul_left_comm, Finset.mul_sum]
      congr 1
      refine Finset.sum_congr rfl fun i _ => ?_
      rw [← mul_assoc, ← ENNReal.ofReal_mul (by positivity)]
      congr 2
      rw [normW]
      field_simp
    simp only [h4]
    have hmi : ∀ i : Fin n, Measurable fun z : Fin n → X => ENNReal.ofReal (g y (z i)) * markovLik P g f ys (z i) := fun i =>
      (hgz i).ennreal_ofReal.mul (hmL.comp (measurable_pi_apply i))
    rw [lintegral_const_mul _ (Finset.measurable_sum _ fun i _ => hmi i), lintegral_finsetSum _ fun i _ => hmi i]
    congr 1
    refine Finset.sum_congr rfl fun i _ => ?_
    have hmx : Measurable fun x => ENNReal.ofReal (g y x) * markovLik P g f ys x := (hgm y).ennreal_ofReal.mul hmL
    rw [lintegral_map (hmi i) hts, markovLik, ← htr s i, lintegral_map hmx (measurable_pi_iff.1 hts i)]

omit [MeasurableSpace X] [MeasurableSpace K] in
/-- the code's outputs in terms of `runW`. -/
theorem runW_eq (hg : ∀ y x, 0 < g y x) (ys : List Y) (keys : Fin ys.length → K) (s : Fin n → X) (r : ℝ) :
    let R := scan (bootstrapBody transition (fun y s i => g y (s i)) (resampleIdx resampling) splitFst) (s, r) (ys.zip (List.ofFn keys))
    ENNReal.ofReal (Real.exp (-R.1.2)) * ((n : ENNReal)⁻¹ * ∑ j, f (R.2.getLastD s j))
      = ENNReal.ofReal (Real.exp (-r)) * runW g f transition resampling splitFst ys s keys := by
  induction ys generalizing s r with
  | nil => rfl
  | cons y ys ih =>
    have hn1 : (0 : ℝ) < n := Nat.cast_pos.2 (Nat.pos_of_ne_zero (NeZero.ne n))
    have hpos : 0 < (∑ i, g y (transition s (keys 0) i)) / n :=
      div_pos (Finset.sum_pos (fun i _ => hg y _) ⟨0, Finset.mem_univ _⟩) hn1
    have hz : (y :: ys).zip (List.ofFn keys) = (y, keys 0) :: ys.zip (List.ofFn (Fin.tail keys)) := by
      have : List.ofFn keys = keys 0 :: List.ofFn (Fin.tail keys) := List.ofFn_succ
      rw [this, List.zip_cons_cons]
    have h := ih (Fin.tail keys) (cloudStep g transition resampling splitFst s y (keys 0))
      (r - Real.log ((∑ i, g y (transition s (keys 0) i)) / n))
    dsimp only at h ⊢
    rw [hz, runW, ← mul_assoc (ENNReal.ofReal (Real.exp (-r))), ← ENNReal.ofReal_mul (Real.exp_pos _).le]
    have he : Real.exp (-(r - Real.log ((∑ i, g y (transition s (keys 0) i)) / n)))
        = Real.exp (-r) * ((∑ i, g y (transition s (keys 0) i)) / n) := by
      rw [neg_sub, sub_eq_add_neg, Real.exp_add, Real.exp_log hpos, mul_comm]
    rw [he] at h
    rw [← h]
    simp only [scan, bootstrapBody, List.getLastD_cons]
    rfl

end

/-- **C107.** With idealised random keys and an unbiased resampling scheme, `exp(-nell)` returned by `bootstrap_filter` is an
unbiased estimate of the likelihood of the measurements, for every number of particles; more generally
`exp(-nell)` times the average of `f` over the last cloud is an unbiased estimate of `E[f(x_T) p(y_{1:T} | x_{0:T})]`, for every
measurable `f ≥ 0`. Here the transition sampler moves every particle with the kernel `P`, the initial particles have law `μ0`, and
the likelihood is positive; `keysOf key` are the `T` keys made by `split(key, T)`. -/
theorem C107_bootstrap_unbiased (transition : (Fin n → X) → K → Fin n → X) (g : Y → X → ℝ) (ys : List Y) (init : K → Fin n → X)
    (resampling : (Fin n → ℝ) → K → Fin n → ℕ) (splitFst : K → K) (splitN : K → ℕ → List K) (keysOf : K → Fin ys.length → K)
    (ρ ν ν' : Measure K) [IsProbabilityMeasure ν] [IsProbabilityMeasure ν'] (P : Kernel X X) (μ : Measure (Fin n → X))
    [IsProbabilityMeasure μ] (μ0 : Measure X)
    (hgm : ∀ y, Measurable (g y)) (hg : ∀ y x, 0 < g y x)
    (htm : Measurable fun p : (Fin n → X) × K => transition p.1 p.2) (hrm : Measurable fun p : (Fin n → ℝ) × K => resampling p.1 p.2)
    (hsm : Measurable splitFst) (hsplit : ∀ key, splitN key ys.length = List.ofFn (keysOf key))
    (hideal : ρ.map (fun key => (init key, keysOf key)) = μ.prod (Measure.pi fun _ => ν)) (hinit : ∀ j, μ.map (fun s => s j) = μ0)
    (hind : ∀ s, ν.map (fun k => (transition s k, splitFst k)) = (ν.map (transition s)).prod ν')
    (htr : ∀ s j, ν.map (fun k => transition s k j) = P (s j)) (hrange : ∀ w k j, resampling w k j < n)
    (hres : ∀ w : Fin n → ℝ, (∀ i, 0 ≤ w i) → ∑ i, w i = 1 → ∀ i : Fin n, ∑ j, ν' {k | resampling w k j = i} = ENNReal.ofReal (n * w i)) :
    (∀ f : X → ENNReal, Measurable f →
      ∫⁻ key, ENNReal.ofReal (Real.exp (-(bootstrapFilter transition (fun y s i => g y (s i)) ys init key (resampleIdx resampling) splitFst splitN).2))
          * ((n : ENNReal)⁻¹ * ∑ j, f ((bootstrapFilter transition (fun y s i => g y (s i)) ys init key (resampleIdx resampling) splitFst
            splitN).1.getLastD (init key) j)) ∂ρ
        = ∫⁻ x, markovLik P g f ys x ∂μ0) ∧
    ∫⁻ key, ENNReal.ofReal (Real.exp (-(bootstrapFilter transition (fun y s i => g y (s i)) ys init key (resampleIdx resampling) splitFst
        splitN).2)) ∂ρ
      = ∫⁻ x, markovLik P g (fun _ => 1) ys x ∂μ0 := by
  have hn0 : (n : ENNReal) ≠ 0 := Nat.cast_ne_zero.2 (NeZero.ne n)
  have main : ∀ f : X → ENNReal, Measurable f →
      ∫⁻ key, ENNReal.ofReal (Real.exp (-(bootstrapFilter transition (fun y s i => g y (s i)) ys init key (resampleIdx resampling) splitFst splitN).2))
          * ((n : ENNReal)⁻¹ * ∑ j, f ((bootstrapFilter transition (fun y s i => g y (s i)) ys init key (resampleIdx resampling) splitFst
            splitN).1.getLastD (init key) j)) ∂ρ
        = ∫⁻ x, markovLik P g f ys x ∂μ0 := by
    intro f hf
    have hmW := measurable_runW (n := n) hgm hf htm hrm hsm ys
    have hmL := measurable_markovLik P hgm hf ys
    have h1 : ∀ key, ENNReal.ofReal (Real.exp (-(bootstrapFilter transition (fun y s i => g y (s i)) ys init key (resampleIdx resampling) splitFst
          splitN).2)) * ((n : ENNReal)⁻¹ * ∑ j, f ((bootstrapFilter transition (fun y s i => g y (s i)) ys init key (resampleIdx resampling)
            splitFst splitN).1.getLastD (init key) j))
        = runW g f transition resampling splitFst ys (init key) (keysOf key) := by
      intro key
      have h := runW_eq (f := f) (transition := transition) (resampling := resampling) (splitFst := splitFst) hg ys (keysOf key) (init key) 0
      dsimp only at h
      rw [neg_zero, Real.exp_zero, ENNReal.ofReal_one, one_mul, ← hsplit] at h
      exact h
    simp only [h1]
    have hne : ρ.map (fun key => (init key, keysOf key)) ≠ 0 := by
      rw [hideal]; exact IsProbabilityMeasure.ne_zero _
    have hae : AEMeasurable (fun key => (init key, keysOf key)) ρ := by
      by_contra hc
      exact hne (Measure.map_of_not_aemeasurable hc)
    rw [← lintegral_map' (f := fun p : (Fin n → X) × (Fin ys.length → K) => runW g f transition resampling splitFst ys p.1 p.2)
      hmW.aemeasurable hae, hideal, lintegral_prod _ hmW.aemeasurable]
    simp only [lintegral_runW P hgm hg hf htm hrm hsm hind htr hrange hres]
    have hmj : ∀ j : Fin n, Measurable fun s : Fin n → X => markovLik P g f ys (s j) := fun j => hmL.comp (measurable_pi_apply j)
    rw [lintegral_const_mul _ (Finset.measurable_sum _ fun j _ => hmj j), lintegral_finsetSum _ fun j _ => hmj j]
    have h2 : ∀ j : Fin n, ∫⁻ s, markovLik P g f ys (s j) ∂μ = ∫⁻ x, markovLik P g f ys x ∂μ0 := by
      intro j
      rw [← hinit j, lintegral_map hmL (measurable_pi_apply j)]
    simp only [h2]
    rw [Finset.sum_const, Finset.card_univ, Fintype.card_fin, nsmul_eq_mul, ← mul_assoc,
      ENNReal.inv_mul_cancel hn0 (ENNReal.natCast_ne_top n), one_mul]
  refine ⟨main, ?_⟩
  rw [← main (fun _ => 1) measurable_const]
  refine lintegral_congr fun key => ?_
  rw [Finset.sum_const, Finset.card_univ, Fintype.card_fin, nsmul_eq_mul, mul_one,
    ENNReal.inv_mul_cancel hn0 (ENNReal.natCast_ne_top n), mul_one]

/-! ### the resampling schemes meet the hypotheses -/

section schemes
open Mfs.Resampling

/-- `jnp.searchsorted` as the number of smaller entries (this is its specification on sorted arrays). -/
noncomputable def ssCount (a : List ℝ) (v : ℝ) : ℕ := a.countP fun x => decide (x < v)

omit [NeZero n] in
theorem sos_getD (ss : List ℝ → ℝ → ℕ) (w : Fin n → ℝ) (u : ℕ → ℝ) (j : Fin n) :
    (systematicOrStratified ss (List.ofFn w) u).getD j 0 = min (ss (cumsum (List.ofFn w)) (((j : ℕ) + u j) / n)) (n - 1) := by
  rw [systematicOrStratified, List.getD_eq_getElem?_getD]
  simp [List.length_ofFn]

omit [NeZero n] in
theorem measurable_S (j : ℕ) : Measurable fun w : Fin n → ℝ => S (List.ofFn w) j := by
  simp only [S, List.sum_take_ofFn]
  exact Finset.measurable_sum _ fun i _ => measurable_pi_apply i

omit [NeZero n] in
theorem measurable_ssCount : Measurable fun p : (Fin n → ℝ) × ℝ => ssCount (cumsum (List.ofFn p.1)) p.2 := by
  have h : ∀ l : List ℕ, Measurable fun p : (Fin n → ℝ) × ℝ => l.countP fun i => decide (S (List.ofFn p.1) (i + 1) < p.2) := by
    intro l
    induction l with
    | nil => exact measurable_const
    | cons a l ih =>
      simp only [List.countP_cons, decide_eq_true_eq]
      exact ih.add (Measurable.ite (measurableSet_lt ((measurable_S _).comp measurable_fst) measurable_snd) measurable_const measurable_const)
  simp only [ssCount, cumsum_eq, List.countP_map, List.length_ofFn]
  exact h (List.range n)

theorem count_map_range (N i : ℕ) (F : ℕ → ℕ) : ((List.range N).map F).count i = ∑ j : Fin N, if F j = i then 1 else 0 := by
  induction N with
  | zero => rfl
  | succ N ih =>
    rw [List.range_succ, List.map_append, List.count_append, ih, Fin.sum_univ_castSucc]
    simp [List.count_singleton]

theorem measurable_count_sos {Ω : Type} [MeasurableSpace Ω] (W : List ℝ) (i : ℕ) (u : Ω → ℕ → ℝ) (hu : ∀ j, Measurable fun k => u k j) :
    Measurable fun k => (systematicOrStratified ssCount W (u k)).count i := by
  simp only [systematicOrStratified, count_map_range]
  refine Finset.measurable_sum _ fun j _ => ?_
  have hc : Measurable fun v : ℝ => ssCount (cumsum W) v := by
    have := (measurable_ssCount (n := W.length)).comp (measurable_const (a := fun i => W[i]) |>.prodMk measurable_id)
    simpa [Function.comp_def] using this
  have h1 : Measurable fun k => min (ssCount (cumsum W) ((((j : ℕ) : ℝ) + u k j) / W.length)) (W.length - 1) :=
    (hc.comp (((hu j).const_add _).div_const _)).min measurable_const
  exact Measurable.ite (h1 (measurableSet_singleton i)) measurable_const measurable_const

/-- **C107 (schemes).** Systematic and stratified resampling meet the hypotheses of `C107_bootstrap_unbiased` when the key `k` gives
uniform draws (`draw k j` is added to `j`; one draw for all `j` when systematic). -/
theorem C107_schemes (ν' : Measure K) [IsProbabilityMeasure ν'] (resampling : (Fin n → ℝ) → K → Fin n → ℕ)
    (hr : (∃ draw : K → ℝ, Measurable draw ∧ ν'.map draw = (volume : Measure ℝ).restrict (Set.Ico 0 1) ∧
        ∀ w k j, resampling w k j = (systematic ssCount (List.ofFn w) (draw k)).getD j 0) ∨
      (∃ draws : K → Fin n → ℝ, Measurable draws ∧ ν'.map draws = Measure.pi (fun _ => (volume : Measure ℝ).restrict (Set.Ico 0 1)) ∧
        ∀ w k j, resampling w k j = (stratified ssCount (List.ofFn w) (extend (draws k))).getD j 0)) :
    Measurable (fun p : (Fin n → ℝ) × K => resampling p.1 p.2) ∧ (∀ w k j, resampling w k j < n) ∧
    ∀ w : Fin n → ℝ, (∀ i, 0 ≤ w i) → ∑ i, w i = 1 → ∀ i : Fin n, ∑ j, ν' {k | resampling w k j = i} = ENNReal.ofReal (n * w i) := by
  have hn : 0 < n := Nat.pos_of_ne_zero (NeZero.ne n)
  have hss : SearchSorted ssCount := fun _ _ _ => rfl
  -- both schemes are one function of the draws
  obtain ⟨u, hu, hru, hint⟩ : ∃ u : K → ℕ → ℝ, (∀ j, Measurable fun k => u k j) ∧
      (∀ w k j, resampling w k j = (systematicOrStratified ssCount (List.ofFn w) (u k)).getD j 0) ∧
      ∀ (w : List ℝ), w.length = n → (∀ a ∈ w, 0 ≤ a) → w.sum = 1 → ∀ (i : ℕ) (hi : i < w.length),
        ∫ k, ((systematicOrStratified ssCount w (u k)).count i : ℝ) ∂ν' = n * w[i] := by
    rcases hr with ⟨draw, hd, hlaw, hr⟩ | ⟨draws, hds, hlaws, hr⟩
    · refine ⟨fun k _ => draw k, fun _ => hd, hr, fun w hwn hw hsum i hi => ?_⟩
      have hm : Measurable fun v : ℝ => ((systematic ssCount w v).count i : ℝ) :=
        measurable_from_nat.comp (measurable_count_sos w i (fun v _ => v) fun _ => measurable_id)
      have h := C90_systematic_unbiased hss w hw hsum i hi
      rw [← hlaw, integral_map hd.aemeasurable hm.aestronglyMeasurable, hwn] at h
      exact h
    · have hx : ∀ j, Measurable fun v : Fin n → ℝ => extend v j := by
        intro j
        simp only [extend]
        split_ifs with h
        · exact measurable_pi_apply _
        · exact measurable_const
      refine ⟨fun k => extend (draws k), fun j => (hx j).comp hds, hr, fun w hwn hw hsum i hi => ?_⟩
      subst hwn
      have hm : Measurable fun v : Fin w.length → ℝ => ((stratified ssCount w (extend v)).count i : ℝ) :=
        measurable_from_nat.comp (measurable_count_sos w i (fun v => extend v) hx)
      have h := C90_stratified_unbiased hss w hw hsum i hi
      rw [← hlaws, integral_map hds.aemeasurable hm.aestronglyMeasurable] at h
      exact h
  have hidx : ∀ w k (j : Fin n), resampling w k j = min (ssCount (cumsum (List.ofFn w)) (((j : ℕ) + u k j) / n)) (n - 1) := by
    intro w k j
    rw [hru, sos_getD]
  have hmeas : Measurable fun p : (Fin n → ℝ) × K => resampling p.1 p.2 := by
    refine measurable_pi_lambda _ fun j => ?_
    simp only [hidx]
    have h1 : Measurable fun p : (Fin n → ℝ) × K => (p.1, (((j : ℕ) : ℝ) + u p.2 j) / n) :=
      measurable_fst.prodMk ((((hu j).comp measurable_snd).const_add _).div_const _)
    exact (measurable_ssCount.comp h1).min measurable_const
  refine ⟨hmeas, fun w k j => by rw [hidx]; omega, fun w hw hw1 i => ?_⟩
  have hset : ∀ j : Fin n, MeasurableSet {k | resampling w k j = i} := fun j =>
    (measurable_pi_iff.1 (hmeas.comp (measurable_const (a := w) |>.prodMk measurable_id)) j) (measurableSet_singleton (i : ℕ))
  have hcount : ∀ k, ((systematicOrStratified ssCount (List.ofFn w) (u k)).count (i : ℕ) : ENNReal)
      = ∑ j, Set.indicator {k | resampling w k j = i} 1 k := by
    intro k
    rw [systematicOrStratified, count_map_range, List.length_ofFn]
    push_cast
    refine Finset.sum_congr rfl fun j _ => ?_
    simp only [Set.indicator_apply, Set.mem_ofPred_eq, hidx, Pi.one_apply]
  have h1 : ∑ j, ν' {k | resampling w k j = i} = ∫⁻ k, ((systematicOrStratified ssCount (List.ofFn w) (u k)).count (i : ℕ) : ENNReal) ∂ν' := by
    simp only [hcount]
    rw [lintegral_finsetSum _ fun j _ => measurable_one.indicator (hset j)]
    simp only [lintegral_indicator_one (hset _)]
  have hwl : ∀ a ∈ List.ofFn w, 0 ≤ a := by
    intro a ha
    obtain ⟨i, rfl⟩ := List.mem_ofFn.1 ha
    exact hw i
  have hsum : (List.ofFn w).sum = 1 := by rw [List.sum_ofFn, hw1]
  have hi : (i : ℕ) < (List.ofFn w).length := by rw [List.length_ofFn]; exact i.2
  have h2 := hint (List.ofFn w) (List.length_ofFn) hwl hsum i hi
  rw [List.getElem_ofFn] at h2
  rw [h1, ← h2, ofReal_integral_eq_lintegral_ofReal]
  · simp only [ENNReal.ofReal_natCast]
  · have hm : Measurable fun k => ((systematicOrStratified ssCount (List.ofFn w) (u k)).count (i : ℕ) : ℝ) :=
      measurable_from_nat.comp (measurable_count_sos (List.ofFn w) i u hu)
    refine Integrable.of_bound hm.aestronglyMeasurable (n : ℝ) (Filter.Eventually.of_forall fun k => ?_)
    have := List.count_le_length (a := (i : ℕ)) (l := systematicOrStratified ssCount (List.ofFn w) (u k))
    rw [systematicOrStratified, List.length_map, List.length_range, List.length_ofFn] at this
    simpa [systematicOrStratified] using this
  · exact Filter.Eventually.of_forall fun k => Nat.cast_nonneg _

end schemes

/-- non-vacuity: two particles, independent standard normal states, systematic resampling, one measurement. A key holds two normal
draws and one uniform draw; splitting a key keeps only the uniform draw. -/
example : let K := (Fin 2 → ℝ) × ℝ
    let γ : Measure (Fin 2 → ℝ) := Measure.pi fun _ => gaussianReal 0 1
    let U : Measure ℝ := (volume : Measure ℝ).restrict (Set.Ico 0 1)
    let ν : Measure K := γ.prod U
    let ν' : Measure K := (Measure.dirac 0).prod U
    let transition : (Fin 2 → ℝ) → K → Fin 2 → ℝ := fun _ k => k.1
    let splitFst : K → K := fun k => (0, k.2)
    let resampling : (Fin 2 → ℝ) → K → Fin 2 → ℕ := fun w k j => (Resampling.systematic ssCount (List.ofFn w) k.2).getD j 0
    let keysOf : K → Fin [(1 : ℝ)].length → K := fun k _ => k
    let P : Kernel ℝ ℝ := Kernel.const ℝ (gaussianReal 0 1)
    IsProbabilityMeasure ν ∧ IsProbabilityMeasure ν' ∧ Measurable (fun p : (Fin 2 → ℝ) × K => transition p.1 p.2) ∧
    Measurable (fun p : (Fin 2 → ℝ) × K => resampling p.1 p.2) ∧ Measurable splitFst ∧
    ν.map (fun key => ((0 : Fin 2 → ℝ), keysOf key)) = (Measure.dirac 0).prod (Measure.pi fun _ => ν) ∧
    (∀ s, ν.map (fun k => (transition s k, splitFst k)) = (ν.map (transition s)).prod ν') ∧
    (∀ s j, ν.map (fun k => transition s k j) = P (s j)) ∧ (∀ w k j, resampling w k j < 2) ∧
    (∀ w : Fin 2 → ℝ, (∀ i, 0 ≤ w i) → ∑ i, w i = 1 → ∀ i : Fin 2, ∑ j, ν' {k | resampling w k j = i} = ENNReal.ofReal ((2 : ℕ) * w i)) := by
  intro K γ U ν ν' transition splitFst resampling keysOf P
  have hU : IsProbabilityMeasure U := ⟨by simp [U]⟩
  have hν : IsProbabilityMeasure ν := inferInstance
  have hν' : IsProbabilityMeasure ν' := inferInstance
  have hs := C107_schemes (n := 2) ν' resampling (Or.inl ⟨Prod.snd, measurable_snd, by
    rw [Measure.map_snd_prod, measure_univ, one_smul], fun _ _ _ => rfl⟩)
  have hsplit : Measurable splitFst := measurable_const.prodMk measurable_snd
  have hfst : ν.map Prod.fst = γ := by rw [Measure.map_fst_prod, measure_univ, one_smul]
  refine ⟨hν, hν', measurable_fst.comp measurable_snd, hs.1, hsplit, ?_, ?_, ?_, hs.2.1, hs.2.2⟩
  · rw [Measure.dirac_prod]
    have h := (measurePreserving_funUnique ν (Fin 1)).symm.map_eq
    have h2 : ν.map (fun key => ((0 : Fin 2 → ℝ), keysOf key)) = (ν.map keysOf).map (Prod.mk 0) := by
      have hk : Measurable keysOf := measurable_pi_lambda _ fun _ => measurable_id
      rw [Measure.map_map measurable_prodMk_left hk]
      rfl
    rw [h2]
    exact congrArg (Measure.map (Prod.mk 0)) h
  · intro s
    show (γ.prod U).map (fun k => (k.1, ((0 : Fin 2 → ℝ), k.2))) = (ν.map Prod.fst).prod ((Measure.dirac 0).prod U)
    rw [hfst, Measure.dirac_prod]
    have h := Measure.map_prod_map γ U measurable_id (measurable_prodMk_left (x := (0 : Fin 2 → ℝ)) (β := ℝ))
    rw [Measure.map_id] at h
    rw [h]
    rfl
  · intro s j
    have h1 : (fun k => transition s k j) = (fun z : Fin 2 → ℝ => z j) ∘ Prod.fst := rfl
    rw [h1, ← Measure.map_map (measurable_pi_apply j) measurable_fst, hfst]
    exact (measurePreserving_eval (fun _ : Fin 2 => gaussianReal 0 1) j).map_eq

end Mfs.Props

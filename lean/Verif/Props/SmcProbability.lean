import Verif.Props.SmcProposal

/-!
# C178: the particle filters converge in probability for every integrable function
-/

namespace Mfs.Props

open Mfs.Smc Mfs.Spec Mfs.OrderStat MeasureTheory ProbabilityTheory Filter Topology

variable {X X' Y K : Type} {n : ℕ} [NeZero n] [MeasurableSpace X] [MeasurableSpace X'] [MeasurableSpace K]

/-- a function cut off at `R` and `-R`. -/
noncomputable def cutoff (f : X' → ℝ) (R : ℝ) (x : X') : ℝ := max (-R) (min (f x) R)

theorem measurable_cutoff {f : X' → ℝ} (hf : Measurable f) (R : ℝ) : Measurable (cutoff f R) := measurable_const.max (hf.min measurable_const)

omit [MeasurableSpace X'] in
theorem abs_cutoff_le (f : X' → ℝ) {R : ℝ} (hR : 0 ≤ R) (x : X') : |cutoff f R x| ≤ R := by
  rw [cutoff, abs_le]
  exact ⟨le_max_left _ _, max_le (by linarith) (min_le_right _ _)⟩

omit [MeasurableSpace X'] in
theorem cutoff_eq (f : X' → ℝ) {R : ℝ} {x : X'} (h : |f x| ≤ R) : cutoff f R x = f x := by
  rw [abs_le] at h
  rw [cutoff, min_eq_left h.2, max_eq_right h.1]

omit [MeasurableSpace X'] in
theorem abs_sub_cutoff_le (f : X' → ℝ) {R : ℝ} (hR : 0 ≤ R) (x : X') : |f x - cutoff f R x| ≤ |f x| := by
  rcases le_total (|f x|) R with h | h
  · rw [cutoff_eq f h]; simp
  · rcases le_abs.1 h with h1 | h1
    · rw [cutoff, min_eq_right h1, max_eq_right (by linarith), abs_of_nonneg (by linarith), abs_of_nonneg (by linarith)]; linarith
    · rw [cutoff, min_eq_left (by linarith), max_eq_left (by linarith), abs_of_nonpos (by linarith), abs_of_nonpos (by linarith)]; linarith

/-- the mass cut off tends to zero. -/
theorem tendsto_cutoff (η : Measure X') {f : X' → ℝ} (hf : Measurable f) (hi : Integrable f η) :
    Tendsto (fun R : ℕ => ∫ x, |f x - cutoff f R x| ∂η) atTop (𝓝 0) := by
  have h := tendsto_integral_of_dominated_convergence (μ := η) (F := fun (R : ℕ) x => |f x - cutoff f R x|) (f := fun _ => (0 : ℝ)) (fun x => |f x|)
    (fun R => (hf.sub (measurable_cutoff hf R)).abs.aestronglyMeasurable) hi.abs
    (fun R => Eventually.of_forall fun x => by
      rw [Real.norm_eq_abs, abs_abs]; exact abs_sub_cutoff_le f (Nat.cast_nonneg R) x)
    (Eventually.of_forall fun x => by
      refine tendsto_const_nhds.congr' ?_
      obtain ⟨N, hN⟩ := exists_nat_ge (|f x|)
      filter_upwards [eventually_ge_atTop N] with R hR
      rw [cutoff_eq f (hN.trans (by exact_mod_cast hR)), sub_self, abs_zero])
  simpa using h

section
variable (transition : Y → (Fin n → X) → K → Fin n → X) (g : Y → X → ℝ) (ys : List Y) (init : K → Fin n → X)
    (resampling : (Fin n → ℝ) → K → Fin n → ℕ) (splitFst : K → K) (keysOf : K → Fin ys.length → K)
    (ρ ν ν' : Measure K) [IsProbabilityMeasure ν] [IsProbabilityMeasure ν'] (P : Y → Kernel X X) [∀ y, IsMarkovKernel (P y)]
    (μ0 : Measure X) [IsProbabilityMeasure μ0] (G : ℝ)

/-- the unnormalised estimate is unbiased. -/
theorem runR_mean
    (hgm : ∀ y, Measurable (g y)) (hg : ∀ y x, 0 < g y x) (hgG : ∀ y x, g y x ≤ G)
    (htm : ∀ y, Measurable fun p : (Fin n → X) × K => transition y p.1 p.2) (hrm : Measurable fun p : (Fin n → ℝ) × K => resampling p.1 p.2)
    (hsm : Measurable splitFst)
    (hideal : ρ.map (fun key => (init key, keysOf key)) = (Measure.pi fun _ => μ0).prod (Measure.pi fun _ => ν))
    (hind : ∀ y s, ν.map (fun k => (transition y s k, splitFst k)) = (Measure.pi fun j => P y (s j)).prod ν')
    (hrange : ∀ w k j, resampling w k j < n)
    (hres : ∀ w : Fin n → ℝ, (∀ i, 0 ≤ w i) → ∑ i, w i = 1 → ∀ i : Fin n, ∑ j, ν' {k | resampling w k j = i} = ENNReal.ofReal (n * w i))
    (hvar : ∀ w : Fin n → ℝ, (∀ i, 0 ≤ w i) → ∑ i, w i = 1 → ∀ φ : Fin n → ℝ,
      ∫ k, ((∑ j, gather φ (resampling w k) j) / n - ∑ i, w i * φ i) ^ 2 ∂ν' ≤ (∑ i, w i * (φ i - ∑ i, w i * φ i) ^ 2) / n)
    (hae : AEMeasurable (fun key => (init key, keysOf key)) ρ)
    (f : X → ℝ) (hf : Measurable f) (F : ℝ) (hfF : ∀ x, |f x| ≤ F) :
    ∫ key, runR g f transition resampling splitFst ys (init key) (keysOf key) ∂ρ = ∫ x, markovEY P g f ys x ∂μ0 := by
  have hn1 : (n : ℝ) ≠ 0 := Nat.cast_ne_zero.2 (NeZero.ne n)
  have hmW := measurable_runR (n := n) hgm hf htm hrm hsm ys
  have hmL := measurable_markovEY P hgm hf ys
  have hbL := abs_markovEY_le P hg hgG hfF ys
  have hbW := abs_runR_le (transition := transition) (resampling := resampling) (splitFst := splitFst) hg hgG hfF ys
  have hmom := runR_moments (ν := ν) P hgm hg hgG hf hfF htm hrm hsm hind (mean_of_counts ν' resampling hrm hrange hres) hvar ys
  rw [← integral_map (f := fun p : (Fin n → X) × (Fin ys.length → K) => runR g f transition resampling splitFst ys p.1 p.2)
    hae hmW.aestronglyMeasurable, hideal, integral_prod _ (integrable_of_abs_le _ hmW fun p => hbW _ _)]
  simp only [(hmom _).1]
  rw [integral_div, integral_finsetSum]
  · have h1 : ∀ j : Fin n, ∫ s : Fin n → X, markovEY P g f ys (s j) ∂(Measure.pi fun _ => μ0) = ∫ x, markovEY P g f ys x ∂μ0 := fun j =>
      integral_comp_eval (μ := fun _ : Fin n => μ0) (i := j) hmL.aestronglyMeasurable
    simp only [h1, Finset.sum_const, Finset.card_univ, Fintype.card_fin, nsmul_eq_mul]
    rw [mul_div_cancel_left₀ _ hn1]
  · exact fun j _ => integrable_comp_eval (μ := fun _ : Fin n => μ0) (i := j) (integrable_of_abs_le μ0 hmL hbL)

/-- the same as a bound for unbounded functions. -/
theorem runR_lintegral_le
    (hgm : ∀ y, Measurable (g y)) (hg : ∀ y x, 0 < g y x) (hgG : ∀ y x, g y x ≤ G)
    (htm : ∀ y, Measurable fun p : (Fin n → X) × K => transition y p.1 p.2) (hrm : Measurable fun p : (Fin n → ℝ) × K => resampling p.1 p.2)
    (hsm : Measurable splitFst)
    (hideal : ρ.map (fun key => (init key, keysOf key)) = (Measure.pi fun _ => μ0).prod (Measure.pi fun _ => ν))
    (hind : ∀ y s, ν.map (fun k => (transition y s k, splitFst k)) = (Measure.pi fun j => P y (s j)).prod ν')
    (hrange : ∀ w k j, resampling w k j < n)
    (hres : ∀ w : Fin n → ℝ, (∀ i, 0 ≤ w i) → ∑ i, w i = 1 → ∀ i : Fin n, ∑ j, ν' {k | resampling w k j = i} = ENNReal.ofReal (n * w i))
    (hvar : ∀ w : Fin n → ℝ, (∀ i, 0 ≤ w i) → ∑ i, w i = 1 → ∀ φ : Fin n → ℝ,
      ∫ k, ((∑ j, gather φ (resampling w k) j) / n - ∑ i, w i * φ i) ^ 2 ∂ν' ≤ (∑ i, w i * (φ i - ∑ i, w i * φ i) ^ 2) / n)
    (hae : AEMeasurable (fun key => (init key, keysOf key)) ρ) [IsFiniteMeasure ρ]
    (pr : X → X') (hpr : Measurable pr) (η : Measure X') (z : ℝ) (hz : 0 ≤ z)
    (hη : ∀ φ : X' → ℝ, Measurable φ → ∀ B, (∀ x, |φ x| ≤ B) → ∫ x, markovEY P g (fun x => φ (pr x)) ys x ∂μ0 = z * ∫ x, φ x ∂η)
    (h : X' → ℝ) (hh : Measurable h) (h0 : ∀ x, 0 ≤ h x) (hi : Integrable h η) :
    ∫⁻ key, ENNReal.ofReal (runR g (fun x => h (pr x)) transition resampling splitFst ys (init key) (keysOf key)) ∂ρ
      ≤ ENNReal.ofReal (z * ∫ x, h x ∂η) := by
  have hn1 : (0 : ℝ) < n := Nat.cast_pos.2 (Nat.pos_of_ne_zero (NeZero.ne n))
  set A := fun key => runR g (fun _ => 1) transition resampling splitFst ys (init key) (keysOf key) with hA
  set cl := fun key => lastCloud g transition resampling splitFst ys (init key) (keysOf key) with hcl
  have hA0 : ∀ key, 0 ≤ A key := by
    intro key
    have : ∀ (ys : List Y) (s : Fin n → X) (keys : Fin ys.length → K), 0 ≤ runR g (fun _ => 1) transition resampling splitFst ys s keys := by
      intro ys
      induction ys with
      | nil => intro s keys; simp only [runR]; positivity
      | cons y ys ih =>
        intro s keys
        simp only [runR]
        exact mul_nonneg (div_nonneg (Finset.sum_nonneg fun i _ => (hg _ _).le) hn1.le) (ih _ _)
    exact this ys _ _
  have hrun : ∀ (φ : X' → ℝ) key, runR g (fun x => φ (pr x)) transition resampling splitFst ys (init key) (keysOf key)
      = A key * ((∑ j, φ (pr (cl key j))) / n) := fun φ key => runR_lastCloud g (fun x => φ (pr x)) transition resampling splitFst ys _ _
  have hm : ∀ φ : X' → ℝ, Measurable φ → AEMeasurable (fun key => runR g (fun x => φ (pr x)) transition resampling splitFst ys (init key) (keysOf key)) ρ :=
    fun φ hφ => (measurable_runR (n := n) hgm (hφ.comp hpr) htm hrm hsm ys).comp_aemeasurable hae
  have ht := lintegral_tendsto_of_tendsto_of_monotone (μ := ρ)
    (f := fun (R : ℕ) key => ENNReal.ofReal (runR g (fun x => min (h (pr x)) R) transition resampling splitFst ys (init key) (keysOf key)))
    (F := fun key => ENNReal.ofReal (runR g (fun x => h (pr x)) transition resampling splitFst ys (init key) (keysOf key)))
    (fun R => (hm (fun x => min (h x) R) (hh.min measurable_const)).ennreal_ofReal)
    (Eventually.of_forall fun key R R' hR => by
      refine ENNReal.ofReal_le_ofReal ?_
      rw [hrun (fun x => min (h x) R), hrun (fun x => min (h x) R')]
      refine mul_le_mul_of_nonneg_left ?_ (hA0 key)
      gcongr)
    (Eventually.of_forall fun key => by
      refine tendsto_const_nhds.congr' ?_
      obtain ⟨N, hN⟩ := exists_nat_ge (∑ j, h (pr (cl key j)))
      filter_upwards [eventually_ge_atTop N] with R hR
      rw [hrun h, hrun (fun x => min (h x) R)]
      refine congrArg (fun c => ENNReal.ofReal (A key * (c / n))) (Finset.sum_congr rfl fun j _ => (min_eq_left ?_).symm)
      refine (Finset.single_le_sum (f := fun j => h (pr (cl key j))) (fun j _ => h0 _) (Finset.mem_univ j)).trans (hN.trans ?_)
      exact_mod_cast hR)
  refine le_of_tendsto' ht fun R => ?_
  have hb : ∀ x, |min (h x) (R : ℝ)| ≤ R := fun x => by
    rw [abs_of_nonneg (le_min (h0 x) (Nat.cast_nonneg R))]; exact min_le_right _ _
  have hmR : Measurable fun x => min (h x) (R : ℝ) := hh.min measurable_const
  have hm1 := runR_mean transition g ys init resampling splitFst keysOf ρ ν ν' P μ0 G hgm hg hgG htm hrm hsm hideal hind hrange hres hvar hae
    (fun x => min (h (pr x)) R) (hmR.comp hpr) R fun x => hb _
  have hint : Integrable (fun key => runR g (fun x => min (h (pr x)) R) transition resampling splitFst ys (init key) (keysOf key)) ρ :=
    Integrable.of_bound (hm (fun x => min (h x) R) hmR).aestronglyMeasurable (G ^ ys.length * R) (Eventually.of_forall fun key => by
      rw [Real.norm_eq_abs]
      exact abs_runR_le (f := fun x => min (h (pr x)) R) hg hgG (fun x => hb _) ys _ _)
  rw [← ofReal_integral_eq_lintegral_ofReal hint (Eventually.of_forall fun key => by
    show (0 : ℝ) ≤ runR g (fun x => min (h (pr x)) R) transition resampling splitFst ys (init key) (keysOf key)
    rw [hrun (fun x => min (h x) R)]
    exact mul_nonneg (hA0 key) (div_nonneg (Finset.sum_nonneg fun j _ => le_min (h0 _) (Nat.cast_nonneg R)) hn1.le)), hm1,
    hη (fun x => min (h x) R) hmR R hb]
  refine ENNReal.ofReal_le_ofReal (mul_le_mul_of_nonneg_left (integral_mono_of_nonneg (Eventually.of_forall fun x => ?_) hi
    (Eventually.of_forall fun x => min_le_left _ _)) hz)
  exact le_min (h0 x) (Nat.cast_nonneg R)

omit [NeZero n] [MeasurableSpace X] [MeasurableSpace K] in
theorem runR_one_pos [NeZero n] {transition : Y → (Fin n → X) → K → Fin n → X} {g : Y → X → ℝ} {resampling : (Fin n → ℝ) → K → Fin n → ℕ}
    {splitFst : K → K} (hg : ∀ y x, 0 < g y x) (ys : List Y) (s : Fin n → X) (keys : Fin ys.length → K) :
    0 < runR g (fun _ => 1) transition resampling splitFst ys s keys := by
  have hn1 : (0 : ℝ) < n := Nat.cast_pos.2 (Nat.pos_of_ne_zero (NeZero.ne n))
  induction ys generalizing s with
  | nil => simp only [runR, Finset.sum_const, Finset.card_univ, Fintype.card_fin, nsmul_eq_mul, mul_one]; exact div_pos hn1 hn1
  | cons y ys ih =>
    simp only [runR]
    exact mul_pos (div_pos (Finset.sum_pos (fun i _ => hg _ _) ⟨0, Finset.mem_univ _⟩) hn1) (ih _ _)

/-- the average of an integrable function over the last cloud is close to its mean with high probability. -/
theorem runR_prob
    (hgm : ∀ y, Measurable (g y)) (hg : ∀ y x, 0 < g y x) (hgG : ∀ y x, g y x ≤ G)
    (htm : ∀ y, Measurable fun p : (Fin n → X) × K => transition y p.1 p.2) (hrm : Measurable fun p : (Fin n → ℝ) × K => resampling p.1 p.2)
    (hsm : Measurable splitFst)
    (hideal : ρ.map (fun key => (init key, keysOf key)) = (Measure.pi fun _ => μ0).prod (Measure.pi fun _ => ν))
    (hind : ∀ y s, ν.map (fun k => (transition y s k, splitFst k)) = (Measure.pi fun j => P y (s j)).prod ν')
    (hrange : ∀ w k j, resampling w k j < n)
    (hres : ∀ w : Fin n → ℝ, (∀ i, 0 ≤ w i) → ∑ i, w i = 1 → ∀ i : Fin n, ∑ j, ν' {k | resampling w k j = i} = ENNReal.ofReal (n * w i))
    (hvar : ∀ w : Fin n → ℝ, (∀ i, 0 ≤ w i) → ∑ i, w i = 1 → ∀ φ : Fin n → ℝ,
      ∫ k, ((∑ j, gather φ (resampling w k) j) / n - ∑ i, w i * φ i) ^ 2 ∂ν' ≤ (∑ i, w i * (φ i - ∑ i, w i * φ i) ^ 2) / n)
    (pr : X → X') (hpr : Measurable pr) (η : Measure X') [IsProbabilityMeasure η] (z : ℝ)
    (hη : ∀ φ : X' → ℝ, Measurable φ → ∀ B, (∀ x, |φ x| ≤ B) → ∫ x, markovEY P g (fun x => φ (pr x)) ys x ∂μ0 = z * ∫ x, φ x ∂η)
    (f : X' → ℝ) (hf : Measurable f) (hi : Integrable f η) (ε R : ℝ) (hε : 0 < ε) (hR : 0 ≤ R) (hcut : ∫ x, |f x - cutoff f R x| ∂η ≤ ε) :
    ρ.real {key | 3 * ε ≤ |(∑ j, f (pr (lastCloud g transition resampling splitFst ys (init key) (keysOf key) j))) / n - ∫ x, f x ∂η|}
      ≤ 4 * (2 * ys.length + 1) * (G ^ ys.length) ^ 2 * (R ^ 2 / ε ^ 2 + 1) / (n * z ^ 2) + 2 / ε * ∫ x, |f x - cutoff f R x| ∂η := by
  have hn1 : (0 : ℝ) < n := Nat.cast_pos.2 (Nat.pos_of_ne_zero (NeZero.ne n))
  have hae : AEMeasurable (fun key => (init key, keysOf key)) ρ := by
    by_contra hc
    have := Measure.map_of_not_aemeasurable hc
    rw [hideal] at this
    exact IsProbabilityMeasure.ne_zero _ this
  have hρ : IsFiniteMeasure ρ := by
    refine ⟨?_⟩
    have := Measure.map_apply_of_aemeasurable hae (MeasurableSet.univ (α := (Fin n → X) × (Fin ys.length → K)))
    rw [hideal, measure_univ, Set.preimage_univ] at this
    rw [← this]; exact ENNReal.one_lt_top
  -- the normalising constant
  have hz1 : ∫ x, markovEY P g (fun _ => 1) ys x ∂μ0 = z := by
    have := hη (fun _ => 1) measurable_const 1 (by simp)
    simpa using this
  have hz0 : 0 < z := by
    rw [← hz1, integral_pos_iff_support_of_nonneg (fun x => (markovEY_one_pos P hgm hg hgG ys x).le)]
    · rw [show Function.support (fun x => markovEY P g (fun _ => 1) ys x) = Set.univ from
        Set.eq_univ_of_forall fun x => (markovEY_one_pos P hgm hg hgG ys x).ne']
      simp
    · exact integrable_of_abs_le μ0 (measurable_markovEY P hgm measurable_const ys) (abs_markovEY_le (F := 1) P hg hgG (by simp) ys)
  set A := fun key => runR g (fun _ => 1) transition resampling splitFst ys (init key) (keysOf key) with hA
  set cl := fun key => lastCloud g transition resampling splitFst ys (init key) (keysOf key) with hcl
  have hA0 : ∀ key, 0 < A key := fun key => runR_one_pos hg ys _ _
  have hrun : ∀ (φ : X' → ℝ) key, runR g (fun x => φ (pr x)) transition resampling splitFst ys (init key) (keysOf key)
      = A key * ((∑ j, φ (pr (cl key j))) / n) := fun φ key => runR_lastCloud g (fun x => φ (pr x)) transition resampling splitFst ys _ _
  have hm : ∀ φ : X' → ℝ, Measurable φ → AEMeasurable (fun key => runR g (fun x => φ (pr x)) transition resampling splitFst ys (init key) (keysOf key)) ρ :=
    fun φ hφ => (measurable_runR (n := n) hgm (hφ.comp hpr) htm hrm hsm ys).comp_aemeasurable hae
  have hAm : AEMeasurable A ρ := hm (fun _ => 1) measurable_const
  have havg : ∀ φ : X' → ℝ, Measurable φ → AEMeasurable (fun key => (∑ j, φ (pr (cl key j))) / n) ρ := fun φ hφ =>
    ((hm φ hφ).div hAm).congr (Eventually.of_forall fun key => by
      simp only [Pi.div_apply]
      rw [hrun φ key, mul_div_cancel_left₀ _ (hA0 key).ne'])
  have hmse := fun (φ : X' → ℝ) (hφ : Measurable φ) (B : ℝ) (hB : ∀ x, |φ x| ≤ B) =>
    runR_mse transition g ys init resampling splitFst keysOf ρ ν ν' P μ0 G hgm hg hgG htm hrm hsm hideal hind hrange hres hvar
      (fun x => φ (pr x)) (hφ.comp hpr) B fun x => hB _
  -- the cut off function
  set fR := cutoff f R with hfR
  have hfRm : Measurable fR := measurable_cutoff hf R
  have hfRb : ∀ x, |fR x| ≤ R := abs_cutoff_le f hR
  set S1 := {key | ε ^ 2 ≤ ((∑ j, fR (pr (cl key j))) / n - ∫ x, fR x ∂η) ^ 2} with hS1
  set S2 := {key | (z / 2) ^ 2 ≤ (A key - z) ^ 2} with hS2
  set h := fun x => |f x - fR x| with hh
  have hhm : Measurable h := (hf.sub hfRm).abs
  have hfRi : Integrable fR η := integrable_of_abs_le η hfRm hfRb
  have hhi : Integrable h η := (hi.sub hfRi).abs
  set S3 := {key | ENNReal.ofReal (ε * (z / 2)) ≤ ENNReal.ofReal (runR g (fun x => h (pr x)) transition resampling splitFst ys (init key) (keysOf key))} with hS3
  have hηR : (∫ x, markovEY P g (fun x => fR (pr x)) ys x ∂μ0) / (∫ x, markovEY P g (fun _ => 1) ys x ∂μ0) = ∫ x, fR x ∂η := by
    rw [hη fR hfRm R hfRb, hz1, mul_div_cancel_left₀ _ hz0.ne']
  have h1 : ρ.real S1 ≤ 4 * (2 * ys.length + 1) * (G ^ ys.length * R) ^ 2 / (n * z ^ 2) / ε ^ 2 := by
    have h2 := (hmse fR hfRm R hfRb).2
    rw [hηR, hz1] at h2
    have hint : Integrable (fun key => ((∑ j, fR (pr (cl key j))) / n - ∫ x, fR x ∂η) ^ 2) ρ := by
      refine Integrable.of_bound (((havg fR hfRm).sub_const _).pow_const 2).aestronglyMeasurable ((R + |∫ x, fR x ∂η|) ^ 2) (Eventually.of_forall fun key => ?_)
      rw [Real.norm_eq_abs, abs_pow]
      exact pow_le_pow_left₀ (abs_nonneg _) ((abs_sub _ _).trans (add_le_add_left (abs_mean_le (φ := fun x => fR (pr x)) (fun x => hfRb _) (cl key)) _)) 2
    have h3 := mul_meas_ge_le_integral_of_nonneg (Eventually.of_forall fun key => sq_nonneg _) hint (ε ^ 2)
    rw [le_div_iff₀ (by positivity), mul_comm]
    exact h3.trans h2
  have h2 : ρ.real S2 ≤ 4 * (2 * ys.length + 1) * (G ^ ys.length) ^ 2 / (n * z ^ 2) := by
    have h2 := (hmse (fun _ => 1) measurable_const 1 (by simp)).1
    rw [hz1, mul_one] at h2
    have hint : Integrable (fun key => (A key - z) ^ 2) ρ := by
      refine Integrable.of_bound ((hAm.sub_const _).pow_const 2).aestronglyMeasurable ((G ^ ys.length * 1 + |z|) ^ 2) (Eventually.of_forall fun key => ?_)
      rw [Real.norm_eq_abs, abs_pow]
      exact pow_le_pow_left₀ (abs_nonneg _) ((abs_sub _ _).trans (add_le_add_left (abs_runR_le hg hgG (fun x => by simp) ys _ _) _)) 2
    have h3 : (z / 2) ^ 2 * ρ.real S2 ≤ (2 * ys.length + 1) * (G ^ ys.length) ^ 2 / n :=
      (mul_meas_ge_le_integral_of_nonneg (Eventually.of_forall fun key => sq_nonneg _) hint ((z / 2) ^ 2)).trans h2
    rw [le_div_iff₀ hn1] at h3
    rw [le_div_iff₀ (by positivity)]
    calc ρ.real S2 * (n * z ^ 2) = 4 * ((z / 2) ^ 2 * ρ.real S2 * n) := by ring
      _ ≤ 4 * ((2 * ys.length + 1) * (G ^ ys.length) ^ 2) := by linarith
      _ = _ := by ring
  have h3 : ρ.real S3 ≤ 2 / ε * ∫ x, h x ∂η := by
    have h4 := runR_lintegral_le transition g ys init resampling splitFst keysOf ρ ν ν' P μ0 G hgm hg hgG htm hrm hsm hideal hind hrange hres hvar
      hae pr hpr η z hz0.le hη h hhm (fun x => abs_nonneg _) hhi
    have h5 := (mul_meas_ge_le_lintegral₀ (hm h hhm).ennreal_ofReal (ENNReal.ofReal (ε * (z / 2)))).trans h4
    have h6 := ENNReal.toReal_mono ENNReal.ofReal_ne_top h5
    have hhn : 0 ≤ ∫ x, h x ∂η := integral_nonneg fun x => abs_nonneg _
    rw [ENNReal.toReal_mul, ENNReal.toReal_ofReal (by positivity), ENNReal.toReal_ofReal (by positivity)] at h6
    change ε * (z / 2) * ρ.real S3 ≤ _ at h6
    have h7 : ρ.real S3 * ε ≤ 2 * ∫ x, h x ∂η := by
      refine le_of_mul_le_mul_left (a := z / 2) ?_ (by positivity)
      calc z / 2 * (ρ.real S3 * ε) = ε * (z / 2) * ρ.real S3 := by ring
        _ ≤ z * ∫ x, h x ∂η := h6
        _ = _ := by ring
    rw [div_mul_eq_mul_div, le_div_iff₀ hε]
    exact h7
  have hsub : {key | 3 * ε ≤ |(∑ j, f (pr (cl key j))) / n - ∫ x, f x ∂η|} ⊆ S1 ∪ S2 ∪ S3 := by
    intro key hkey
    by_contra hc
    simp only [Set.mem_union, not_or, hS1, hS2, hS3, Set.mem_ofPred_eq, not_le] at hc
    obtain ⟨⟨c1, c2⟩, c3⟩ := hc
    have c1' := abs_lt_of_sq_lt_sq c1 hε.le
    have c2' := abs_lt_of_sq_lt_sq c2 (by positivity)
    have hAz : z / 2 < A key := by linarith [(abs_lt.1 c2').1]
    have c3' : runR g (fun x => h (pr x)) transition resampling splitFst ys (init key) (keysOf key) < ε * (z / 2) :=
      (ENNReal.ofReal_lt_ofReal_iff (by positivity)).1 c3
    rw [hrun h] at c3'
    have hmean : (∑ j, h (pr (cl key j))) / n < ε := by
      by_contra hge
      rw [not_lt] at hge
      have := mul_le_mul hAz.le hge hε.le (hA0 key).le
      linarith
    have hd : |(∑ j, f (pr (cl key j))) / n - (∑ j, fR (pr (cl key j))) / n| ≤ (∑ j, h (pr (cl key j))) / n := by
      rw [← sub_div, ← Finset.sum_sub_distrib, abs_div, abs_of_pos hn1]
      gcongr
      exact Finset.abs_sum_le_sum_abs _ _
    have he : |∫ x, fR x ∂η - ∫ x, f x ∂η| ≤ ε := by
      rw [← integral_sub hfRi hi]
      refine (abs_integral_le_integral_abs).trans (le_trans (le_of_eq ?_) hcut)
      exact integral_congr_ae (Eventually.of_forall fun x => abs_sub_comm _ _)
    have h8 : |(∑ j, f (pr (cl key j))) / n - ∫ x, f x ∂η| < 3 * ε := by
      have e : (∑ j, f (pr (cl key j))) / n - ∫ x, f x ∂η = ((∑ j, f (pr (cl key j))) / n - (∑ j, fR (pr (cl key j))) / n)
        + ((∑ j, fR (pr (cl key j))) / n - ∫ x, fR x ∂η) + (∫ x, fR x ∂η - ∫ x, f x ∂η) := by ring
      rw [e]
      have := abs_add_three ((∑ j, f (pr (cl key j))) / n - (∑ j, fR (pr (cl key j))) / n) ((∑ j, fR (pr (cl key j))) / n - ∫ x, fR x ∂η)
        (∫ x, fR x ∂η - ∫ x, f x ∂η)
      linarith
    exact absurd hkey (not_le.2 h8)
  refine (measureReal_mono hsub).trans ((measureReal_union_le _ _).trans ?_)
  refine (add_le_add ((measureReal_union_le _ _).trans (add_le_add h1 h2)) h3).trans (le_of_eq ?_)
  field_simp

end

/-- the bounds below tend to zero as the number of particles grows. -/
theorem exists_cutoff (η : Measure X') {f : X' → ℝ} (hf : Measurable f) (hi : Integrable f η) (C z : ℝ) {ε δ : ℝ} (hε : 0 < ε) (hδ : 0 < δ) :
    ∃ R : ℝ, 0 ≤ R ∧ ∫ x, |f x - cutoff f R x| ∂η ≤ ε ∧ ∃ N : ℕ, ∀ n ≥ N,
      C * (R ^ 2 / ε ^ 2 + 1) / (n * z ^ 2) + 2 / ε * ∫ x, |f x - cutoff f R x| ∂η ≤ δ := by
  have h := tendsto_cutoff η hf hi
  obtain ⟨R, hR⟩ := ((h.eventually_le_const hε).and ((h.const_mul (2 / ε)).eventually_le_const (by simpa using half_pos hδ) : ∀ᶠ R : ℕ in atTop,
    2 / ε * ∫ x, |f x - cutoff f R x| ∂η ≤ δ / 2)).exists
  refine ⟨R, Nat.cast_nonneg R, hR.1, ?_⟩
  have ht : Tendsto (fun n : ℕ => C * ((R : ℝ) ^ 2 / ε ^ 2 + 1) / (n * z ^ 2)) atTop (𝓝 0) := by
    have h1 : Tendsto (fun n : ℕ => C * ((R : ℝ) ^ 2 / ε ^ 2 + 1) / z ^ 2 * (1 / (n : ℝ))) atTop (𝓝 (C * ((R : ℝ) ^ 2 / ε ^ 2 + 1) / z ^ 2 * 0)) :=
      tendsto_one_div_atTop_nhds_zero_nat.const_mul _
    rw [mul_zero] at h1
    refine h1.congr fun n => ?_
    rw [div_mul_div_comm, mul_one, mul_comm (z ^ 2)]
  obtain ⟨N, hN⟩ := eventually_atTop.1 (ht.eventually_le_const (half_pos hδ))
  exact ⟨N, fun n hn => by linarith [hN n hn, hR.2]⟩

/-- **C178 (bootstrap filter).** Under the hypotheses of C148, with `η` the filtering law at step `t` (`∫ φ(x_t) g(y_1, x_1) ⋯ g(y_t, x_t) = z ∫ φ dη` for bounded
`φ`): the average of any `η`-integrable function, bounded or not, over the returned cloud is within `3 ε` of its filtering mean except with a probability that is
explicitly bounded; the bound tends to zero as `n` grows (`exists_cutoff`). -/
theorem C178_bootstrap_prob (transition : (Fin n → X) → K → Fin n → X) (g : Y → X → ℝ) (ys : List Y) (init : K → Fin n → X)
    (resampling : (Fin n → ℝ) → K → Fin n → ℕ) (splitFst : K → K) (splitN : K → ℕ → List K) (keysOf : K → Fin ys.length → K)
    (ρ ν ν' : Measure K) [IsProbabilityMeasure ν] [IsProbabilityMeasure ν'] (P : Kernel X X) [IsMarkovKernel P]
    (μ0 : Measure X) [IsProbabilityMeasure μ0] (G : ℝ)
    (hgm : ∀ y, Measurable (g y)) (hg : ∀ y x, 0 < g y x) (hgG : ∀ y x, g y x ≤ G)
    (htm : Measurable fun p : (Fin n → X) × K => transition p.1 p.2) (hrm : Measurable fun p : (Fin n → ℝ) × K => resampling p.1 p.2)
    (hsm : Measurable splitFst) (hsplit : ∀ key, splitN key ys.length = List.ofFn (keysOf key))
    (hideal : ρ.map (fun key => (init key, keysOf key)) = (Measure.pi fun _ => μ0).prod (Measure.pi fun _ => ν))
    (hind : ∀ s, ν.map (fun k => (transition s k, splitFst k)) = (Measure.pi fun j => P (s j)).prod ν')
    (hrange : ∀ w k j, resampling w k j < n)
    (hres : ∀ w : Fin n → ℝ, (∀ i, 0 ≤ w i) → ∑ i, w i = 1 → ∀ i : Fin n, ∑ j, ν' {k | resampling w k j = i} = ENNReal.ofReal (n * w i))
    (hvar : ∀ w : Fin n → ℝ, (∀ i, 0 ≤ w i) → ∑ i, w i = 1 → ∀ φ : Fin n → ℝ,
      ∫ k, ((∑ j, gather φ (resampling w k) j) / n - ∑ i, w i * φ i) ^ 2 ∂ν' ≤ (∑ i, w i * (φ i - ∑ i, w i * φ i) ^ 2) / n)
    (t : ℕ) (ht : t < ys.length) (η : Measure X) [IsProbabilityMeasure η] (z : ℝ)
    (hη : ∀ φ : X → ℝ, Measurable φ → ∀ B, (∀ x, |φ x| ≤ B) → ∫ x, markovE P g φ (ys.take (t + 1)) x ∂μ0 = z * ∫ x, φ x ∂η)
    (f : X → ℝ) (hf : Measurable f) (hi : Integrable f η) (ε R : ℝ) (hε : 0 < ε) (hR : 0 ≤ R) (hcut : ∫ x, |f x - cutoff f R x| ∂η ≤ ε) :
    let out := fun key => bootstrapFilter transition (fun y s i => g y (s i)) ys init key (resampleIdx resampling) splitFst splitN
    ρ.real {key | 3 * ε ≤ |(∑ j, f ((out key).1.getD t (init key) j)) / n - ∫ x, f x ∂η|}
      ≤ 4 * (2 * (t + 1) + 1) * (G ^ (t + 1)) ^ 2 * (R ^ 2 / ε ^ 2 + 1) / (n * z ^ 2) + 2 / ε * ∫ x, |f x - cutoff f R x| ∂η := by
  intro out
  have hl : (ys.take (t + 1)).length = t + 1 := by rw [List.length_take, min_eq_left ht]
  have hle : (ys.take (t + 1)).length ≤ ys.length := by rw [hl]; exact ht
  have h := runR_prob (fun _ => transition) g (ys.take (t + 1)) init resampling splitFst
    (fun key i => keysOf key (Fin.castLE hle i)) ρ ν ν' (fun _ => P) μ0 G hgm hg hgG (fun _ => htm) hrm hsm (ideal_take hle hideal) (fun _ => hind) hrange hres hvar
    id measurable_id η z (by simpa only [markovEY_const, id] using hη) f hf hi ε R hε hR hcut
  have e : ∀ key, lastCloud g (fun _ => transition) resampling splitFst (ys.take (t + 1)) (init key) (fun i => keysOf key (Fin.castLE hle i))
      = (out key).1.getD t (init key) := by
    intro key
    have hlen : t < (out key).1.length := by
      show t < (scan _ _ _).2.length
      rw [scan_len, List.length_zip, hsplit, List.length_ofFn, min_self]
      exact ht
    have h2 : (List.ofFn fun i : Fin (ys.take (t + 1)).length => keysOf key (Fin.castLE hle i)) = (splitN key ys.length).take (t + 1) := by
      rw [hsplit]
      refine List.ext_getElem (by simp [hl, ht]) fun i h1 h2 => ?_
      simp
    have h3 : ∀ (zs : List Y) (keys : Fin zs.length → K) (s : Fin n → X) (r : ℝ),
        (scan (bootstrapBody transition (fun y s i => g y (s i)) (resampleIdx resampling) splitFst) (s, r) (zs.zip (List.ofFn keys))).2.getLastD s
          = lastCloud g (fun _ => transition) resampling splitFst zs s keys := by
      intro zs
      induction zs with
      | nil => intro keys s r; rfl
      | cons y zs ih =>
        intro keys s r
        have hz : (y :: zs).zip (List.ofFn keys) = (y, keys 0) :: zs.zip (List.ofFn (Fin.tail keys)) := by
          have : List.ofFn keys = keys 0 :: List.ofFn (Fin.tail keys) := List.ofFn_succ
          rw [this, List.zip_cons_cons]
        rw [hz, lastCloud, ← ih (Fin.tail keys) _ (r - Real.log ((∑ i, g y (transition s (keys 0) i)) / n))]
        simp only [scan, bootstrapBody, List.getLastD_cons]
        rfl
    rw [← h3 _ _ _ 0, h2, ← take_zip', scan_take, List.getLastD_eq_getLast?, List.getLast?_take]
    show ((out key).1[t + 1 - 1]?.or _).getD _ = _
    rw [List.getD_eq_getElem _ _ hlen]
    simp [List.getElem?_eq_getElem hlen]
  have e' : ∀ key j, f (id (lastCloud g (fun _ => transition) resampling splitFst (ys.take (t + 1)) (init key)
      (fun i => keysOf key (Fin.castLE hle i)) j)) = f ((out key).1.getD t (init key) j) := fun key j => congrArg f (congrFun (e key) j)
  simp only [e'] at h
  rw [hl] at h
  push_cast at h
  exact h

/-- **C178 (particle filter).** The same for `particle_filter` with any proposal, under the hypotheses of C149. -/
theorem C178_particle_prob (proposal : (Fin n → X) → Y → K → Fin n → X) (q : X → X → Y → ℝ) (p : X → X → ℝ) (lik : Y → X → ℝ)
    (ys : List Y) (init : K → Fin n → X)
    (resampling : (Fin n → ℝ) → K → Fin n → ℕ) (splitFst : K → K) (splitN : K → ℕ → List K) (keysOf : K → Fin ys.length → K)
    (ρ ν ν' : Measure K) [IsProbabilityMeasure ν] [IsProbabilityMeasure ν'] (Q : Y → Kernel X X) [∀ y, IsMarkovKernel (Q y)]
    (M : Kernel X X) [IsMarkovKernel M] (lam : Measure X) (μ0 : Measure X) [IsProbabilityMeasure μ0] (W : ℝ)
    (hqm : ∀ y, Measurable fun ab : X × X => q ab.2 ab.1 y) (hpm : Measurable fun ab : X × X => p ab.2 ab.1) (hlm : ∀ y, Measurable (lik y))
    (hq : ∀ x a y, 0 < q x a y) (hp : ∀ x a, 0 < p x a) (hlik : ∀ y x, 0 < lik y x) (hW : ∀ y x a, lik y x * p x a / q x a y ≤ W)
    (hQ : ∀ y a, Q y a = lam.withDensity fun x => ENNReal.ofReal (q x a y)) (hM : ∀ a, M a = lam.withDensity fun x => ENNReal.ofReal (p x a))
    (htm : ∀ y, Measurable fun r : (Fin n → X) × K => proposal r.1 y r.2) (hrm : Measurable fun p : (Fin n → ℝ) × K => resampling p.1 p.2)
    (hsm : Measurable splitFst) (hsplit : ∀ key, splitN key ys.length = List.ofFn (keysOf key))
    (hideal : ρ.map (fun key => (init key, keysOf key)) = (Measure.pi fun _ => μ0).prod (Measure.pi fun _ => ν))
    (hind : ∀ y s, ν.map (fun k => (proposal s y k, splitFst k)) = (Measure.pi fun j => Q y (s j)).prod ν')
    (hrange : ∀ w k j, resampling w k j < n)
    (hres : ∀ w : Fin n → ℝ, (∀ i, 0 ≤ w i) → ∑ i, w i = 1 → ∀ i : Fin n, ∑ j, ν' {k | resampling w k j = i} = ENNReal.ofReal (n * w i))
    (hvar : ∀ w : Fin n → ℝ, (∀ i, 0 ≤ w i) → ∑ i, w i = 1 → ∀ φ : Fin n → ℝ,
      ∫ k, ((∑ j, gather φ (resampling w k) j) / n - ∑ i, w i * φ i) ^ 2 ∂ν' ≤ (∑ i, w i * (φ i - ∑ i, w i * φ i) ^ 2) / n)
    (t : ℕ) (ht : t < ys.length) (η : Measure X) [IsProbabilityMeasure η] (z : ℝ)
    (hη : ∀ φ : X → ℝ, Measurable φ → ∀ B, (∀ x, |φ x| ≤ B) → ∫ x, markovE M lik φ (ys.take (t + 1)) x ∂μ0 = z * ∫ x, φ x ∂η)
    (f : X → ℝ) (hf : Measurable f) (hi : Integrable f η) (ε R : ℝ) (hε : 0 < ε) (hR : 0 ≤ R) (hcut : ∫ x, |f x - cutoff f R x| ∂η ≤ ε) :
    let out := fun key => particleFilter proposal (fun x a y i => q (x i) (a i) y) (fun x a i => p (x i) (a i)) (fun y x i => lik y (x i)) ys init key
      resampling splitFst splitN
    ρ.real {key | 3 * ε ≤ |(∑ j, f ((out key).getD t (init key) j)) / n - ∫ x, f x ∂η|}
      ≤ 4 * (2 * (t + 1) + 1) * (W ^ (t + 1)) ^ 2 * (R ^ 2 / ε ^ 2 + 1) / (n * z ^ 2) + 2 / ε * ∫ x, |f x - cutoff f R x| ∂η := by
  intro out
  have hl : (ys.take (t + 1)).length = t + 1 := by rw [List.length_take, min_eq_left ht]
  have hle : (ys.take (t + 1)).length ≤ ys.length := by rw [hl]; exact ht
  have hwm : ∀ y, Measurable (pairWeight q p lik y) := fun y => (((hlm y).comp measurable_snd).mul hpm).div (hqm y)
  have hdiag : Measurable fun x : X => (x, x) := measurable_id.prodMk measurable_id
  have hμ : IsProbabilityMeasure (μ0.map fun x => (x, x)) := Measure.isProbabilityMeasure_map hdiag.aemeasurable
  have hmE : ∀ f : X → ℝ, Measurable f → Measurable (markovE M lik f (ys.take (t + 1))) := fun f hf => by
    rw [← markovEY_const]; exact measurable_markovEY (fun _ => M) hlm hf _
  have hsnd : Measurable fun (s : Fin n → X × X) i => (s i).2 := measurable_pi_lambda _ fun i => measurable_snd.comp (measurable_pi_apply i)
  have hdc : Measurable fun (s : Fin n → X) i => (s i, s i) := measurable_pi_lambda _ fun i => hdiag.comp (measurable_pi_apply i)
  have h := runR_prob (pairTransition proposal) (pairWeight q p lik) (ys.take (t + 1)) (fun key i => (init key i, init key i)) resampling splitFst
    (fun key i => keysOf key (Fin.castLE hle i)) ρ ν ν' (pairKernel Q) (μ0.map fun x => (x, x)) W hwm
    (fun y ab => div_pos (mul_pos (hlik _ _) (hp _ _)) (hq _ _ _)) (fun y ab => hW y ab.2 ab.1) ?_ hrm hsm ?_ ?_ hrange hres hvar
    Prod.snd measurable_snd η z ?_ f hf hi ε R hε hR hcut
  · have e : ∀ key, (fun j => (lastCloud (pairWeight q p lik) (pairTransition proposal) resampling splitFst (ys.take (t + 1))
        (fun i => (init key i, init key i)) (fun i => keysOf key (Fin.castLE hle i)) j).2) = (out key).getD t (init key) := by
      intro key
      rw [← particle_lastCloud (q := q) (p := p) (lik := lik) (proposal := proposal) resampling splitFst (ys.take (t + 1)) _ _ (init key) rfl]
      have hlen : t < (out key).length := by
        show t < (scan _ _ _).2.length
        rw [scan_len, List.length_zip, hsplit, List.length_ofFn, min_self]
        exact ht
      have h2 : (List.ofFn fun i : Fin (ys.take (t + 1)).length => keysOf key (Fin.castLE hle i)) = (splitN key ys.length).take (t + 1) := by
        rw [hsplit]
        refine List.ext_getElem (by simp [hl, ht]) fun i h1 h2 => ?_
        simp
      rw [h2, ← take_zip', scan_take, List.getLastD_eq_getLast?, List.getLast?_take]
      show ((out key)[t + 1 - 1]?.or _).getD _ = _
      rw [List.getD_eq_getElem _ _ hlen]
      simp [List.getElem?_eq_getElem hlen]
    have e' : ∀ key j, f (lastCloud (pairWeight q p lik) (pairTransition proposal) resampling splitFst (ys.take (t + 1))
        (fun i => (init key i, init key i)) (fun i => keysOf key (Fin.castLE hle i)) j).2 = f ((out key).getD t (init key) j) := fun key j =>
      congrArg f (congrFun (e key) j)
    simp only [e'] at h
    rw [hl] at h
    push_cast at h
    exact h
  · intro y
    refine measurable_pi_lambda _ fun i => ?_
    refine Measurable.prodMk (measurable_snd.comp ((measurable_pi_apply i).comp measurable_fst)) ?_
    exact (measurable_pi_apply i).comp ((htm y).comp ((hsnd.comp measurable_fst).prodMk measurable_snd))
  · have h1 := ideal_take hle hideal
    have hae : AEMeasurable (fun key => (init key, fun i : Fin (ys.take (t + 1)).length => keysOf key (Fin.castLE hle i))) ρ := by
      by_contra hc
      have := Measure.map_of_not_aemeasurable hc
      rw [h1] at this
      exact IsProbabilityMeasure.ne_zero _ this
    have h2 := Measure.map_prod_map (Measure.pi fun _ : Fin n => μ0) (Measure.pi fun _ : Fin (ys.take (t + 1)).length => ν) hdc measurable_id
    rw [Measure.map_id, Measure.pi_map_pi (fun _ => hdiag.aemeasurable)] at h2
    rw [h2, ← h1, AEMeasurable.map_map_of_aemeasurable (hdc.prodMap measurable_id).aemeasurable hae]
    rfl
  · intro y s
    have hpr : Measurable fun k => proposal (fun i => (s i).2) y k := (htm y).comp (measurable_const.prodMk measurable_id)
    have hmk : Measurable fun (z : Fin n → X) i => ((s i).2, z i) :=
      measurable_pi_lambda _ fun i => measurable_const.prodMk (measurable_pi_apply i)
    have h2 := Measure.map_prod_map (Measure.pi fun j => Q y (s j).2) ν' hmk measurable_id
    rw [Measure.map_id, Measure.pi_map_pi (f := fun (i : Fin n) (x : X) => ((s i).2, x)) (fun i => measurable_prodMk_left.aemeasurable)] at h2
    simp only [pairKernel_apply]
    rw [h2, ← hind y fun i => (s i).2, Measure.map_map (hmk.prodMap measurable_id) (hpr.prodMk hsm)]
    rfl
  · intro φ hφ B hB
    simp only [markovEY_pair Q M lam hqm hpm hlm hq (fun x a => (hp x a).le) hQ hM φ hφ]
    rw [integral_map (f := fun x : X × X => markovE M lik φ (ys.take (t + 1)) x.2) hdiag.aemeasurable ((hmE φ hφ).comp measurable_snd).aestronglyMeasurable]
    exact hη φ hφ B hB

end Mfs.Props

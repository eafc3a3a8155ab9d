import Verif.Lemmas.Filter1
import Mathlib.Data.List.GetD

/-!
# Properties C26, C28–C32: one-dimensional moment filters

In these statements, the state before step `k` is `(initial state :: outputs)[k]`. `predRms`, `predCms`, `predScms` are
the predicted moments computed from a state (weighted sums of the conditional moments over the quadrature nodes) and
`likRms`, `likCms`, `likScms` the predictive likelihoods (weighted sum of the measurement density over the nodes of the
rule built from the predicted moments); all are explicit sums over `moment_quadrature`.
-/

namespace Mfs.Props

open Matrix Mfs.Spec Mfs.Quad1 Mfs.Filter1

variable {Y : Type}

/-! ## C32 -/

/-- **C32.** One record per measurement, and the negative log-likelihood is minus the sum of the logarithms of the
predictive likelihoods of the successive states. -/
theorem C32_records (B : Backend) (stable : Bool) (pdf : Y → ℝ → ℝ) (ys : List Y) :
    (∀ (P : ℝ → ℕ → ℝ) (rms0 : List ℝ),
      (filterRms B P pdf rms0 ys stable).1.length = ys.length ∧
      (filterRms B P pdf rms0 ys stable).2
        = - ((List.zipWith (fun s y => likRms B stable P pdf rms0.length s y)
            (rms0 :: (filterRms B P pdf rms0 ys stable).1) ys).map Real.log).sum) ∧
    (∀ (P : ℝ → ℕ → ℝ → ℝ) (cm : ℝ → ℝ) (cms0 : List ℝ) (m0 : ℝ),
      (filterCms B P cm pdf cms0 m0 ys stable).1.length = ys.length ∧
      (filterCms B P cm pdf cms0 m0 ys stable).2
        = - ((List.zipWith (fun s y => likCms B stable P cm pdf cms0.length s y)
            ((cms0, m0) :: (filterCms B P cm pdf cms0 m0 ys stable).1) ys).map Real.log).sum) ∧
    (∀ (P : ℝ → ℕ → ℝ → ℝ → ℝ) (cm cv : ℝ → ℝ) (scms0 : List ℝ) (m0 s0 : ℝ),
      (filterScms B P cm cv pdf scms0 m0 s0 ys stable).1.length = ys.length ∧
      (filterScms B P cm cv pdf scms0 m0 s0 ys stable).2
        = - ((List.zipWith (fun s y => likScms B stable P cm cv pdf scms0.length s y)
            ((scms0, m0, s0) :: (filterScms B P cm cv pdf scms0 m0 s0 ys stable).1) ys).map Real.log).sum) := by
  refine ⟨?_, ?_, ?_⟩
  · intro P rms0
    rw [filterRms_eq, liks_eq_zipWith]
    exact ⟨length_traj _ _, rfl⟩
  · intro P cm cms0 m0
    rw [filterCms_eq, liks_eq_zipWith]
    exact ⟨length_traj _ _, rfl⟩
  · intro P cm cv scms0 m0 s0
    rw [filterScms_eq, liks_eq_zipWith]
    exact ⟨length_traj _ _, rfl⟩

/-! ## C28 -/

/-- **C28.** Causality: the first `k` outputs are the outputs on the first `k` measurements. Resumption: filtering
`ys₁ ++ ys₂` is filtering `ys₁`, then restarting from the last output on `ys₂`; negative log-likelihoods add. (For an
empty `ys₁` the last output is the initial state.) -/
theorem C28_causal_resumable (B : Backend) (stable : Bool) (pdf : Y → ℝ → ℝ) :
    (∀ (P : ℝ → ℕ → ℝ) (rms0 : List ℝ) (ys : List Y) (k : ℕ),
      (filterRms B P pdf rms0 ys stable).1.take k = (filterRms B P pdf rms0 (ys.take k) stable).1) ∧
    (∀ (P : ℝ → ℕ → ℝ) (rms0 : List ℝ) (ys₁ ys₂ : List Y),
      let a := filterRms B P pdf rms0 ys₁ stable
      let b := filterRms B P pdf (a.1.getLastD rms0) ys₂ stable
      filterRms B P pdf rms0 (ys₁ ++ ys₂) stable = (a.1 ++ b.1, a.2 + b.2)) ∧
    (∀ (P : ℝ → ℕ → ℝ → ℝ) (cm : ℝ → ℝ) (cms0 : List ℝ) (m0 : ℝ) (ys : List Y) (k : ℕ),
      (filterCms B P cm pdf cms0 m0 ys stable).1.take k = (filterCms B P cm pdf cms0 m0 (ys.take k) stable).1) ∧
    (∀ (P : ℝ → ℕ → ℝ → ℝ) (cm : ℝ → ℝ) (cms0 : List ℝ) (m0 : ℝ) (ys₁ ys₂ : List Y),
      let a := filterCms B P cm pdf cms0 m0 ys₁ stable
      let s := a.1.getLastD (cms0, m0)
      let b := filterCms B P cm pdf s.1 s.2 ys₂ stable
      filterCms B P cm pdf cms0 m0 (ys₁ ++ ys₂) stable = (a.1 ++ b.1, a.2 + b.2)) ∧
    (∀ (P : ℝ → ℕ → ℝ → ℝ → ℝ) (cm cv : ℝ → ℝ) (scms0 : List ℝ) (m0 s0 : ℝ) (ys : List Y) (k : ℕ),
      (filterScms B P cm cv pdf scms0 m0 s0 ys stable).1.take k
        = (filterScms B P cm cv pdf scms0 m0 s0 (ys.take k) stable).1) ∧
    (∀ (P : ℝ → ℕ → ℝ → ℝ → ℝ) (cm cv : ℝ → ℝ) (scms0 : List ℝ) (m0 s0 : ℝ) (ys₁ ys₂ : List Y),
      let a := filterScms B P cm cv pdf scms0 m0 s0 ys₁ stable
      let s := a.1.getLastD (scms0, m0, s0)
      let b := filterScms B P cm cv pdf s.1 s.2.1 s.2.2 ys₂ stable
      filterScms B P cm cv pdf scms0 m0 s0 (ys₁ ++ ys₂) stable = (a.1 ++ b.1, a.2 + b.2)) := by
  refine ⟨?_, ?_, ?_, ?_, ?_, ?_⟩
  · intro P rms0 ys k
    simp only [filterRms_eq, traj_take]
  · intro P rms0 ys₁ ys₂
    have hlen : ∀ g : List ℝ → Y → List ℝ, (∀ s y, (g s y).length = rms0.length) →
        (lastState g rms0 ys₁).length = rms0.length := by
      intro g hg
      rcases List.eq_nil_or_concat ys₁ with h | ⟨l, y, rfl⟩
      · subst h; rfl
      · rw [lastState, List.concat_eq_append, List.foldl_append]; exact hg _ _
    have hl := hlen (nextRms B stable P pdf rms0.length) (fun s y => by simp [nextRms])
    simp only [filterRms_eq, ← lastState_eq, hl, traj_append, liks_append, List.map_append, List.sum_append, neg_add]
  · intro P cm cms0 m0 ys k
    simp only [filterCms_eq, traj_take]
  · intro P cm cms0 m0 ys₁ ys₂
    have hlen : ∀ g : List ℝ × ℝ → Y → List ℝ × ℝ, (∀ s y, (g s y).1.length = cms0.length) →
        (lastState g (cms0, m0) ys₁).1.length = cms0.length := by
      intro g hg
      rcases List.eq_nil_or_concat ys₁ with h | ⟨l, y, rfl⟩
      · subst h; rfl
      · rw [lastState, List.concat_eq_append, List.foldl_append]; exact hg _ _
    have hl := hlen (nextCms B stable P cm pdf cms0.length) (fun s y => by simp [nextCms])
    simp only [filterCms_eq, ← lastState_eq, hl, traj_append, liks_append, List.map_append, List.sum_append, neg_add]
  · intro P cm cv scms0 m0 s0 ys k
    simp only [filterScms_eq, traj_take]
  · intro P cm cv scms0 m0 s0 ys₁ ys₂
    have hlen : ∀ g : List ℝ × ℝ × ℝ → Y → List ℝ × ℝ × ℝ, (∀ s y, (g s y).1.length = scms0.length) →
        (lastState g (scms0, m0, s0) ys₁).1.length = scms0.length := by
      intro g hg
      rcases List.eq_nil_or_concat ys₁ with h | ⟨l, y, rfl⟩
      · subst h; rfl
      · rw [lastState, List.concat_eq_append, List.foldl_append]; exact hg _ _
    have hl := hlen (nextScms B stable P cm cv pdf scms0.length) (fun s y => by simp [nextScms])
    simp only [filterScms_eq, ← lastState_eq, hl, traj_append, liks_append, List.map_append, List.sum_append, neg_add]

/-! ## C29 -/

theorem integ_mul_left {n : ℕ} (r : (Fin n → ℝ) × (Fin n → ℝ)) (c : ℝ) (f : ℝ → ℝ) :
    integ r (fun x => c * f x) = c * integ r f := by
  simp only [integ, Finset.mul_sum]
  exact Finset.sum_congr rfl fun i _ => by ring

theorem integ_mul_left' {n : ℕ} (r : (Fin n → ℝ) × (Fin n → ℝ)) (c : ℝ) (f g : ℝ → ℝ) :
    integ r (fun x => g x * (c * f x)) = c * integ r (fun x => g x * f x) := by
  rw [← integ_mul_left]
  congr 1
  ext x; ring

theorem sum_log_scale (c : ℝ) (hc : 0 < c) (l l' : List ℝ) (h : l' = l.map (c * ·)) (h0 : ∀ a ∈ l, a ≠ 0) :
    (l'.map Real.log).sum = (l.map Real.log).sum + l.length * Real.log c := by
  subst h
  induction l with
  | nil => simp
  | cons a l ih =>
    have := ih (fun b hb => h0 b (by simp [hb]))
    simp only [List.map_cons, List.sum_cons, List.length_cons, this]
    rw [Real.log_mul hc.ne' (h0 a (by simp))]
    push_cast
    ring

/-- **C29.** Replacing `p(y | x)` by `c p(y | x)`, `c > 0`, leaves all outputs unchanged; if no predictive likelihood
vanishes, the negative log-likelihood changes by `-T log c`. -/
theorem C29_likelihood_scaling (B : Backend) (stable : Bool) (pdf : Y → ℝ → ℝ) (c : ℝ) (hc : 0 < c) (ys : List Y) :
    (∀ (P : ℝ → ℕ → ℝ) (rms0 : List ℝ),
      let a := filterRms B P pdf rms0 ys stable
      let b := filterRms B P (fun y x => c * pdf y x) rms0 ys stable
      b.1 = a.1 ∧ ((∀ l ∈ List.zipWith (fun s y => likRms B stable P pdf rms0.length s y) (rms0 :: a.1) ys, l ≠ 0) →
        b.2 = a.2 - ys.length * Real.log c)) ∧
    (∀ (P : ℝ → ℕ → ℝ → ℝ) (cm : ℝ → ℝ) (cms0 : List ℝ) (m0 : ℝ),
      let a := filterCms B P cm pdf cms0 m0 ys stable
      let b := filterCms B P cm (fun y x => c * pdf y x) cms0 m0 ys stable
      b.1 = a.1 ∧ ((∀ l ∈ List.zipWith (fun s y => likCms B stable P cm pdf cms0.length s y) ((cms0, m0) :: a.1) ys, l ≠ 0) →
        b.2 = a.2 - ys.length * Real.log c)) ∧
    (∀ (P : ℝ → ℕ → ℝ → ℝ → ℝ) (cm cv : ℝ → ℝ) (scms0 : List ℝ) (m0 s0 : ℝ),
      let a := filterScms B P cm cv pdf scms0 m0 s0 ys stable
      let b := filterScms B P cm cv (fun y x => c * pdf y x) scms0 m0 s0 ys stable
      b.1 = a.1 ∧ ((∀ l ∈ List.zipWith (fun s y => likScms B stable P cm cv pdf scms0.length s y)
          ((scms0, m0, s0) :: a.1) ys, l ≠ 0) →
        b.2 = a.2 - ys.length * Real.log c)) := by
  have hc0 := hc.ne'
  have gen : ∀ {S : Type} (g g' : S → Y → S) (lik lik' : S → Y → ℝ) (s : S), (∀ s y, g' s y = g s y) →
      (∀ s y, lik' s y = c * lik s y) →
      traj g' s ys = traj g s ys ∧ ((∀ l ∈ List.zipWith lik (s :: traj g s ys) ys, l ≠ 0) →
        - ((liks g' lik' s ys).map Real.log).sum = - ((liks g lik s ys).map Real.log).sum - ys.length * Real.log c) := by
    intro S g g' lik lik' s hg hl
    have ht := traj_congr hg s ys
    refine ⟨ht, ?_⟩
    intro h0
    rw [liks_eq_zipWith, liks_eq_zipWith, ht, sum_log_scale c hc _ _ _ h0]
    · rw [List.length_zipWith, List.length_cons, length_traj]
      simp; ring
    · rw [List.map_zipWith]
      congr 1
      funext s y
      exact hl s y
  refine ⟨?_, ?_, ?_⟩
  · intro P rms0
    simp only [filterRms_eq]
    refine gen _ _ _ _ _ ?_ ?_
    · intro s y
      simp only [nextRms, likRms, integ_mul_left, integ_mul_left', mul_div_mul_left _ _ hc0]
    · intro s y
      simp only [likRms, integ_mul_left]
  · intro P cm cms0 m0
    simp only [filterCms_eq]
    refine gen _ _ _ _ _ ?_ ?_
    · intro s y
      simp only [nextCms, likCms, integ_mul_left, integ_mul_left', mul_div_mul_left _ _ hc0]
    · intro s y
      simp only [likCms, integ_mul_left]
  · intro P cm cv scms0 m0 s0
    simp only [filterScms_eq]
    refine gen _ _ _ _ _ ?_ ?_
    · intro s y
      simp only [nextScms, likScms, integ_mul_left, integ_mul_left', mul_div_mul_left _ _ hc0]
    · intro s y
      simp only [likScms, integ_mul_left]

/-! ## C26 -/

theorem getD_map_range {n j : ℕ} (f : ℕ → ℝ) (h : j < n) : ((List.range n).map f).getD j 0 = f j := by
  simp [List.getD_eq_getElem?_getD, List.getElem?_range h]

/-- **C26.** Let `o` be the `k`-th output, `p` the state before and `y` the measurement; if the predictive likelihood is
not zero, the zeroth moment of `o` is `1`, its first central (or scaled central) moment is `0`, and its second scaled
moment is `1` unless the returned scale is zero. -/
theorem C26_normalised (B : Backend) (stable : Bool) (pdf : Y → ℝ → ℝ) (ys : List Y) (k : ℕ) (y : Y) (hy : ys[k]? = some y) :
    (∀ (P : ℝ → ℕ → ℝ) (rms0 o p : List ℝ), (filterRms B P pdf rms0 ys stable).1[k]? = some o →
      (rms0 :: (filterRms B P pdf rms0 ys stable).1)[k]? = some p → likRms B stable P pdf rms0.length p y ≠ 0 →
      o.length = rms0.length ∧ (1 ≤ rms0.length → o.getD 0 0 = 1)) ∧
    (∀ (P : ℝ → ℕ → ℝ → ℝ) (cm : ℝ → ℝ) (cms0 : List ℝ) (m0 : ℝ) (o p : List ℝ × ℝ),
      (filterCms B P cm pdf cms0 m0 ys stable).1[k]? = some o →
      ((cms0, m0) :: (filterCms B P cm pdf cms0 m0 ys stable).1)[k]? = some p →
      likCms B stable P cm pdf cms0.length p y ≠ 0 →
      o.1.length = cms0.length ∧ (1 ≤ cms0.length → o.1.getD 0 0 = 1) ∧ (2 ≤ cms0.length → o.1.getD 1 0 = 0)) ∧
    (∀ (P : ℝ → ℕ → ℝ → ℝ → ℝ) (cm cv : ℝ → ℝ) (scms0 : List ℝ) (m0 s0 : ℝ) (o p : List ℝ × ℝ × ℝ),
      (filterScms B P cm cv pdf scms0 m0 s0 ys stable).1[k]? = some o →
      ((scms0, m0, s0) :: (filterScms B P cm cv pdf scms0 m0 s0 ys stable).1)[k]? = some p →
      likScms B stable P cm cv pdf scms0.length p y ≠ 0 →
      o.1.length = scms0.length ∧ (1 ≤ scms0.length → o.1.getD 0 0 = 1) ∧ (2 ≤ scms0.length → o.1.getD 1 0 = 0) ∧
        (3 ≤ scms0.length → o.2.2 ≠ 0 → o.1.getD 2 0 = 1)) := by
  refine ⟨?_, ?_, ?_⟩
  · intro P rms0 o p ho hp hl
    rw [filterRms_eq] at ho hp
    obtain ⟨p', hp', rfl⟩ := traj_getElem _ _ _ _ _ ho hy
    obtain rfl : p' = p := by simpa [hp'] using hp
    refine ⟨by simp [nextRms], fun h1 => ?_⟩
    rw [nextRms, getD_map_range _ h1]
    simp only [pow_zero, one_mul]
    exact div_self hl
  · intro P cm cms0 m0 o p ho hp hl
    rw [filterCms_eq] at ho hp
    obtain ⟨p', hp', rfl⟩ := traj_getElem _ _ _ _ _ ho hy
    obtain rfl : p' = p := by simpa [hp'] using hp
    refine ⟨by simp [nextCms], fun h1 => ?_, fun h1 => ?_⟩
    · simp only [nextCms]
      rw [getD_map_range _ h1]
      simp only [pow_zero, one_mul]
      exact div_self hl
    · simp only [nextCms]
      rw [getD_map_range _ h1]
      have hZ : integ (momentQuadrature B (predCms B stable P cm cms0.length p').1 (predCms B stable P cm cms0.length p').2
        1 false stable) (pdf y) = likCms B stable P cm pdf cms0.length p' y := rfl
      generalize likCms B stable P cm pdf cms0.length p' y = Z at hl hZ ⊢
      generalize momentQuadrature B (predCms B stable P cm cms0.length p').1 (predCms B stable P cm cms0.length p').2
        1 false stable = r at hZ ⊢
      simp only [pow_one, sub_zero]
      have : ∀ m, integ r (fun x => (x - m) * pdf y x) = integ r (fun x => x * pdf y x) - m * integ r (pdf y) := by
        intro m
        rw [← integ_mul_left]
        simp only [integ, ← Finset.sum_sub_distrib]
        exact Finset.sum_congr rfl fun i _ => by ring
      rw [this, hZ]
      field_simp
      simp
  · intro P cm cv scms0 m0 s0 o p ho hp hl
    rw [filterScms_eq] at ho hp
    obtain ⟨p', hp', rfl⟩ := traj_getElem _ _ _ _ _ ho hy
    obtain rfl : p' = p := by simpa [hp'] using hp
    refine ⟨by simp [nextScms], fun h1 => ?_, fun h1 => ?_, fun h1 => ?_⟩
    · simp only [nextScms]
      rw [getD_map_range _ h1]
      simp only [pow_zero, one_mul]
      exact div_self hl
    · simp only [nextScms]
      rw [getD_map_range _ h1]
      have hZ : integ (momentQuadrature B (predScms B stable P cm cv scms0.length p').1
        (predScms B stable P cm cv scms0.length p').2.1
        (predScms B stable P cm cv scms0.length p').2.2 false stable) (pdf y) = likScms B stable P cm cv pdf scms0.length p' y := rfl
      generalize likScms B stable P cm cv pdf scms0.length p' y = Z at hl hZ ⊢
      generalize momentQuadrature B (predScms B stable P cm cv scms0.length p').1
        (predScms B stable P cm cv scms0.length p').2.1
        (predScms B stable P cm cv scms0.length p').2.2 false stable = r at hZ ⊢
      simp only [pow_one, sub_zero, div_one]
      have : ∀ m s, integ r (fun x => (x - m) / s * pdf y x) = (integ r (fun x => x * pdf y x) - m * integ r (pdf y)) / s := by
        intro m s
        rw [← integ_mul_left]
        simp only [integ, ← Finset.sum_sub_distrib, Finset.sum_div]
        exact Finset.sum_congr rfl fun i _ => by ring
      rw [this, hZ, div_mul_cancel₀ _ hl]
      simp
    · simp only [nextScms]
      rw [getD_map_range _ h1]
      intro hs
      generalize likScms B stable P cm cv pdf scms0.length p' y = Z at hl hs ⊢
      generalize momentQuadrature B (predScms B stable P cm cv scms0.length p').1
        (predScms B stable P cm cv scms0.length p').2.1
        (predScms B stable P cm cv scms0.length p').2.2 false stable = r at hs ⊢
      simp only [pow_one, sub_zero, div_one] at hs ⊢
      generalize integ r (fun x => x * pdf y x) / Z = m at hs ⊢
      have hpos := Real.sqrt_ne_zero'.1 hs
      have : ∀ s, integ r (fun x => ((x - m) / s) ^ 2 * pdf y x) = integ r (fun x => (x - m) ^ 2 * pdf y x) / s ^ 2 := by
        intro s
        simp only [integ, Finset.sum_div]
        exact Finset.sum_congr rfl fun i _ => by ring
      rw [this, Real.sq_sqrt hpos.le, div_right_comm]
      exact div_self hpos.ne'

theorem integ_const (B : Backend) (hB : B.Valid) (ms : List ℝ) (hl : 2 ≤ ms.length) (mean scale : ℝ)
    (sort ldl : Bool) (c : ℝ) : integ (momentQuadrature B ms mean scale sort ldl) (fun _ => c) = c := by
  have := (C09_weights_probability B hB ms hl mean scale sort ldl).2
  rw [integ, ← Finset.sum_mul, this, one_mul]

/-- non-vacuity of C26, C29, C32: with a constant density the predictive likelihood is that constant. -/
example : likRms theBackend false (fun x k => x ^ k) (fun (_ : Unit) _ => (2 : ℝ)) 4 [1, 0, 1, 0] () ≠ 0 ∧
    likCms theBackend false (fun x k m => (x - m) ^ k) id (fun (_ : Unit) _ => (2 : ℝ)) 4 ([1, 0, 1, 0], 1) () ≠ 0 ∧
    likScms theBackend false (fun x k m s => ((x - m) / s) ^ k) id (fun _ => 1) (fun (_ : Unit) _ => (2 : ℝ)) 4
      ([1, 0, 1, 0], 1, 2) () ≠ 0 := by
  refine ⟨?_, ?_, ?_⟩
  · rw [likRms, integ_const _ theBackend_valid _ (by simp [predRms])]; norm_num
  · rw [likCms, integ_const _ theBackend_valid _ (by simp [predCms])]; norm_num
  · rw [likScms, integ_const _ theBackend_valid _ (by simp [predScms])]; norm_num

/-! ## C30 -/

/-- **C30.** If `p(y | ·)` is a non-zero constant, the filter started at any state with a positive definite predicted
Gram matrix returns the predicted moments and the log of that constant (an even number of moments, as the code asks).
In the scaled filter the mean is the predicted one, the moments are the predicted ones expressed in the unit of the
returned scale, and they are returned unchanged when the predicted second scaled moment is one. -/
theorem C30_uninformative (B : Backend) (hB : B.Valid) (stable : Bool) (pdf : Y → ℝ → ℝ) (y : Y) (c : ℝ) (hc : c ≠ 0)
    (hpdf : ∀ x, pdf y x = c) :
    (∀ (P : ℝ → ℕ → ℝ) (rms0 : List ℝ), (∀ x, P x 0 = 1) → 2 ≤ rms0.length → rms0.length % 2 = 0 →
      (gramOf (predRms B stable P rms0.length rms0)).PosDef →
      filterRms B P pdf rms0 [y] stable = ([predRms B stable P rms0.length rms0], - Real.log c)) ∧
    (∀ (P : ℝ → ℕ → ℝ → ℝ) (cm : ℝ → ℝ) (cms0 : List ℝ) (m0 : ℝ), (∀ x m, P x 0 m = 1) → (∀ x m, P x 1 m = cm x - m) →
      2 ≤ cms0.length → cms0.length % 2 = 0 →
      (gramOf (predCms B stable P cm cms0.length (cms0, m0)).1).PosDef →
      filterCms B P cm pdf cms0 m0 [y] stable = ([predCms B stable P cm cms0.length (cms0, m0)], - Real.log c)) ∧
    (∀ (P : ℝ → ℕ → ℝ → ℝ → ℝ) (cm cv : ℝ → ℝ) (scms0 : List ℝ) (m0 s0 : ℝ), (∀ x m s, P x 0 m s = 1) →
      (∀ x m s, P x 1 m s = (cm x - m) / s) → 4 ≤ scms0.length → scms0.length % 2 = 0 →
      (gramOf (predScms B stable P cm cv scms0.length (scms0, m0, s0)).1).PosDef →
      (predScms B stable P cm cv scms0.length (scms0, m0, s0)).2.2 ≠ 0 →
      let q := predScms B stable P cm cv scms0.length (scms0, m0, s0)
      ∃ o : List ℝ × ℝ × ℝ, filterScms B P cm cv pdf scms0 m0 s0 [y] stable = ([o], - Real.log c) ∧
        o.2.1 = q.2.1 ∧ o.2.2 = q.2.2 * Real.sqrt (q.1.getD 2 0) ∧ 0 < o.2.2 ∧ o.1.length = scms0.length ∧
        (∀ k < scms0.length, o.1.getD k 0 * o.2.2 ^ k = q.1.getD k 0 * q.2.2 ^ k) ∧ (q.1.getD 2 0 = 1 → o = q)) := by
  have hZ : ∀ {n : ℕ} (r : (Fin n → ℝ) × (Fin n → ℝ)), integ r (pdf y) = integ r (fun _ => c) := by
    intro n r; simp only [integ, hpdf]
  have hmul : ∀ {n : ℕ} (r : (Fin n → ℝ) × (Fin n → ℝ)) (f : ℝ → ℝ), integ r (fun x => f x * pdf y x) / c = integ r f := by
    intro n r f
    rw [div_eq_iff hc]
    simp only [integ, hpdf, Finset.sum_mul]
    exact Finset.sum_congr rfl fun i _ => by ring
  refine ⟨?_, ?_, ?_⟩
  · intro P rms0 hP0 hl hev hpd
    set q := predRms B stable P rms0.length rms0 with hq
    have hqlen : q.length = rms0.length := by simp [hq, predRms]
    have hq0 : q.getD 0 0 = 1 := by
      rw [hq, predRms, getD_map_range _ (by omega)]
      simp only [hP0]
      exact integ_const B hB _ hl _ _ _ _ _
    have hlik : likRms B stable P pdf rms0.length rms0 y = c := by
      rw [likRms, hZ, integ_const B hB _ (by rw [← hq]; omega)]
    rw [filterRms_eq]
    simp only [traj, liks, hlik, List.map_cons, List.map_nil, List.sum_cons, List.sum_nil, add_zero, Prod.mk.injEq,
      List.cons.injEq, and_true]
    apply List.ext_getElem
    · simp [nextRms, hqlen]
    · intro k h1 h2
      rw [hqlen] at h2
      simp only [nextRms, List.getElem_map, List.getElem_range, hlik, hmul]
      rw [C08_reproduces_moments B hB q hpd false stable k (by omega), hq0, div_one, List.getD_eq_getElem]
  · intro P cm cms0 m0 hP0 hP1 hl hev hpd
    set q := predCms B stable P cm cms0.length (cms0, m0) with hq
    have hqlen : q.1.length = cms0.length := by simp [hq, predCms]
    have hq0 : q.1.getD 0 0 = 1 := by
      simp only [hq, predCms]
      rw [getD_map_range _ (by omega)]
      simp only [hP0]
      exact integ_const B hB _ hl _ _ _ _ _
    have hq1 : q.1.getD 1 0 = 0 := by
      simp only [hq, predCms]
      rw [getD_map_range _ (by omega)]
      simp only [hP1]
      set r := momentQuadrature B cms0 m0 1 false stable with hr
      have h1 := integ_const B hB cms0 hl m0 1 false stable (integ r cm)
      rw [← hr] at h1
      have : integ r (fun x => cm x - integ r cm) = integ r cm - integ r (fun _ => integ r cm) := by
        simp only [integ, ← Finset.sum_sub_distrib, mul_sub]
      rw [this, h1, sub_self]
    have hlik : likCms B stable P cm pdf cms0.length (cms0, m0) y = c := by
      simp only [likCms]
      rw [hZ, integ_const B hB _ (by rw [← hq]; omega)]
    have hcent : ∀ k < cms0.length, integ (momentQuadrature B q.1 q.2 1 false stable) (fun x => (x - q.2) ^ k) = q.1.getD k 0 := by
      intro k hk
      have := (C10_affine B hB q.1 q.2 1 false stable).2 hpd one_ne_zero k (by omega)
      simpa only [div_one, hq0] using this
    have hmean : integ (momentQuadrature B q.1 q.2 1 false stable) (fun x => (x - 0) ^ 1) = q.2 := by
      have h1 := hcent 1 (by omega)
      rw [hq1] at h1
      have h2 := integ_const B hB q.1 (by omega) q.2 1 false stable q.2
      have : integ (momentQuadrature B q.1 q.2 1 false stable) (fun x => (x - 0) ^ 1)
          = integ (momentQuadrature B q.1 q.2 1 false stable) (fun x => (x - q.2) ^ 1)
            + integ (momentQuadrature B q.1 q.2 1 false stable) (fun _ => q.2) := by
        simp only [integ, ← Finset.sum_add_distrib]
        exact Finset.sum_congr rfl fun i _ => by ring
      rw [this, h1, h2, zero_add]
    rw [filterCms_eq]
    simp only [traj, liks, hlik, List.map_cons, List.map_nil, List.sum_cons, List.sum_nil, add_zero, Prod.mk.injEq,
      List.cons.injEq, and_true]
    have hm' : (nextCms B stable P cm pdf cms0.length (cms0, m0) y).2 = q.2 := by
      simp only [nextCms, hlik, hmul, ← hq]
      exact hmean
    apply Prod.ext
    · apply List.ext_getElem
      · simp [nextCms, hqlen]
      · intro k h1 h2
        rw [hqlen] at h2
        simp only [nextCms] at hm'
        simp only [nextCms, List.getElem_map, List.getElem_range]
        rw [← hq] at hm' ⊢
        rw [hm', hlik, hmul (momentQuadrature B q.1 q.2 1 false stable) (fun x => (x - q.2) ^ k), hcent k h2, List.getD_eq_getElem]
    · exact hm'
  · intro P cm cv scms0 m0 s0 hP0 hP1 hl hev hpd hs
    set q := predScms B stable P cm cv scms0.length (scms0, m0, s0) with hq
    have hqlen : q.1.length = scms0.length := by simp [hq, predScms]
    have hq0 : q.1.getD 0 0 = 1 := by
      simp only [hq, predScms]
      rw [getD_map_range _ (by omega)]
      simp only [hP0]
      exact integ_const B hB _ (by omega) _ _ _ _ _
    have hq1 : q.1.getD 1 0 = 0 := by
      simp only [hq, predScms]
      rw [getD_map_range _ (by omega)]
      simp only [hP1]
      set r := momentQuadrature B scms0 m0 s0 false stable with hr
      have h1 := integ_const B hB scms0 (by omega) m0 s0 false stable (integ r cm)
      rw [← hr] at h1
      have : ∀ s, integ r (fun x => (cm x - integ r cm) / s) = (integ r cm - integ r (fun _ => integ r cm)) / s := by
        intro s
        simp only [integ, ← Finset.sum_sub_distrib, Finset.sum_div]
        exact Finset.sum_congr rfl fun i _ => by ring
      rw [this, h1, sub_self, zero_div]
    have hspos : 0 < q.2.2 := lt_of_le_of_ne (Real.sqrt_nonneg _) (Ne.symm hs)
    have hlik : likScms B stable P cm cv pdf scms0.length (scms0, m0, s0) y = c := by
      simp only [likScms]
      rw [hZ, integ_const B hB _ (by rw [← hq]; omega)]
    set r := momentQuadrature B q.1 q.2.1 q.2.2 false stable with hr
    have hsc : ∀ k < scms0.length, integ r (fun x => (x - q.2.1) ^ k) = q.1.getD k 0 * q.2.2 ^ k := by
      intro k hk
      have := (C10_affine B hB q.1 q.2.1 q.2.2 false stable).2 hpd hs k (by omega)
      rw [hq0, div_one] at this
      rw [← this]
      simp only [integ, Finset.sum_mul, ← hr]
      refine Finset.sum_congr rfl fun i _ => ?_
      rw [div_pow]
      field_simp
    have hmean : integ r (fun x => ((x - 0) / 1) ^ 1) = q.2.1 := by
      have h1 := hsc 1 (by omega)
      rw [hq1, zero_mul] at h1
      have h2 := integ_const B hB q.1 (by omega) q.2.1 q.2.2 false stable q.2.1
      rw [← hr] at h2
      have : integ r (fun x => ((x - 0) / 1) ^ 1) = integ r (fun x => (x - q.2.1) ^ 1) + integ r (fun _ => q.2.1) := by
        simp only [integ, ← Finset.sum_add_distrib]
        exact Finset.sum_congr rfl fun i _ => by ring
      rw [this, h1, h2, zero_add]
    have hq2 : 0 < q.1.getD 2 0 := by
      have hd := hpd.diag_pos (i := ⟨1, by omega⟩)
      simpa [gramOf, hankelMat] using hd
    set o := nextScms B stable P cm cv pdf scms0.length (scms0, m0, s0) y with ho
    have ho1 : o.2.1 = q.2.1 := by
      simp only [ho, nextScms, hlik, hmul, ← hq]
      exact hmean
    have ho2 : o.2.2 = q.2.2 * Real.sqrt (q.1.getD 2 0) := by
      have : o.2.2 = Real.sqrt (integ r (fun x => ((x - o.2.1) / 1) ^ 2)) := by
        simp only [ho, nextScms, hlik, hmul, ← hq]
        rfl
      rw [this, ho1]
      simp only [div_one]
      rw [hsc 2 (by omega), Real.sqrt_mul hq2.le, Real.sqrt_sq hspos.le, mul_comm]
    have hopos : 0 < o.2.2 := by rw [ho2]; positivity
    have holen : o.1.length = scms0.length := by simp [ho, nextScms]
    have hok : ∀ k < scms0.length, o.1.getD k 0 * o.2.2 ^ k = q.1.getD k 0 * q.2.2 ^ k := by
      intro k hk
      have : o.1.getD k 0 = integ r (fun x => ((x - o.2.1) / o.2.2) ^ k) := by
        simp only [ho, nextScms, hlik, hmul, ← hq]
        rw [getD_map_range _ hk]
      rw [this, ho1, ← hsc k hk]
      simp only [integ, Finset.sum_mul]
      refine Finset.sum_congr rfl fun i _ => ?_
      rw [div_pow]
      field_simp
    refine ⟨o, ?_, ho1, ho2, hopos, holen, hok, ?_⟩
    · rw [filterScms_eq]
      simp only [traj, liks, hlik, List.map_cons, List.map_nil, List.sum_cons, List.sum_nil, add_zero, ← ho]
    · intro h1
      have e2 : o.2.2 = q.2.2 := by rw [ho2, h1]; simp
      apply Prod.ext
      · apply List.ext_getElem
        · rw [holen, hqlen]
        · intro k hk1 hk2
          have := hok k (by omega)
          rw [e2] at this
          have := mul_right_cancel₀ (by positivity) this
          rwa [List.getD_eq_getElem _ _ hk1, List.getD_eq_getElem _ _ hk2] at this
      · exact Prod.ext ho1 e2

theorem predRms_identity (B : Backend) (hB : B.Valid) (stable : Bool) (ms : List ℝ) (hpd : (gramOf ms).PosDef)
    (h0 : ms.getD 0 0 = 1) (hev : ms.length % 2 = 0) : predRms B stable (fun x k => x ^ k) ms.length ms = ms := by
  apply List.ext_getElem
  · simp [predRms]
  · intro k h1 h2
    simp only [predRms, List.getElem_map, List.getElem_range]
    rw [C08_reproduces_moments B hB ms hpd false stable k (by omega), h0, div_one, List.getD_eq_getElem]

/-- a state meeting the hypotheses of C30 (state that does not move). -/
example : (gramOf (predRms theBackend false (fun x k => x ^ k) 4 [1, 0, 1, 0])).PosDef := by
  have := predRms_identity theBackend theBackend_valid false [1, 0, 1, 0] gramOf_example rfl rfl
  simp only [List.length_cons, List.length_nil] at this
  rw [this]
  exact gramOf_example

/-! ## C31 -/

/-- a probability vector with its atoms. -/
structure IsProb {n : ℕ} (p : Fin n → ℝ) : Prop where
  nonneg : ∀ i, 0 ≤ p i
  sum : ∑ i, p i = 1

theorem gramOf_posSemidef {n : ℕ} (p x : Fin n → ℝ) (hp : ∀ i, 0 ≤ p i) (ms : List ℝ)
    (h : ∀ k < ms.length, ms.getD k 0 = ∑ i, p i * x i ^ k) : (gramOf ms).PosSemidef := by
  refine Matrix.PosSemidef.of_dotProduct_mulVec_nonneg ?_ ?_
  · rw [Matrix.IsHermitian, Matrix.conjTranspose_eq_transpose_of_trivial]
    exact hankelMat_isSymm _ _
  · intro c
    have : star c ⬝ᵥ (gramOf ms *ᵥ c) = ∑ i, p i * (∑ a, c a * x i ^ (a : ℕ)) ^ 2 := by
      have hm : ∀ a b : Fin (ms.length / 2), gramOf ms a b = ∑ i, p i * x i ^ ((a : ℕ) + b) := by
        intro a b
        simp only [gramOf, hankelMat, Matrix.of_apply]
        exact h _ (by omega)
      simp only [star_trivial, dotProduct, Matrix.mulVec, hm, Finset.mul_sum, Finset.sum_mul, sq]
      rw [Finset.sum_congr rfl fun i _ => Finset.sum_comm, Finset.sum_comm]
      refine Finset.sum_congr rfl fun i _ => ?_
      rw [Finset.sum_comm]
      refine Finset.sum_congr rfl fun a _ => Finset.sum_congr rfl fun b _ => ?_
      rw [pow_add]; ring
    rw [this]
    exact Finset.sum_nonneg fun i _ => mul_nonneg (hp i) (sq_nonneg _)

theorem mean_between {n : ℕ} (p x : Fin n → ℝ) (hp : IsProb p) :
    ∃ i j, x i ≤ ∑ k, p k * x k ∧ ∑ k, p k * x k ≤ x j := by
  have hn : (Finset.univ : Finset (Fin n)).Nonempty := by
    by_contra h
    rw [Finset.not_nonempty_iff_eq_empty] at h
    have := hp.sum
    rw [h] at this; simp at this
  obtain ⟨i, _, hi⟩ := Finset.exists_min_image Finset.univ x hn
  obtain ⟨j, _, hj⟩ := Finset.exists_max_image Finset.univ x hn
  refine ⟨i, j, ?_, ?_⟩
  · calc x i = ∑ k, p k * x i := by rw [← Finset.sum_mul, hp.sum, one_mul]
      _ ≤ _ := Finset.sum_le_sum fun k _ => mul_le_mul_of_nonneg_left (hi k (Finset.mem_univ _)) (hp.nonneg k)
  · calc _ ≤ ∑ k, p k * x j := Finset.sum_le_sum fun k _ => mul_le_mul_of_nonneg_left (hj k (Finset.mem_univ _)) (hp.nonneg k)
      _ = x j := by rw [← Finset.sum_mul, hp.sum, one_mul]

/-- **C31.** With a non-negative measurement density and a positive predictive likelihood, the `k`-th output is the moment
vector of a probability `p` on finitely many points `x`: raw, central about its mean, or scaled by its standard
deviation, according to the filter. Hence its Gram matrix is positive semidefinite and the mean lies between two of the
points. -/
theorem C31_realisable (B : Backend) (stable : Bool) (pdf : Y → ℝ → ℝ) (hpdf : ∀ y x, 0 ≤ pdf y x) (ys : List Y) (k : ℕ)
    (y : Y) (hy : ys[k]? = some y) :
    (∀ (P : ℝ → ℕ → ℝ) (rms0 o q : List ℝ), (filterRms B P pdf rms0 ys stable).1[k]? = some o →
      (rms0 :: (filterRms B P pdf rms0 ys stable).1)[k]? = some q → 0 < likRms B stable P pdf rms0.length q y →
      ∃ (n : ℕ) (p x : Fin n → ℝ), IsProb p ∧ o.length = rms0.length ∧
        (∀ j < rms0.length, o.getD j 0 = ∑ i, p i * x i ^ j) ∧ (gramOf o).PosSemidef ∧
        (2 ≤ rms0.length → ∃ a b, x a ≤ o.getD 1 0 ∧ o.getD 1 0 ≤ x b)) ∧
    (∀ (P : ℝ → ℕ → ℝ → ℝ) (cm : ℝ → ℝ) (cms0 : List ℝ) (m0 : ℝ) (o q : List ℝ × ℝ),
      (filterCms B P cm pdf cms0 m0 ys stable).1[k]? = some o →
      ((cms0, m0) :: (filterCms B P cm pdf cms0 m0 ys stable).1)[k]? = some q →
      0 < likCms B stable P cm pdf cms0.length q y →
      ∃ (n : ℕ) (p x : Fin n → ℝ), IsProb p ∧ o.2 = ∑ i, p i * x i ∧ o.1.length = cms0.length ∧
        (∀ j < cms0.length, o.1.getD j 0 = ∑ i, p i * (x i - o.2) ^ j) ∧ (gramOf o.1).PosSemidef ∧
        ∃ a b, x a ≤ o.2 ∧ o.2 ≤ x b) ∧
    (∀ (P : ℝ → ℕ → ℝ → ℝ → ℝ) (cm cv : ℝ → ℝ) (scms0 : List ℝ) (m0 s0 : ℝ) (o q : List ℝ × ℝ × ℝ),
      (filterScms B P cm cv pdf scms0 m0 s0 ys stable).1[k]? = some o →
      ((scms0, m0, s0) :: (filterScms B P cm cv pdf scms0 m0 s0 ys stable).1)[k]? = some q →
      0 < likScms B stable P cm cv pdf scms0.length q y →
      ∃ (n : ℕ) (p x : Fin n → ℝ), IsProb p ∧ o.2.1 = ∑ i, p i * x i ∧
        o.2.2 = Real.sqrt (∑ i, p i * (x i - o.2.1) ^ 2) ∧ o.1.length = scms0.length ∧
        (∀ j < scms0.length, o.1.getD j 0 = ∑ i, p i * ((x i - o.2.1) / o.2.2) ^ j) ∧ (gramOf o.1).PosSemidef ∧
        ∃ a b, x a ≤ o.2.1 ∧ o.2.1 ≤ x b) := by
  have key : ∀ {n : ℕ} (r : (Fin n → ℝ) × (Fin n → ℝ)), (∀ i, 0 ≤ r.1 i) → ∀ Z, Z = integ r (pdf y) → 0 < Z →
      IsProb (fun i => r.1 i * pdf y (r.2 i) / Z) ∧
      ∀ f : ℝ → ℝ, integ r (fun x => f x * pdf y x) / Z = ∑ i, r.1 i * pdf y (r.2 i) / Z * f (r.2 i) := by
    intro n r hr Z hZ hpos
    refine ⟨⟨fun i => ?_, ?_⟩, fun f => ?_⟩
    · exact div_nonneg (mul_nonneg (hr i) (hpdf _ _)) hpos.le
    · rw [← Finset.sum_div, hZ]
      have h0 : integ r (pdf y) ≠ 0 := hZ ▸ hpos.ne'
      exact div_self h0
    · simp only [integ, Finset.sum_div]
      exact Finset.sum_congr rfl fun i _ => by ring
  refine ⟨?_, ?_, ?_⟩
  · intro P rms0 o q ho hq hl
    rw [filterRms_eq] at ho hq
    obtain ⟨q', hq', rfl⟩ := traj_getElem _ _ _ _ _ ho hy
    obtain rfl : q' = q := by simpa [hq'] using hq
    obtain ⟨h1, h2⟩ := key (momentQuadrature B (predRms B stable P rms0.length q') 0 1 false stable)
      (fun i => sq_nonneg _) _ rfl hl
    have h3 : ∀ j < rms0.length, (nextRms B stable P pdf rms0.length q' y).getD j 0 = _ :=
      fun j hj => (getD_map_range _ hj).trans (h2 (fun x => x ^ j))
    have hlen : (nextRms B stable P pdf rms0.length q' y).length = rms0.length := by simp [nextRms]
    refine ⟨_, _, _, h1, hlen, h3, gramOf_posSemidef _ _ h1.nonneg _ (fun j hj => h3 j (hlen ▸ hj)), fun hr => ?_⟩
    rw [h3 1 (by omega)]
    simp only [pow_one]
    exact mean_between _ _ h1
  · intro P cm cms0 m0 o q ho hq hl
    rw [filterCms_eq] at ho hq
    obtain ⟨q', hq', rfl⟩ := traj_getElem _ _ _ _ _ ho hy
    obtain rfl : q' = q := by simpa [hq'] using hq
    obtain ⟨h1, h2⟩ := key (momentQuadrature B (predCms B stable P cm cms0.length q').1
      (predCms B stable P cm cms0.length q').2 1 false stable) (fun i => sq_nonneg _) _ rfl hl
    set o := nextCms B stable P cm pdf cms0.length q' y with hodef
    have hm : o.2 = _ := h2 (fun x => (x - 0) ^ 1)
    simp only [sub_zero, pow_one] at hm
    have h3 : ∀ j < cms0.length, o.1.getD j 0 = _ :=
      fun j hj => (getD_map_range _ hj).trans (h2 (fun x => (x - o.2) ^ j))
    have hlen : o.1.length = cms0.length := by simp [hodef, nextCms]
    refine ⟨_, _, _, h1, hm, hlen, h3, gramOf_posSemidef _ _ h1.nonneg _ (fun j hj => h3 j (hlen ▸ hj)), ?_⟩
    rw [hm]
    exact mean_between _ _ h1
  · intro P cm cv scms0 m0 s0 o q ho hq hl
    rw [filterScms_eq] at ho hq
    obtain ⟨q', hq', rfl⟩ := traj_getElem _ _ _ _ _ ho hy
    obtain rfl : q' = q := by simpa [hq'] using hq
    obtain ⟨h1, h2⟩ := key (momentQuadrature B (predScms B stable P cm cv scms0.length q').1
      (predScms B stable P cm cv scms0.length q').2.1 (predScms B stable P cm cv scms0.length q').2.2 false stable)
      (fun i => sq_nonneg _) _ rfl hl
    set o := nextScms B stable P cm cv pdf scms0.length q' y with hodef
    have hm : o.2.1 = _ := h2 (fun x => ((x - 0) / 1) ^ 1)
    simp only [sub_zero, pow_one, div_one] at hm
    have hs : o.2.2 = Real.sqrt _ := congrArg Real.sqrt (h2 (fun x => ((x - o.2.1) / 1) ^ 2))
    simp only [div_one] at hs
    have h3 : ∀ j < scms0.length, o.1.getD j 0 = _ :=
      fun j hj => (getD_map_range _ hj).trans (h2 (fun x => ((x - o.2.1) / o.2.2) ^ j))
    have hlen : o.1.length = scms0.length := by simp [hodef, nextScms]
    refine ⟨_, _, _, h1, hm, hs, hlen, h3, gramOf_posSemidef _ _ h1.nonneg _ (fun j hj => h3 j (hlen ▸ hj)), ?_⟩
    rw [hm]
    exact mean_between _ _ h1

end Mfs.Props

import Verif.Lemmas.ChapmanRun

/-!
# Limits of the grid recursion
-/

namespace Mfs.GridConv

open MeasureTheory Filter Topology Set ProbabilityTheory Mfs.BruteForce Mfs.Spec

variable {Y : Type}

theorem exists_long {P : ℝ → ℝ → Prop} (h : ∀ᶠ ab in long, P ab.1 ab.2) : ∃ L : ℝ, ∀ a ≤ -L, ∀ b ≥ L, P a b := by
  obtain ⟨pa, ha, pb, hb, H⟩ := eventually_prod_iff.1 h
  obtain ⟨a₀, ha⟩ := eventually_atBot.1 ha
  obtain ⟨b₀, hb⟩ := eventually_atTop.1 hb
  refine ⟨max (-a₀) b₀, fun a haL b hbL => H (ha a ?_) (hb b ?_)⟩
  · have := le_max_left (-a₀) b₀
    linarith
  · exact (le_max_right (-a₀) b₀).trans hbL

theorem exists_long_fine {Q : (Σ N : ℕ, Fin (N + 2) → ℝ) → Prop} (h : ∀ᶠ ab in long, ∀ᶠ g in fine ab.1 ab.2, Q g) :
    ∃ L : ℝ, ∀ a ≤ -L, ∀ b ≥ L, ∃ h > 0, ∀ (N : ℕ) (xs : Fin (N + 2) → ℝ), Grid a b h xs → Q ⟨N, xs⟩ := by
  obtain ⟨L, hL⟩ := exists_long (P := fun a b => ∀ᶠ g in fine a b, Q g) h
  exact ⟨L, fun a ha b hb => eventually_fine.1 (hL a ha b hb)⟩

theorem eventually_long_fine {Q : (Σ N : ℕ, Fin (N + 2) → ℝ) → Prop}
    (h : ∃ L : ℝ, ∀ a ≤ -L, ∀ b ≥ L, ∃ h > 0, ∀ (N : ℕ) (xs : Fin (N + 2) → ℝ), Grid a b h xs → Q ⟨N, xs⟩) :
    ∀ᶠ ab in long, ∀ᶠ g in fine ab.1 ab.2, Q g := by
  obtain ⟨L, hL⟩ := h
  have h1 : ∀ᶠ ab in long, ab.1 ≤ -L := (eventually_le_atBot (-L)).prod_inl _
  have h2 : ∀ᶠ ab in long, L ≤ ab.2 := (eventually_ge_atTop L).prod_inr _
  filter_upwards [h1, h2] with ab h1 h2
  exact eventually_fine.2 (hL ab.1 h1 ab.2 h2)

theorem eventually_all_long {ι : Type} (I : Finset ι) {Q : ι → (Σ N : ℕ, Fin (N + 2) → ℝ) → Prop}
    (h : ∀ i ∈ I, ∀ᶠ ab in long, ∀ᶠ g in fine ab.1 ab.2, Q i g) : ∀ᶠ ab in long, ∀ᶠ g in fine ab.1 ab.2, ∀ i ∈ I, Q i g := by
  rw [← eventually_all_finset] at h
  filter_upwards [h] with ab h
  rw [← eventually_all_finset] at h
  exact h

theorem ratio_close {q z A Z ζ D : ℝ} (hζ : 0 < ζ) (hz : ζ ≤ z) (hZ : ζ ≤ Z) (hA : |A| ≤ D) :
    |q / z - A / Z| ≤ |q - A| / ζ + D * |z - Z| / ζ ^ 2 := by
  have hz0 : 0 < z := hζ.trans_le hz
  have hZ0 : 0 < Z := hζ.trans_le hZ
  have e : q / z - A / Z = (q - A) / z + A * (Z - z) / (z * Z) := by
    field_simp
    ring
  rw [e]
  refine (abs_add_le _ _).trans (add_le_add ?_ ?_)
  · rw [abs_div, abs_of_pos hz0]
    exact div_le_div_of_nonneg_left (abs_nonneg _) hζ hz
  · rw [abs_div, abs_mul, abs_of_pos (mul_pos hz0 hZ0), abs_sub_comm Z z, sq]
    exact div_le_div₀ (mul_nonneg ((abs_nonneg _).trans hA) (abs_nonneg _)) (mul_le_mul_of_nonneg_right hA (abs_nonneg _)) (mul_pos hζ hζ)
      (mul_le_mul hz hZ hζ.le hz0.le)

/-- the constants of `ratio_close`. -/
theorem exists_eta {ε Z D : ℝ} (hε : 0 < ε) (hZ : 0 < Z) (hD : 0 ≤ D) :
    ∃ η > 0, ∀ q z A : ℝ, |A| ≤ D → |q - A| ≤ η → |z - Z| ≤ η → |q / z - A / Z| ≤ ε := by
  have hc : 0 < 1 / (Z / 2) + D / (Z / 2) ^ 2 := by positivity
  refine ⟨min (Z / 2) (ε / (1 / (Z / 2) + D / (Z / 2) ^ 2)), lt_min (half_pos hZ) (div_pos hε hc), fun q z A hA hq hz => ?_⟩
  set η := min (Z / 2) (ε / (1 / (Z / 2) + D / (Z / 2) ^ 2)) with hη
  have h1 : η ≤ Z / 2 := min_le_left _ _
  have h2 : η ≤ ε / (1 / (Z / 2) + D / (Z / 2) ^ 2) := min_le_right _ _
  rw [le_div_iff₀ hc] at h2
  have hzl := (abs_le.1 hz).1
  refine (ratio_close (half_pos hZ) (by linarith) (by linarith) hA).trans (le_trans ?_ h2)
  have h3 : |q - A| / (Z / 2) ≤ η / (Z / 2) := div_le_div_of_nonneg_right hq (half_pos hZ).le
  have h4 : D * |z - Z| / (Z / 2) ^ 2 ≤ D * η / (Z / 2) ^ 2 := div_le_div_of_nonneg_right (mul_le_mul_of_nonneg_left hz hD) (by positivity)
  calc _ ≤ η / (Z / 2) + D * η / (Z / 2) ^ 2 := add_le_add h3 h4
    _ = _ := by ring

section
variable {m s : ℝ → ℝ} {C : ℝ} (hk : TransDens (fun x u => normPdf x (m u) (s u)) C) {lik : Y → ℝ → ℝ}
  (hlc : ∀ y, Continuous (lik y)) (hl0 : ∀ y x, 0 < lik y x) (hlb : ∀ y, ∃ M, ∀ x, lik y x ≤ M) (steps : ℕ) {p : ℝ → ℝ} (hp : Close (fun _ => p) p)

/-- the unnormalised recursion of the code on a grid. -/
noncomputable abbrev gr (m s : ℝ → ℝ) (lik : Y → ℝ → ℝ) (steps : ℕ) (p : ℝ → ℝ) (ys : List Y) : GridFun := fun _ xs =>
  gridRun (predChapman (fun i => m (xs i)) (fun i => s (xs i)) xs steps) (fun y xs i => lik y (xs i)) xs (fun i => p (xs i)) ys

/-- the unnormalised recursion on the line. -/
noncomputable abbrev un (m s : ℝ → ℝ) (lik : Y → ℝ → ℝ) (steps : ℕ) (p : ℝ → ℝ) (ys : List Y) : ℝ → ℝ :=
  run (fun x u => normPdf x (m u) (s u)) volume lik steps p ys

include hk hlc hl0 hlb hp

theorem unnorm_unif (ys : List Y) {η : ℝ} (hη : 0 < η) :
    ∀ᶠ ab in long, ∀ᶠ g in fine ab.1 ab.2, ∀ i, |gr m s lik steps p ys g.1 g.2 i - un m s lik steps p ys (g.2 i)| ≤ η := by
  have hcl := close_run hk hlc (fun y x => (hl0 y x).le) hlb steps hp ys
  filter_upwards [hcl.unif (η / 2) (half_pos hη), eventually_long_le] with ab h1 hab
  have h2 := (approx_run hab hk hlc steps hp.cont (approx_self ab.1 ab.2 p) ys).2 (η / 2) (half_pos hη)
  filter_upwards [h2] with g hg i
  have h3 := h1 (g.2 i)
  have h4 := hcl.le ab (g.2 i)
  have h5 := abs_le.1 (hg i)
  rw [abs_le]
  constructor <;> simp only [un, gr] at * <;> linarith [h5.1, h5.2]

theorem unnorm_test (ys : List Y) {f : ℝ → ℝ} (hf : Continuous f) (hfi : Integrable fun x => f x * un m s lik steps p ys x) {η : ℝ}
    (hη : 0 < η) : ∀ᶠ ab in long, ∀ᶠ g in fine ab.1 ab.2,
      |trapz (fun i => f (g.2 i) * gr m s lik steps p ys g.1 g.2 i) g.2 - ∫ x, f x * un m s lik steps p ys x| ≤ η := by
  have hcl := close_run hk hlc (fun y x => (hl0 y x).le) hlb steps hp ys
  set A : ℝ × ℝ → ℝ → ℝ := fun ab => run (fun x u => normPdf x (m u) (s u)) (volume.restrict (Ioc ab.1 ab.2)) lik steps p ys with hA
  have hlim : Tendsto (fun ab => ∫ x, f x * cut ab (A ab) x) long (𝓝 (∫ x, f x * un m s lik steps p ys x)) := by
    refine tendsto_integral_filter_of_dominated_convergence (fun x => ‖f x * un m s lik steps p ys x‖)
      (Eventually.of_forall fun ab => hf.aestronglyMeasurable.mul (hcl.int_cut ab).aestronglyMeasurable)
      (Eventually.of_forall fun ab => Eventually.of_forall fun x => ?_) hfi.norm (Eventually.of_forall fun x => ?_)
    · rw [norm_mul, norm_mul]
      refine mul_le_mul_of_nonneg_left ?_ (norm_nonneg _)
      rw [Real.norm_eq_abs, Real.norm_eq_abs, abs_of_nonneg (hcl.cut_le ab x).1, abs_of_nonneg (hcl.pos x)]
      exact (hcl.cut_le ab x).2
    · refine Tendsto.const_mul _ ?_
      rw [Metric.tendsto_nhds]
      intro ε hε
      filter_upwards [hcl.unif (ε / 2) (half_pos hε), eventually_long_mem x] with ab h1 h2
      rw [cut_mem h2, Real.dist_eq, abs_sub_comm, abs_of_nonneg (sub_nonneg.2 (hcl.le ab x))]
      exact (h1 x).trans_lt (half_lt_self hε)
  filter_upwards [Metric.tendsto_nhds.1 hlim (η / 2) (half_pos hη), eventually_long_le] with ab h1 hab
  obtain ⟨h2, h3⟩ := approx_run hab hk hlc steps hp.cont (approx_self ab.1 ab.2 p) ys
  have h4 := approx_trapz hab (hf.mul h2) (approx_mul hf h3)
  have e : ∫ u in ab.1..ab.2, f u * A ab u = ∫ x, f x * cut ab (A ab) x := by
    rw [intervalIntegral.integral_of_le hab, ← integral_indicator measurableSet_Ioc]
    refine integral_congr_ae (Eventually.of_forall fun u => ?_)
    simp only [cut, indicator_apply]
    split_ifs <;> simp
  rw [Real.dist_eq] at h1
  filter_upwards [Metric.tendsto_nhds.1 h4 (η / 2) (half_pos hη)] with g hg
  rw [Real.dist_eq] at hg
  have := abs_sub_le (trapz (fun i => f (g.2 i) * gr m s lik steps p ys g.1 g.2 i) g.2) (∫ x, f x * cut ab (A ab) x)
    (∫ x, f x * un m s lik steps p ys x)
  refine this.trans ?_
  have hg' : |trapz (fun i => f (g.2 i) * gr m s lik steps p ys g.1 g.2 i) g.2 - ∫ x, f x * cut ab (A ab) x| < η / 2 := by
    rw [← e]
    exact hg
  linarith

theorem unnorm_mass (ys : List Y) {η : ℝ} (hη : 0 < η) : ∀ᶠ ab in long, ∀ᶠ g in fine ab.1 ab.2,
      |trapz (gr m s lik steps p ys g.1 g.2) g.2 - ∫ x, un m s lik steps p ys x| ≤ η := by
  have hcl := close_run hk hlc (fun y x => (hl0 y x).le) hlb steps hp ys
  have := unnorm_test hk hlc hl0 hlb steps hp ys (f := fun _ => 1) continuous_const (by simpa using hcl.int) hη
  simpa only [one_mul] using this

/-- the density of the exact filter. -/
noncomputable abbrev dn (m s : ℝ → ℝ) (lik : Y → ℝ → ℝ) (steps : ℕ) (p : ℝ → ℝ) (ys : List Y) (t : ℕ) : ℝ → ℝ := fun x =>
  un m s lik steps p (ys.take (t + 1)) x / ∫ x, un m s lik steps p (ys.take (t + 1)) x

variable (hp1 : 0 < ∫ x, p x)
include hp1

/-- the normalised outputs on fine grids. -/
theorem scan_fine (ys : List Y) : ∀ᶠ ab in long, ∀ᶠ g in fine ab.1 ab.2, ∀ t < ys.length,
    (scan (updateBody (predChapman (fun i => m (g.2 i)) (fun i => s (g.2 i)) g.2 steps) (fun y xs i => lik y (xs i)) g.2) (fun i => p (g.2 i)) ys).2.getD t 0
      = fun i => gr m s lik steps p (ys.take (t + 1)) g.1 g.2 i / trapz (gr m s lik steps p (ys.take (t + 1)) g.1 g.2) g.2 := by
  have h1 : ∀ t ∈ Finset.range ys.length, ∀ᶠ ab in long, ∀ᶠ g in fine ab.1 ab.2, trapz (gr m s lik steps p (ys.take (t + 1)) g.1 g.2) g.2 ≠ 0 := by
    intro t _
    have hpos := run_pos hk hlc hl0 hlb steps hp hp1 (ys.take (t + 1))
    filter_upwards [unnorm_mass hk hlc hl0 hlb steps hp (ys.take (t + 1)) (half_pos hpos)] with ab h
    filter_upwards [h] with g hg h0
    rw [h0, zero_sub, abs_neg, abs_of_pos hpos] at hg
    linarith
  rw [← eventually_all_finset] at h1
  filter_upwards [h1] with ab h1
  rw [← eventually_all_finset] at h1
  filter_upwards [h1] with g hg t ht
  have := scan_gridRun (predChapman (fun i => m (g.2 i)) (fun i => s (g.2 i)) g.2 steps) (fun q c => predChapman_div _ _ _ _ q c)
    (fun y xs i => lik y (xs i)) g.2 ys (fun i => p (g.2 i)) 1 one_ne_zero (fun t ht => hg t (Finset.mem_range.2 ht)) t ht
  simpa only [div_one] using this

theorem scan_unif (ys : List Y) {ε : ℝ} (hε : 0 < ε) : ∀ᶠ ab in long, ∀ᶠ g in fine ab.1 ab.2, ∀ t < ys.length, ∀ i,
    |(scan (updateBody (predChapman (fun i => m (g.2 i)) (fun i => s (g.2 i)) g.2 steps) (fun y xs i => lik y (xs i)) g.2) (fun i => p (g.2 i)) ys).2.getD t 0 i
      - dn m s lik steps p ys t (g.2 i)| ≤ ε := by
  have h1 : ∀ t ∈ Finset.range ys.length, ∀ᶠ ab in long, ∀ᶠ g in fine ab.1 ab.2, ∀ i,
      |gr m s lik steps p (ys.take (t + 1)) g.1 g.2 i / trapz (gr m s lik steps p (ys.take (t + 1)) g.1 g.2) g.2 - dn m s lik steps p ys t (g.2 i)| ≤ ε := by
    intro t _
    have hpos := run_pos hk hlc hl0 hlb steps hp hp1 (ys.take (t + 1))
    have hcl := close_run hk hlc (fun y x => (hl0 y x).le) hlb steps hp (ys.take (t + 1))
    obtain ⟨D, hD⟩ := hcl.bdd
    obtain ⟨η, hη, H⟩ := exists_eta hε hpos ((hcl.pos 0).trans (hD 0))
    filter_upwards [unnorm_mass hk hlc hl0 hlb steps hp (ys.take (t + 1)) hη, unnorm_unif hk hlc hl0 hlb steps hp (ys.take (t + 1)) hη] with ab h1 h2
    filter_upwards [h1, h2] with g h1 h2 i
    refine H _ _ _ ?_ (h2 i) h1
    rw [abs_of_nonneg (hcl.pos _)]
    exact hD _
  rw [← eventually_all_finset] at h1
  filter_upwards [h1, scan_fine hk hlc hl0 hlb steps hp hp1 ys] with ab h1 h2
  rw [← eventually_all_finset] at h1
  filter_upwards [h1, h2] with g h1 h2 t ht i
  rw [h2 t ht]
  exact h1 t (Finset.mem_range.2 ht) i

theorem scan_test (ys : List Y) {t : ℕ} (ht : t < ys.length) {f : ℝ → ℝ} (hf : Continuous f)
    (hfi : Integrable fun x => f x * dn m s lik steps p ys t x) {ε : ℝ} (hε : 0 < ε) : ∀ᶠ ab in long, ∀ᶠ g in fine ab.1 ab.2,
    |trapz (fun i => f (g.2 i) * (scan (updateBody (predChapman (fun i => m (g.2 i)) (fun i => s (g.2 i)) g.2 steps) (fun y xs i => lik y (xs i)) g.2)
      (fun i => p (g.2 i)) ys).2.getD t 0 i) g.2 - ∫ x, f x * dn m s lik steps p ys t x| ≤ ε := by
  have hpos := run_pos hk hlc hl0 hlb steps hp hp1 (ys.take (t + 1))
  have hfi' : Integrable fun x => f x * un m s lik steps p (ys.take (t + 1)) x := by
    refine (hfi.mul_const (∫ x, un m s lik steps p (ys.take (t + 1)) x)).congr (Eventually.of_forall fun x => ?_)
    simp only [dn]
    field_simp
  obtain ⟨η, hη, H⟩ := exists_eta hε hpos (abs_nonneg (∫ x, f x * un m s lik steps p (ys.take (t + 1)) x))
  filter_upwards [unnorm_mass hk hlc hl0 hlb steps hp (ys.take (t + 1)) hη, unnorm_test hk hlc hl0 hlb steps hp (ys.take (t + 1)) hf hfi' hη,
    scan_fine hk hlc hl0 hlb steps hp hp1 ys] with ab h1 h2 h3
  filter_upwards [h1, h2, h3] with g h1 h2 h3
  have h4 := H _ _ _ le_rfl h2 h1
  rw [h3 t ht]
  have e1 : trapz (fun i => f (g.2 i) * (gr m s lik steps p (ys.take (t + 1)) g.1 g.2 i / trapz (gr m s lik steps p (ys.take (t + 1)) g.1 g.2) g.2)) g.2
      = trapz (fun i => f (g.2 i) * gr m s lik steps p (ys.take (t + 1)) g.1 g.2 i) g.2 / trapz (gr m s lik steps p (ys.take (t + 1)) g.1 g.2) g.2 := by
    rw [trapz.eq_def (fun i => f (g.2 i) * (gr m s lik steps p (ys.take (t + 1)) g.1 g.2 i / _)), trapz.eq_def (fun i => f (g.2 i) * gr m s lik steps p (ys.take (t + 1)) g.1 g.2 i), Finset.sum_div]
    exact Finset.sum_congr rfl fun i _ => by ring
  have e2 : ∫ x, f x * dn m s lik steps p ys t x
      = (∫ x, f x * un m s lik steps p (ys.take (t + 1)) x) / ∫ x, un m s lik steps p (ys.take (t + 1)) x := by
    simp only [dn, ← mul_div_assoc]
    rw [integral_div]
  rw [e1, e2]
  exact h4

end

end Mfs.GridConv

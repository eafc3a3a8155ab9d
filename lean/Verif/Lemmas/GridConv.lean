import Verif.Model.BruteForce
import Mathlib.MeasureTheory.Integral.IntervalIntegral.Basic
import Mathlib.MeasureTheory.Integral.IntegralEqImproper
import Mathlib.MeasureTheory.Integral.Prod
import Mathlib.Topology.UniformSpace.HeineCantor

/-!
# The trapezoidal rule on grids that become finer
-/

namespace Mfs.GridConv

open MeasureTheory Filter Topology Set Mfs.BruteForce

/-- A grid over `[a, b]` with steps of at most `h`. -/
structure Grid {N : ℕ} (a b h : ℝ) (xs : Fin (N + 2) → ℝ) : Prop where
  mono : Monotone xs
  first : xs 0 = a
  last : xs (Fin.last (N + 1)) = b
  mesh : ∀ i : Fin (N + 1), xs i.succ - xs i.castSucc ≤ h

theorem Grid.weaken {N : ℕ} {a b h h' : ℝ} {xs : Fin (N + 2) → ℝ} (g : Grid a b h xs) (hh : h ≤ h') : Grid a b h' xs :=
  ⟨g.mono, g.first, g.last, fun i => (g.mesh i).trans hh⟩

theorem Grid.mem {N : ℕ} {a b h : ℝ} {xs : Fin (N + 2) → ℝ} (g : Grid a b h xs) (i : Fin (N + 2)) : xs i ∈ Icc a b :=
  ⟨g.first ▸ g.mono (Fin.zero_le i), g.last ▸ g.mono (Fin.le_last i)⟩

/-- the trapezoidal rule is close to the integral of a function with small oscillation. -/
theorem trapz_close {N : ℕ} {a b h ε δ : ℝ} {xs q : Fin (N + 2) → ℝ} (g : Grid a b h xs) {F : ℝ → ℝ} (hF : ContinuousOn F (Icc a b))
    (hosc : ∀ u ∈ Icc a b, ∀ v ∈ Icc a b, |u - v| ≤ h → |F u - F v| ≤ ε) (hq : ∀ i, |q i - F (xs i)| ≤ δ) :
    |trapz q xs - ∫ u in a..b, F u| ≤ (b - a) * (ε + δ) := by
  set x : ℕ → ℝ := fun k => xs ⟨min k (N + 1), by omega⟩ with hx
  set p : ℕ → ℝ := fun k => q ⟨min k (N + 1), by omega⟩ with hp
  have hmem : ∀ k, x k ∈ Icc a b := fun k => g.mem _
  have hmono : ∀ k, x k ≤ x (k + 1) := fun k => g.mono (by simp only [Fin.mk_le_mk]; omega)
  have hx0 : x 0 = a := by rw [← g.first]; rfl
  have hxN : x (N + 1) = b := by
    have e : (⟨min (N + 1) (N + 1), by omega⟩ : Fin (N + 2)) = Fin.last (N + 1) := by ext; simp
    rw [← g.last, ← e]
  have htr : trapz q xs = ∑ k ∈ Finset.range (N + 1), (x (k + 1) - x k) * (p (k + 1) + p k) / 2 := by
    rw [trapz, Finset.sum_range]
    refine Finset.sum_congr rfl fun i _ => ?_
    have e1 : (⟨min ((i : ℕ) + 1) (N + 1), by omega⟩ : Fin (N + 2)) = i.succ := Fin.ext (by simp only [Fin.val_succ]; omega)
    have e2 : (⟨min (i : ℕ) (N + 1), by omega⟩ : Fin (N + 2)) = i.castSucc := Fin.ext (by simp only [Fin.val_castSucc]; omega)
    simp only [hx, hp, e1, e2]
  have hint : ∀ k < N + 1, IntervalIntegrable F volume (x k) (x (k + 1)) := fun k _ => by
    refine (hF.mono ?_).intervalIntegrable
    rw [uIcc_of_le (hmono k)]
    exact Icc_subset_Icc (hmem k).1 (hmem (k + 1)).2
  have hsum := intervalIntegral.sum_integral_adjacent_intervals hint
  rw [hx0, hxN] at hsum
  rw [htr, ← hsum, ← Finset.sum_sub_distrib]
  have htel : ∑ k ∈ Finset.range (N + 1), (x (k + 1) - x k) = b - a := by
    rw [Finset.sum_range_sub, hx0, hxN]
  rw [← htel, Finset.sum_mul]
  refine (Finset.abs_sum_le_sum_abs _ _).trans (Finset.sum_le_sum fun k hk => ?_)
  have hk' : k < N + 1 := Finset.mem_range.1 hk
  have hmesh : x (k + 1) - x k ≤ h := by
    have e1 : (⟨min (k + 1) (N + 1), by omega⟩ : Fin (N + 2)) = (⟨k, hk'⟩ : Fin (N + 1)).succ := by ext; simp; omega
    have e2 : (⟨min k (N + 1), by omega⟩ : Fin (N + 2)) = (⟨k, hk'⟩ : Fin (N + 1)).castSucc := by ext; simp; omega
    have := g.mesh ⟨k, hk'⟩
    simp only [hx, e1, e2]
    exact this
  have e : (x (k + 1) - x k) * (p (k + 1) + p k) / 2 - ∫ u in (x k)..(x (k + 1)), F u
      = ∫ u in (x k)..(x (k + 1)), ((p (k + 1) + p k) / 2 - F u) := by
    rw [intervalIntegral.integral_sub intervalIntegrable_const (hint k hk'), intervalIntegral.integral_const, smul_eq_mul]
    ring
  rw [e]
  have hbound : ∀ u ∈ uIoc (x k) (x (k + 1)), ‖(p (k + 1) + p k) / 2 - F u‖ ≤ ε + δ := by
    intro u hu
    rw [uIoc_of_le (hmono k)] at hu
    have hu' : u ∈ Icc a b := ⟨(hmem k).1.trans hu.1.le, hu.2.trans (hmem (k + 1)).2⟩
    have h1 := hosc _ (hmem k) _ hu' (by rw [abs_le]; constructor <;> linarith [hu.1, hu.2])
    have h2 := hosc _ (hmem (k + 1)) _ hu' (by rw [abs_le]; constructor <;> linarith [hu.1, hu.2])
    have h3 : |p k - F (x k)| ≤ δ := hq _
    have h4 : |p (k + 1) - F (x (k + 1))| ≤ δ := hq _
    rw [abs_le] at h1 h2 h3 h4
    rw [Real.norm_eq_abs, abs_le]
    constructor <;> linarith [h1.1, h1.2, h2.1, h2.2, h3.1, h3.2, h4.1, h4.2]
  have := intervalIntegral.norm_integral_le_of_norm_le_const hbound
  rw [Real.norm_eq_abs, abs_of_nonneg (sub_nonneg.2 (hmono k)), mul_comm] at this
  exact this

/-- A grid function: values on every grid. -/
abbrev GridFun := (N : ℕ) → (Fin (N + 2) → ℝ) → Fin (N + 2) → ℝ

/-- fine grids over `[a, b]`. -/
def fine (a b : ℝ) : Filter (Σ N : ℕ, Fin (N + 2) → ℝ) := ⨅ h ∈ Ioi (0 : ℝ), 𝓟 {g | Grid a b h g.2}

theorem fine_basis (a b : ℝ) : (fine a b).HasBasis (fun h : ℝ => 0 < h) fun h => {g | Grid a b h g.2} := by
  refine hasBasis_biInf_principal ?_ ⟨1, by simp⟩
  intro h hh h' hh'
  exact ⟨min h h', mem_Ioi.2 (lt_min hh hh'), fun g hg => hg.weaken (min_le_left _ _), fun g hg => hg.weaken (min_le_right _ _)⟩

theorem eventually_fine {a b : ℝ} {P : (Σ N : ℕ, Fin (N + 2) → ℝ) → Prop} :
    (∀ᶠ g in fine a b, P g) ↔ ∃ h > 0, ∀ (N : ℕ) (xs : Fin (N + 2) → ℝ), Grid a b h xs → P ⟨N, xs⟩ := by
  rw [(fine_basis a b).eventually_iff]
  constructor
  · rintro ⟨h, hh, H⟩
    exact ⟨h, hh, fun N xs hg => H hg⟩
  · rintro ⟨h, hh, H⟩
    exact ⟨h, hh, fun g hg => H g.1 g.2 hg⟩

theorem eventually_grid (a b : ℝ) {h : ℝ} (hh : 0 < h) : ∀ᶠ g in fine a b, Grid a b h g.2 := eventually_fine.2 ⟨h, hh, fun _ _ hg => hg⟩

/-- the grid function converges uniformly to `f` on fine grids. -/
def Approx (a b : ℝ) (q : GridFun) (f : ℝ → ℝ) : Prop := ∀ ε > 0, ∀ᶠ g in fine a b, ∀ i, |q g.1 g.2 i - f (g.2 i)| ≤ ε

theorem approx_self (a b : ℝ) (f : ℝ → ℝ) : Approx a b (fun _ xs i => f (xs i)) f := fun ε hε =>
  Eventually.of_forall fun g i => by simp [hε.le]

theorem approx_congr {a b : ℝ} {q q' : GridFun} {f : ℝ → ℝ} (h : Approx a b q f) (e : ∀ N xs i, q N xs i = q' N xs i) : Approx a b q' f :=
  fun ε hε => (h ε hε).mono fun g hg i => by rw [← e]; exact hg i

theorem exists_bound {a b : ℝ} {f : ℝ → ℝ} (hf : Continuous f) : ∃ C > 0, ∀ x ∈ Icc a b, |f x| ≤ C := by
  obtain ⟨C, hC⟩ := isCompact_Icc.exists_bound_of_continuousOn (f := f) (s := Icc a b) hf.continuousOn
  exact ⟨max C 1, lt_max_of_lt_right one_pos, fun x hx => (hC x hx).trans (le_max_left _ _)⟩

theorem approx_mul {a b : ℝ} {q : GridFun} {f g : ℝ → ℝ} (hg : Continuous g) (h : Approx a b q f) :
    Approx a b (fun N xs i => g (xs i) * q N xs i) fun x => g x * f x := by
  obtain ⟨C, hC, hb⟩ := exists_bound (a := a) (b := b) hg
  intro ε hε
  filter_upwards [h (ε / C) (by positivity), eventually_grid a b one_pos] with xs h1 h2 i
  rw [← mul_sub, abs_mul]
  calc |g (xs.2 i)| * |q xs.1 xs.2 i - f (xs.2 i)| ≤ C * (ε / C) :=
        mul_le_mul (hb _ (h2.mem i)) (h1 i) (abs_nonneg _) hC.le
    _ = ε := by field_simp

/-- the trapezoidal rule applied to a kernel times an approximation. -/
theorem approx_kernel {a b : ℝ} (hab : a ≤ b) {q : GridFun} {f : ℝ → ℝ} (hf : Continuous f) (h : Approx a b q f) {k : ℝ → ℝ → ℝ}
    (hk : Continuous (Function.uncurry k)) :
    Approx a b (fun _ xs i => trapz (fun j => k (xs i) (xs j) * q _ xs j) xs) fun x => ∫ u in a..b, k x u * f u := by
  have hsq : IsCompact (Icc a b ×ˢ Icc a b : Set (ℝ × ℝ)) := isCompact_Icc.prod isCompact_Icc
  obtain ⟨C', hC'⟩ := hsq.exists_bound_of_continuousOn hk.continuousOn
  set C := max C' 1
  have hC : 0 < C := lt_max_of_lt_right one_pos
  have hkC : ∀ x ∈ Icc a b, ∀ u ∈ Icc a b, |k x u| ≤ C := fun x hx u hu => (hC' (x, u) ⟨hx, hu⟩).trans (le_max_left _ _)
  have hG : Continuous fun z : ℝ × ℝ => k z.1 z.2 * f z.2 := hk.mul (hf.comp continuous_snd)
  have huc := hsq.uniformContinuousOn_of_continuous hG.continuousOn
  rw [Metric.uniformContinuousOn_iff] at huc
  intro ε hε
  set η := ε / (2 * (b - a + 1)) with hη
  have hba : 0 < b - a + 1 := by linarith
  have hη0 : 0 < η := by positivity
  obtain ⟨d, hd, hd'⟩ := huc η hη0
  filter_upwards [h (η / C) (by positivity), eventually_grid a b (half_pos hd)] with xs h1 h2 i
  have key := trapz_close (q := fun j => k (xs.2 i) (xs.2 j) * q xs.1 xs.2 j) h2 (F := fun u => k (xs.2 i) u * f u) (ε := η) (δ := η)
    (Continuous.continuousOn (hG.comp (continuous_const.prodMk continuous_id))) ?_ ?_
  · refine key.trans ?_
    have h2ba : (b - a) * (η + η) ≤ (b - a + 1) * (η + η) := by nlinarith
    refine h2ba.trans (le_of_eq ?_)
    rw [hη]
    field_simp
    ring
  · intro u hu v hv huv
    have := hd' (xs.2 i, u) ⟨h2.mem i, hu⟩ (xs.2 i, v) ⟨h2.mem i, hv⟩ (by
      rw [Prod.dist_eq, dist_self, max_eq_right dist_nonneg, Real.dist_eq]
      linarith)
    rw [Real.dist_eq] at this
    exact this.le
  · intro j
    rw [← mul_sub, abs_mul]
    calc _ ≤ C * (η / C) := mul_le_mul (hkC _ (h2.mem i) _ (h2.mem j)) (h1 j) (abs_nonneg _) hC.le
      _ = η := by field_simp

theorem approx_trapz {a b : ℝ} (hab : a ≤ b) {q : GridFun} {f : ℝ → ℝ} (hf : Continuous f) (h : Approx a b q f) :
    Tendsto (fun g : Σ N : ℕ, Fin (N + 2) → ℝ => trapz (q g.1 g.2) g.2) (fine a b) (𝓝 (∫ u in a..b, f u)) := by
  rw [Metric.tendsto_nhds]
  intro ε hε
  have key := approx_kernel hab hf h (k := fun _ _ => 1) continuous_const (ε / 2) (half_pos hε)
  filter_upwards [key] with g hg
  have := hg 0
  simp only [one_mul] at this
  rw [Real.dist_eq]
  linarith

end Mfs.GridConv

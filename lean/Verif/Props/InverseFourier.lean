import Verif.Props.Pdf
import Verif.Model.Experiments
import Mathlib.Analysis.Fourier.Inversion
import Mathlib.MeasureTheory.Integral.IntegralEqImproper
import Mathlib.Analysis.SpecialFunctions.Integrals.Basic

/-!
# Property C187: convergence of `inverse_fourier`
-/

namespace Mfs.Props

open Mfs.Utils Mfs.Moments1 Mfs.Pdf Mfs.Experiments MeasureTheory Filter Topology FourierTransform

/-- a frequency grid: it begins at `-Z`, ends at `Z`, is sorted, and has no gap longer than `h`. -/
structure FreqGrid (Z h : ℝ) (zs : List ℝ) : Prop where
  head : zs.head? = some (-Z)
  last : zs.getLast? = some Z
  step : zs.IsChain fun p q => p ≤ q ∧ q ≤ p + h

theorem trapzC_err {F : ℝ → ℂ} (hF : Continuous F) {a b δ η h : ℝ}
    (hosc : ∀ s t, a ≤ s → s ≤ b → a ≤ t → t ≤ b → |s - t| ≤ h → ‖F s - F t‖ ≤ δ) (l : List (ℝ × ℂ)) (q : ℝ × ℂ)
    (hc : (q :: l).IsChain fun p r => p.1 ≤ r.1 ∧ r.1 ≤ p.1 + h) (hm : ∀ p ∈ q :: l, a ≤ p.1 ∧ p.1 ≤ b ∧ ‖p.2 - F p.1‖ ≤ η) :
    ‖trapzC (q :: l) - ∫ z in q.1..((q :: l).getLast (by simp)).1, F z‖ ≤ (δ + η) * (((q :: l).getLast (by simp)).1 - q.1) := by
  induction l generalizing q with
  | nil => simp [trapzC]
  | cons r l ih =>
    rw [List.isChain_cons_cons] at hc
    have h1 := ih r hc.2 fun p hp => hm p (List.mem_cons_of_mem _ hp)
    rw [List.getLast_cons (by simp)]
    set e := ((r :: l).getLast (by simp)).1 with he
    obtain ⟨qa, qb, qe⟩ := hm q (by simp)
    obtain ⟨ra, rb, re⟩ := hm r (by simp)
    have hqr := hc.1.1
    have hloc : ‖((r.1 - q.1 : ℝ) : ℂ) * (q.2 + r.2) / 2 - ∫ z in q.1..r.1, F z‖ ≤ (δ + η) * (r.1 - q.1) := by
      have e1 : ((r.1 - q.1 : ℝ) : ℂ) * (q.2 + r.2) / 2 - ∫ z in q.1..r.1, F z = ∫ z in q.1..r.1, ((q.2 + r.2) / 2 - F z) := by
        rw [intervalIntegral.integral_sub (by simp) (hF.intervalIntegrable _ _), intervalIntegral.integral_const, Complex.real_smul]
        ring
      rw [e1]
      have := intervalIntegral.norm_integral_le_of_norm_le_const (C := δ + η) (f := fun z => (q.2 + r.2) / 2 - F z) (a := q.1) (b := r.1) ?_
      · rwa [abs_of_nonneg (by linarith)] at this
      · intro z hz
        rw [Set.uIoc_of_le hqr] at hz
        obtain ⟨z1, z2⟩ := hz
        have o1 : ‖F q.1 - F z‖ ≤ δ := hosc _ _ qa qb (by linarith) (by linarith) (by rw [abs_le]; constructor <;> linarith [hc.1.2])
        have o2 : ‖F r.1 - F z‖ ≤ δ := hosc _ _ ra rb (by linarith) (by linarith) (by rw [abs_le]; constructor <;> linarith [hc.1.2])
        have e2 : (q.2 + r.2) / 2 - F z = (((q.2 - F q.1) + (F q.1 - F z)) + ((r.2 - F r.1) + (F r.1 - F z))) / 2 := by ring
        rw [e2, norm_div, Complex.norm_ofNat]
        have n1 := norm_add_le ((q.2 - F q.1) + (F q.1 - F z)) ((r.2 - F r.1) + (F r.1 - F z))
        have n2 := norm_add_le (q.2 - F q.1) (F q.1 - F z)
        have n3 := norm_add_le (r.2 - F r.1) (F r.1 - F z)
        linarith
    have e3 : trapzC (q :: r :: l) - ∫ z in q.1..e, F z
        = (((r.1 - q.1 : ℝ) : ℂ) * (q.2 + r.2) / 2 - ∫ z in q.1..r.1, F z) + (trapzC (r :: l) - ∫ z in r.1..e, F z) := by
      rw [← intervalIntegral.integral_add_adjacent_intervals (hF.intervalIntegrable q.1 r.1) (hF.intervalIntegrable r.1 e)]
      have : trapzC (q :: r :: l) = ((r.1 - q.1 : ℝ) : ℂ) * (q.2 + r.2) / 2 + trapzC (r :: l) := rfl
      rw [this]
      ring
    rw [e3]
    refine (norm_add_le _ _).trans ?_
    calc _ ≤ (δ + η) * (r.1 - q.1) + (δ + η) * (e - r.1) := add_le_add hloc h1
      _ = _ := by ring

theorem FreqGrid.mem {Z h : ℝ} {zs : List ℝ} (g : FreqGrid Z h zs) : ∀ z ∈ zs, -Z ≤ z ∧ z ≤ Z := by
  have hp : zs.Pairwise (· ≤ ·) := List.isChain_iff_pairwise.1 (g.step.imp fun _ _ h => h.1)
  intro z hz
  constructor
  · cases zs with
    | nil => simp at hz
    | cons a l =>
      have ha : a = -Z := by simpa using g.head
      rcases List.mem_cons.1 hz with h | h
      · rw [h, ha]
      · rw [← ha]
        exact List.rel_of_pairwise_cons hp h
  · have hl := g.last
    rw [List.getLast?_eq_some_iff] at hl
    obtain ⟨ys, rfl⟩ := hl
    rw [List.pairwise_append] at hp
    rcases List.mem_append.1 hz with h | h
    · exact hp.2.2 z h Z (by simp)
    · simp at h; exact h.le

/-- the trapezoidal rule on a frequency grid. -/
theorem freqGrid_err {F : ℝ → ℂ} (hF : Continuous F) {Z δ η h : ℝ} (hosc : ∀ s t, -Z ≤ s → s ≤ Z → -Z ≤ t → t ≤ Z → |s - t| ≤ h → ‖F s - F t‖ ≤ δ)
    {pts : List (ℝ × ℂ)} (hg : FreqGrid Z h (pts.map Prod.fst)) (hη : ∀ q ∈ pts, ‖q.2 - F q.1‖ ≤ η) :
    ‖trapzC pts - ∫ z in (-Z)..Z, F z‖ ≤ (δ + η) * (2 * Z) := by
  cases pts with
  | nil => simpa using hg.head
  | cons q l =>
    have hq : q.1 = -Z := by simpa using hg.head
    have hlast : ((q :: l).getLast (by simp)).1 = Z := by
      have := hg.last
      rw [List.getLast?_map, List.getLast?_eq_some_getLast (by simp)] at this
      simpa using this
    have := trapzC_err hF hosc l q ((List.isChain_map _).1 hg.step) fun p hp => by
      have := hg.mem p.1 (List.mem_map_of_mem hp)
      exact ⟨this.1, this.2, hη p hp⟩
    rw [hlast, hq] at this
    calc _ ≤ _ := this
      _ = _ := by ring

/-- the characteristic function is continuous, and the density is its inverse transform. -/
theorem cf_inversion {f : ℝ → ℝ} (hf : Integrable f) (hc : Continuous f) {φ : ℝ → ℂ} (hφ : ∀ z : ℝ, φ z = ∫ x : ℝ, Complex.exp (Complex.I * z * x) * f x)
    (hφi : Integrable φ) : Continuous φ ∧ ∀ x : ℝ, ∫ z : ℝ, Complex.exp (-Complex.I * x * z) * φ z = 2 * Real.pi * f x := by
  have hpi : (0 : ℝ) < 2 * Real.pi := by positivity
  have hinv : ∀ w, 𝓕⁻ (fun x => (f x : ℂ)) w = φ (2 * Real.pi * w) := by
    intro w
    rw [Real.fourierInv_eq', hφ]
    refine integral_congr_ae (Eventually.of_forall fun x => ?_)
    simp only [smul_eq_mul]
    congr 2
    simp
    ring
  have hcont : Continuous φ := by
    have : φ = fun z : ℝ => ∫ x : ℝ, Complex.exp (Complex.I * z * x) * f x := funext hφ
    rw [this]
    refine continuous_of_dominated (bound := fun x => |f x|) (fun z => ?_) (fun z => Eventually.of_forall fun x => ?_) hf.abs (Eventually.of_forall fun x => by fun_prop)
    · exact (Continuous.aestronglyMeasurable (by fun_prop)).mul hf.ofReal.aestronglyMeasurable
    · rw [norm_mul, Complex.norm_real, Real.norm_eq_abs, show Complex.I * z * x = ((z * x : ℝ) : ℂ) * Complex.I by push_cast; ring,
        Complex.norm_exp_ofReal_mul_I, one_mul]
  refine ⟨hcont, fun x => ?_⟩
  have hFi : Integrable (𝓕 (fun x => (f x : ℂ))) := by
    have e : 𝓕 (fun x => (f x : ℂ)) = fun w => φ (-(2 * Real.pi) * w) := by
      funext w
      have := hinv (-w)
      rw [Real.fourierInv_eq_fourier_neg, neg_neg] at this
      rw [this]
      congr 1
      ring
    rw [e]
    exact hφi.comp_mul_left' (by linarith)
  have h1 := (hf.ofReal (𝕜 := ℂ)).fourier_fourierInv_eq hFi (v := x) (Complex.continuous_ofReal.comp hc).continuousAt
  have e2 : 𝓕 (𝓕⁻ fun x => (f x : ℂ)) x = ∫ w : ℝ, (fun z : ℝ => Complex.exp (-Complex.I * x * z) * φ z) (2 * Real.pi * w) := by
    rw [Real.fourier_real_eq_integral_exp_smul]
    refine integral_congr_ae (Eventually.of_forall fun w => ?_)
    simp only [smul_eq_mul, hinv]
    congr 2
    push_cast
    ring
  have h2 : 𝓕 (𝓕⁻ fun x => (f x : ℂ)) x = (f x : ℂ) := h1
  rw [e2, Measure.integral_comp_mul_left (fun z : ℝ => Complex.exp (-Complex.I * x * z) * φ z)] at h2
  rw [abs_of_pos (inv_pos.2 hpi), Complex.real_smul] at h2
  rw [← h2, ← mul_assoc]
  push_cast
  rw [mul_inv_cancel₀ (by exact_mod_cast hpi.ne'), one_mul]

theorem norm_char (x z : ℝ) : ‖Complex.exp (-Complex.I * x * z)‖ = 1 := by
  rw [show -Complex.I * x * z = ((-(x * z) : ℝ) : ℂ) * Complex.I by push_cast; ring, Complex.norm_exp_ofReal_mul_I]

/-- **C187 (a).** Let `f` be a continuous integrable density whose characteristic function `φ` is integrable. On every bounded set of
points `x`, `inverse_fourier` is as close to `f x` as desired, provided that the frequency range is long enough, the grid on this
range fine enough, and the supplied values accurate enough. -/
theorem C187_converge {f : ℝ → ℝ} (hf : Integrable f) (hc : Continuous f) {φ : ℝ → ℂ}
    (hφ : ∀ z : ℝ, φ z = ∫ x : ℝ, Complex.exp (Complex.I * z * x) * f x) (hφi : Integrable φ) (R : ℝ) {ε : ℝ} (hε : 0 < ε) :
    ∃ Z₀, ∀ Z ≥ Z₀, ∃ h > 0, ∃ η > 0, ∀ pts : List (ℝ × ℂ), FreqGrid Z h (pts.map Prod.fst) → (∀ q ∈ pts, ‖q.2 - φ q.1‖ ≤ η) →
      ∀ x, |x| ≤ R → |inverseFourier x pts - f x| ≤ ε := by
  obtain ⟨hφc, hinv⟩ := cf_inversion hf hc hφ hφi
  -- the tail of the integral
  have htail : Tendsto (fun Z : ℝ => ∫ z in (-Z)..Z, ‖φ z‖) atTop (𝓝 (∫ z, ‖φ z‖)) :=
    intervalIntegral_tendsto_integral hφi.norm tendsto_neg_atTop_atBot tendsto_id
  obtain ⟨Z₁, hZ₁⟩ := Metric.tendsto_atTop.1 htail ε hε
  refine ⟨max Z₁ 1, fun Z hZ => ?_⟩
  have hZ1 : 1 ≤ Z := (le_max_right _ _).trans hZ
  have hZ0 : 0 < Z := by linarith
  have ht : (∫ z, ‖φ z‖) - ∫ z in (-Z)..Z, ‖φ z‖ ≤ ε := by
    have := hZ₁ Z ((le_max_left _ _).trans hZ)
    rw [dist_comm, Real.dist_eq] at this
    exact (le_abs_self _).trans this.le
  -- oscillation
  set δ := ε / (2 * Z) with hδ
  have hδ0 : 0 < δ := div_pos hε (by positivity)
  have hcomp : IsCompact (Set.Icc (-R) R ×ˢ Set.Icc (-Z) Z) := isCompact_Icc.prod isCompact_Icc
  have huc := hcomp.uniformContinuousOn_of_continuous (f := fun p : ℝ × ℝ => Complex.exp (-Complex.I * p.1 * p.2) * φ p.2)
    (Continuous.continuousOn (by fun_prop))
  rw [Metric.uniformContinuousOn_iff] at huc
  obtain ⟨h, hh, hosc⟩ := huc δ hδ0
  refine ⟨h / 2, by positivity, δ, hδ0, fun pts hg hη x hx => ?_⟩
  have hx' := abs_le.1 hx
  set F : ℝ → ℂ := fun z => Complex.exp (-Complex.I * x * z) * φ z with hF
  have hFc : Continuous F := by fun_prop
  have hFn : ∀ z, ‖F z‖ = ‖φ z‖ := fun z => by rw [hF]; simp only [norm_mul, norm_char, one_mul]
  have hFi : Integrable F := hφi.mono hFc.aestronglyMeasurable (Eventually.of_forall fun z => (hFn z).le)
  have herr := freqGrid_err (F := F) hFc (Z := Z) (δ := δ) (η := δ) (h := h / 2) (fun s t s1 s2 t1 t2 hst => by
    have := hosc (x, s) ⟨⟨hx'.1, hx'.2⟩, ⟨s1, s2⟩⟩ (x, t) ⟨⟨hx'.1, hx'.2⟩, ⟨t1, t2⟩⟩ (by
      rw [Prod.dist_eq, dist_self, Real.dist_eq]
      exact max_lt hh (by linarith))
    rw [dist_eq_norm] at this
    exact this.le) (pts := pts.map fun q => (q.1, Complex.exp (-Complex.I * x * q.1) * q.2)) (by rw [List.map_map]; exact hg) (by
      intro q hq
      obtain ⟨q', hq', rfl⟩ := List.mem_map.1 hq
      simp only [hF]
      rw [← mul_sub, norm_mul, norm_char, one_mul]
      exact hη q' hq')
  have htl : ‖(∫ z in (-Z)..Z, F z) - ∫ z, F z‖ ≤ ε := by
    rw [norm_sub_rev, intervalIntegral.integral_of_le (by linarith), ← integral_add_compl (measurableSet_Ioc (a := -Z) (b := Z)) hFi, add_sub_cancel_left]
    refine (norm_integral_le_integral_norm _).trans ?_
    simp only [hFn]
    rw [intervalIntegral.integral_of_le (by linarith), ← integral_add_compl (measurableSet_Ioc (a := -Z) (b := Z)) hφi.norm, add_sub_cancel_left] at ht
    exact ht
  have hall : ‖trapzC (pts.map fun q => (q.1, Complex.exp (-Complex.I * x * q.1) * q.2)) - 2 * Real.pi * f x‖ ≤ 3 * ε := by
    rw [← hinv x]
    have e : (δ + δ) * (2 * Z) = 2 * ε := by rw [hδ]; field_simp; ring
    rw [e] at herr
    calc _ ≤ _ := norm_sub_le_norm_sub_add_norm_sub _ (∫ z in (-Z)..Z, F z) _
      _ ≤ 2 * ε + ε := add_le_add herr htl
      _ = _ := by ring
  have hre := (Complex.abs_re_le_norm _).trans hall
  rw [Complex.sub_re] at hre
  have e3 : (2 * Real.pi * f x : ℂ).re = 2 * Real.pi * f x := by
    rw [show (2 * Real.pi * f x : ℂ) = ((2 * Real.pi * f x : ℝ) : ℂ) by push_cast; ring, Complex.ofReal_re]
  rw [e3] at hre
  have hpi := Real.two_le_pi
  have e4 : inverseFourier x pts - f x = ((trapzC (pts.map fun q => (q.1, Complex.exp (-Complex.I * x * q.1) * q.2))).re - 2 * Real.pi * f x) / (2 * Real.pi) := by
    rw [inverseFourier]
    field_simp
  rw [e4, abs_div, abs_of_pos (by positivity : 0 < 2 * Real.pi), div_le_iff₀ (by positivity)]
  nlinarith

/-- **C187 (b).** Hence, if approximate characteristic functions converge to `φ` at every frequency, as those computed by
`characteristic_fn` from the moments of the filters do (C133, C136), the densities computed from them converge: for every long enough
range and every fine enough grid on it, the error is eventually at most `ε`. -/
theorem C187_approximations {f : ℝ → ℝ} (hf : Integrable f) (hc : Continuous f) {φ : ℝ → ℂ}
    (hφ : ∀ z : ℝ, φ z = ∫ x : ℝ, Complex.exp (Complex.I * z * x) * f x) (hφi : Integrable φ) (cf : ℕ → ℝ → ℂ)
    (hcf : ∀ z, Tendsto (fun N => cf N z) atTop (𝓝 (φ z))) (R : ℝ) {ε : ℝ} (hε : 0 < ε) :
    ∃ Z₀, ∀ Z ≥ Z₀, ∃ h > 0, ∀ zs : List ℝ, FreqGrid Z h zs → ∀ᶠ N in atTop, ∀ x, |x| ≤ R →
      |inverseFourier x (zs.map fun z => (z, cf N z)) - f x| ≤ ε := by
  obtain ⟨Z₀, h0⟩ := C187_converge hf hc hφ hφi R hε
  refine ⟨Z₀, fun Z hZ => ?_⟩
  obtain ⟨h, hh, η, hη, hmain⟩ := h0 Z hZ
  refine ⟨h, hh, fun zs hg => ?_⟩
  have hev : ∀ zs : List ℝ, ∀ᶠ N in atTop, ∀ z ∈ zs, ‖cf N z - φ z‖ ≤ η := by
    intro zs
    induction zs with
    | nil => simp
    | cons z l ih =>
      have h1 : ∀ᶠ N in atTop, ‖cf N z - φ z‖ ≤ η := by
        have := (Metric.tendsto_nhds.1 (hcf z)) η hη
        filter_upwards [this] with N hN
        rw [dist_eq_norm] at hN
        exact hN.le
      filter_upwards [h1, ih] with N a b
      intro w hw
      rcases List.mem_cons.1 hw with rfl | hw
      · exact a
      · exact b w hw
  filter_upwards [hev zs] with N hN
  refine hmain _ ?_ ?_
  · rw [List.map_map]
    have : (Prod.fst ∘ fun z => (z, cf N z)) = id := rfl
    rw [this, List.map_id]
    exact hg
  · intro q hq
    obtain ⟨z, hz, rfl⟩ := List.mem_map.1 hq
    exact hN z hz

/-! ### A fixed number of nodes -/

theorem integral_cos_lower (d Z : ℝ) (hZ : 0 ≤ Z) : -(if d = 0 then 0 else 2 / |d|) ≤ ∫ z in (-Z)..Z, Real.cos (z * d) := by
  split
  · rename_i h
    subst h
    simp
    linarith
  · rename_i h
    have e : ∫ z in (-Z)..Z, Real.cos (z * d) = 2 * Real.sin (Z * d) / d := by
      rw [intervalIntegral.integral_comp_mul_right (fun u => Real.cos u) h, integral_cos, neg_mul, Real.sin_neg, smul_eq_mul]
      field_simp
      ring
    rw [e]
    have h1 : |2 * Real.sin (Z * d) / d| ≤ 2 / |d| := by
      rw [abs_div, abs_mul]
      have := Real.abs_sin_le_one (Z * d)
      rw [abs_of_pos (by norm_num : (0 : ℝ) < 2)]
      gcongr
      linarith
    exact (abs_le.1 h1).1

/-- **C187 (c).** The limits cannot be interchanged. With the characteristic function of finitely many nodes, as `characteristic_fn`
computes it for one fixed number of moments, the function returned by `inverse_fourier` is unbounded at every node of positive weight
as the frequency range grows. -/
theorem C187_fixed_nodes {n : ℕ} (w x : Fin n → ℝ) (hw : ∀ i, 0 ≤ w i) (j : Fin n) (hj : 0 < w j) (K : ℝ) :
    ∃ Z₀, ∀ Z ≥ Z₀, ∃ h > 0, ∀ zs : List ℝ, FreqGrid Z h zs →
      K ≤ inverseFourier (x j) (zs.map fun z => (z, ∑ i, Complex.exp (Complex.I * z * x i) * w i)) := by
  set b : Fin n → ℝ := fun i => if x i - x j = 0 then 0 else 2 / |x i - x j| with hb
  set S := ∑ i, w i * b i with hS
  refine ⟨max 1 ((2 * Real.pi * K + S + 1) / (2 * w j)), fun Z hZ => ?_⟩
  have hZ1 : 1 ≤ Z := (le_max_left _ _).trans hZ
  have hZ2 : 2 * Real.pi * K + S + 1 ≤ 2 * w j * Z := by
    have := (le_max_right _ _).trans hZ
    rw [div_le_iff₀ (by positivity)] at this
    linarith
  set G : ℝ → ℂ := fun z => Complex.exp (-Complex.I * x j * z) * ∑ i, Complex.exp (Complex.I * z * x i) * w i with hG
  have hGc : Continuous G := by fun_prop
  have hGre : ∀ z, (G z).re = ∑ i, w i * Real.cos (z * (x i - x j)) := by
    intro z
    simp only [hG]
    rw [Finset.mul_sum, Complex.re_sum]
    refine Finset.sum_congr rfl fun i _ => ?_
    rw [← mul_assoc, ← Complex.exp_add, show -Complex.I * x j * z + Complex.I * z * x i = ((z * (x i - x j) : ℝ) : ℂ) * Complex.I by push_cast; ring,
      Complex.re_mul_ofReal, Complex.exp_ofReal_mul_I_re, mul_comm]
  have huc := (isCompact_Icc (a := -Z) (b := Z)).uniformContinuousOn_of_continuous hGc.continuousOn
  rw [Metric.uniformContinuousOn_iff] at huc
  obtain ⟨h, hh, hosc⟩ := huc (1 / (2 * Z)) (by positivity)
  refine ⟨h / 2, by positivity, fun zs hg => ?_⟩
  have herr := freqGrid_err (F := G) hGc (Z := Z) (δ := 1 / (2 * Z)) (η := 0) (h := h / 2) (fun s t s1 s2 t1 t2 hst => by
    have := hosc s ⟨s1, s2⟩ t ⟨t1, t2⟩ (by rw [Real.dist_eq]; linarith)
    rw [dist_eq_norm] at this
    exact this.le) (pts := zs.map fun z => (z, G z)) (by
      rw [List.map_map]
      have : (Prod.fst ∘ fun z => (z, G z)) = id := rfl
      rw [this, List.map_id]
      exact hg) (by
      intro q hq
      obtain ⟨z, _, rfl⟩ := List.mem_map.1 hq
      simp)
  have e1 : (1 / (2 * Z) + 0) * (2 * Z) = 1 := by rw [add_zero]; field_simp
  rw [e1] at herr
  have hre := (abs_le.1 ((Complex.abs_re_le_norm _).trans herr)).1
  rw [Complex.sub_re] at hre
  have hint : (∫ z in (-Z)..Z, G z).re = ∑ i, w i * ∫ z in (-Z)..Z, Real.cos (z * (x i - x j)) := by
    have h1 : (∫ z in (-Z)..Z, G z).re = ∫ z in (-Z)..Z, (G z).re := by
      rw [intervalIntegral.integral_of_le (by linarith), intervalIntegral.integral_of_le (by linarith)]
      exact (integral_re (𝕜 := ℂ) (hGc.integrableOn_Ioc (a := -Z) (b := Z))).symm
    rw [h1]
    simp only [hGre]
    rw [intervalIntegral.integral_finsetSum fun i _ => (by fun_prop : Continuous fun z => w i * Real.cos (z * (x i - x j))).intervalIntegrable _ _]
    simp only [intervalIntegral.integral_const_mul]
  have hlow : 2 * w j * Z - S ≤ (∫ z in (-Z)..Z, G z).re := by
    rw [hint, hS, ← Finset.add_sum_erase _ _ (Finset.mem_univ j), ← Finset.add_sum_erase _ (fun i => w i * ∫ z in (-Z)..Z, Real.cos (z * (x i - x j))) (Finset.mem_univ j)]
    have hjj : w j * ∫ z in (-Z)..Z, Real.cos (z * (x j - x j)) = 2 * w j * Z := by simp; ring
    have hbj : b j = 0 := by simp [hb]
    have hsum : -∑ i ∈ Finset.univ.erase j, w i * b i ≤ ∑ i ∈ Finset.univ.erase j, w i * ∫ z in (-Z)..Z, Real.cos (z * (x i - x j)) := by
      rw [← Finset.sum_neg_distrib]
      refine Finset.sum_le_sum fun i _ => ?_
      have := mul_le_mul_of_nonneg_left (integral_cos_lower (x i - x j) Z (by linarith)) (hw i)
      simp only [hb]
      linarith
    rw [hjj, hbj]
    linarith
  rw [inverseFourier, le_div_iff₀ (by positivity), List.map_map]
  have e2 : ((fun q : ℝ × ℂ => (q.1, Complex.exp (-Complex.I * x j * q.1) * q.2)) ∘ fun z : ℝ => (z, ∑ i, Complex.exp (Complex.I * z * x i) * w i))
      = fun z => (z, G z) := rfl
  rw [e2]
  linarith

/-! ### The grids of the scripts -/

theorem linspace_freqGrid {Z : ℝ} (hZ : 0 ≤ Z) (M : ℕ) : FreqGrid Z (2 * Z / (M + 1)) (List.ofFn (linspace (-Z) Z (M + 2))) := by
  have hM : (0 : ℝ) < (M : ℝ) + 1 := by positivity
  have hs : ((Z - -Z) / (((M + 2 : ℕ) : ℝ) - 1)) = 2 * Z / (M + 1) := by push_cast; congr 1 <;> ring
  refine ⟨?_, ?_, ?_⟩
  · simp [linspace]
  · rw [List.getLast?_eq_getElem?]
    simp only [List.length_ofFn, Nat.add_one_sub_one]
    rw [List.getElem?_eq_getElem (by simp)]
    simp only [List.getElem_ofFn, linspace, hs, Option.some.injEq]
    push_cast
    field_simp
    ring
  · rw [List.isChain_iff_getElem]
    intro i hi
    simp only [List.getElem_ofFn, linspace, hs]
    have : 0 ≤ 2 * Z / ((M : ℝ) + 1) := by positivity
    push_cast
    constructor <;> nlinarith

end Mfs.Props

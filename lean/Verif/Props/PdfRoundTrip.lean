import Verif.Props.InverseFourierRule
import Mathlib.Analysis.Fourier.RiemannLebesgueLemma

/-!
# Property C188: `characteristic_from_pdf` on refined grids, and its round trip with `inverse_fourier`
-/

namespace Mfs.Props

open Mfs.Utils Mfs.Moments1 Mfs.Pdf Mfs.Experiments MeasureTheory ProbabilityTheory Filter Topology
open scoped NNReal

theorem norm_char' (z x : ℝ) : ‖Complex.exp (Complex.I * z * x)‖ = 1 := by
  rw [show Complex.I * z * x = ((z * x : ℝ) : ℂ) * Complex.I by push_cast; ring, Complex.norm_exp_ofReal_mul_I]

/-- **C188 (a).** For a continuous integrable density `f` and every bounded range of frequencies, `characteristic_from_pdf` is as close
to the characteristic function of `f` as desired, provided that the spatial range is long enough, the grid on it fine enough, and the
supplied density values accurate enough. -/
theorem C188_converge {f : ℝ → ℝ} (hf : Integrable f) (hc : Continuous f) (W : ℝ) {ε : ℝ} (hε : 0 < ε) :
    ∃ X₀, ∀ X ≥ X₀, ∃ h > 0, ∃ η > 0, ∀ pts : List (ℝ × ℝ), FreqGrid X h (pts.map Prod.fst) → (∀ q ∈ pts, |q.2 - f q.1| ≤ η) →
      ∀ z, |z| ≤ W → ‖characteristicFromPdf z pts - ∫ x : ℝ, Complex.exp (Complex.I * z * x) * f x‖ ≤ ε := by
  have htail : Tendsto (fun X : ℝ => ∫ x in (-X)..X, |f x|) atTop (𝓝 (∫ x, |f x|)) :=
    intervalIntegral_tendsto_integral hf.abs tendsto_neg_atTop_atBot tendsto_id
  obtain ⟨X₁, hX₁⟩ := Metric.tendsto_atTop.1 htail (ε / 3) (by positivity)
  refine ⟨max X₁ 1, fun X hX => ?_⟩
  have hX1 : 1 ≤ X := (le_max_right _ _).trans hX
  have hX0 : 0 < X := by linarith
  have ht : (∫ x, |f x|) - ∫ x in (-X)..X, |f x| ≤ ε / 3 := by
    have := hX₁ X ((le_max_left _ _).trans hX)
    rw [dist_comm, Real.dist_eq] at this
    exact (le_abs_self _).trans this.le
  set δ := ε / (6 * X) with hδ
  have hδ0 : 0 < δ := div_pos hε (by positivity)
  have hcomp : IsCompact (Set.Icc (-W) W ×ˢ Set.Icc (-X) X) := isCompact_Icc.prod isCompact_Icc
  have huc := hcomp.uniformContinuousOn_of_continuous (f := fun p : ℝ × ℝ => Complex.exp (Complex.I * p.1 * p.2) * (f p.2 : ℂ))
    (Continuous.continuousOn (by fun_prop))
  rw [Metric.uniformContinuousOn_iff] at huc
  obtain ⟨h, hh, hosc⟩ := huc δ hδ0
  refine ⟨h / 2, by positivity, δ, hδ0, fun pts hg hη z hz => ?_⟩
  have hz' := abs_le.1 hz
  set F : ℝ → ℂ := fun x => Complex.exp (Complex.I * z * x) * f x with hF
  have hFc : Continuous F := by fun_prop
  have hFn : ∀ x, ‖F x‖ = |f x| := fun x => by
    rw [hF]; simp only [norm_mul, norm_char', one_mul, Complex.norm_real, Real.norm_eq_abs]
  have hFi : Integrable F := hf.abs.mono hFc.aestronglyMeasurable (Eventually.of_forall fun x => by rw [hFn, Real.norm_eq_abs, abs_abs])
  have herr := freqGrid_err (F := F) hFc (Z := X) (δ := δ) (η := δ) (h := h / 2) (fun s t s1 s2 t1 t2 hst => by
    have := hosc (z, s) ⟨⟨hz'.1, hz'.2⟩, ⟨s1, s2⟩⟩ (z, t) ⟨⟨hz'.1, hz'.2⟩, ⟨t1, t2⟩⟩ (by
      rw [Prod.dist_eq, dist_self, Real.dist_eq]
      exact max_lt hh (by linarith))
    rw [dist_eq_norm] at this
    exact this.le) (pts := pts.map fun q => (q.1, Complex.exp (Complex.I * z * q.1) * q.2)) (by rw [List.map_map]; exact hg) (by
      intro q hq
      obtain ⟨q', hq', rfl⟩ := List.mem_map.1 hq
      simp only [hF]
      rw [← mul_sub, norm_mul, norm_char', one_mul, ← Complex.ofReal_sub, Complex.norm_real]
      exact hη q' hq')
  have htl : ‖(∫ x in (-X)..X, F x) - ∫ x, F x‖ ≤ ε / 3 := by
    rw [norm_sub_rev, intervalIntegral.integral_of_le (by linarith), ← integral_add_compl (measurableSet_Ioc (a := -X) (b := X)) hFi, add_sub_cancel_left]
    refine (norm_integral_le_integral_norm _).trans ?_
    simp only [hFn]
    rw [intervalIntegral.integral_of_le (by linarith), ← integral_add_compl (measurableSet_Ioc (a := -X) (b := X)) hf.abs, add_sub_cancel_left] at ht
    exact ht
  have e : (δ + δ) * (2 * X) = 2 * ε / 3 := by rw [hδ]; field_simp; ring
  rw [e] at herr
  rw [characteristicFromPdf]
  calc _ ≤ _ := norm_sub_le_norm_sub_add_norm_sub _ (∫ x in (-X)..X, F x) _
    _ ≤ 2 * ε / 3 + ε / 3 := add_le_add herr htl
    _ = ε := by ring

/-- **C188 (b).** Round trip: feeding the values of `characteristic_from_pdf` to `inverse_fourier` recovers the density on every bounded
set, to any accuracy, when the frequency range is long and finely divided and, for it, the spatial range is long and finely divided. -/
theorem C188_round_trip {f : ℝ → ℝ} (hf : Integrable f) (hc : Continuous f)
    (hφi : Integrable fun z : ℝ => ∫ x : ℝ, Complex.exp (Complex.I * z * x) * f x) (R : ℝ) {ε : ℝ} (hε : 0 < ε) :
    ∃ Z₀, ∀ Z ≥ Z₀, ∃ h > 0, ∃ X₀, ∀ X ≥ X₀, ∃ h' > 0, ∃ η > 0, ∀ (zs : List ℝ) (pts : List (ℝ × ℝ)), FreqGrid Z h zs →
      FreqGrid X h' (pts.map Prod.fst) → (∀ q ∈ pts, |q.2 - f q.1| ≤ η) →
      ∀ x, |x| ≤ R → |inverseFourier x (zs.map fun z => (z, characteristicFromPdf z pts)) - f x| ≤ ε := by
  obtain ⟨Z₀, h0⟩ := C187_converge hf hc (fun _ => rfl) hφi R hε
  refine ⟨Z₀, fun Z hZ => ?_⟩
  obtain ⟨h, hh, η, hη, hmain⟩ := h0 Z hZ
  obtain ⟨X₀, h1⟩ := C188_converge hf hc Z hη
  refine ⟨h, hh, X₀, fun X hX => ?_⟩
  obtain ⟨h', hh', η', hη', hcf⟩ := h1 X hX
  refine ⟨h', hh', η', hη', fun zs pts hg hg' hv => hmain _ ?_ ?_⟩
  · rw [List.map_map]
    have : (Prod.fst ∘ fun z => (z, characteristicFromPdf z pts)) = id := rfl
    rw [this, List.map_id]
    exact hg
  · intro q hq
    obtain ⟨z, hz, rfl⟩ := List.mem_map.1 hq
    exact hcf pts hg' hv z (abs_le.2 (hg.mem z hz))

/-- **C188 (c).** In particular for the normal densities, on the grids made by `linspace`. -/
theorem C188_normal (m₀ : ℝ) {v : ℝ≥0} (hv : v ≠ 0) (R : ℝ) {ε : ℝ} (hε : 0 < ε) :
    ∃ Z₀, ∀ Z ≥ Z₀, ∃ M₀ : ℕ, ∀ M ≥ M₀, ∃ X₀, ∀ X ≥ X₀, ∃ N₀ : ℕ, ∀ N ≥ N₀, ∀ x, |x| ≤ R →
      |inverseFourier x ((List.ofFn (linspace (-Z) Z (M + 2))).map fun z =>
        (z, characteristicFromPdf z ((List.ofFn (linspace (-X) X (N + 2))).map fun y => (y, gaussianPDFReal m₀ v y)))) - gaussianPDFReal m₀ v x| ≤ ε := by
  have hgrid : ∀ Z h : ℝ, 0 ≤ Z → 0 < h → ∃ M₀ : ℕ, ∀ M ≥ M₀, FreqGrid Z h (List.ofFn (linspace (-Z) Z (M + 2))) := by
    intro Z h hZ hh
    obtain ⟨M₀, hM₀⟩ := exists_nat_ge (2 * Z / h)
    refine ⟨M₀, fun M hM => ?_⟩
    have g := linspace_freqGrid hZ M
    refine ⟨g.head, g.last, g.step.imp fun p q hpq => ⟨hpq.1, hpq.2.trans ?_⟩⟩
    have hM' : (M₀ : ℝ) ≤ M := by exact_mod_cast hM
    have : 2 * Z / ((M : ℝ) + 1) ≤ h := by
      rw [div_le_iff₀ (by positivity)]
      rw [div_le_iff₀ hh] at hM₀
      nlinarith
    linarith
  have hcont : Continuous (gaussianPDFReal m₀ v) := by unfold gaussianPDFReal; fun_prop
  obtain ⟨Z₀, h0⟩ := C188_round_trip (integrable_gaussianPDFReal m₀ v) hcont (integrable_normal_cf m₀ hv) R hε
  refine ⟨max Z₀ 0, fun Z hZ => ?_⟩
  obtain ⟨h, hh, X₀, h1⟩ := h0 Z ((le_max_left _ _).trans hZ)
  obtain ⟨M₀, hM₀⟩ := hgrid Z h ((le_max_right _ _).trans hZ) hh
  refine ⟨M₀, fun M hM => ⟨max X₀ 0, fun X hX => ?_⟩⟩
  obtain ⟨h', hh', η, hη, h2⟩ := h1 X ((le_max_left _ _).trans hX)
  obtain ⟨N₀, hN₀⟩ := hgrid X h' ((le_max_right _ _).trans hX) hh'
  refine ⟨N₀, fun N hN x hx => h2 _ _ (hM₀ M hM) ?_ ?_ x hx⟩
  · rw [List.map_map]
    have : (Prod.fst ∘ fun y => (y, gaussianPDFReal m₀ v y)) = id := rfl
    rw [this, List.map_id]
    exact hN₀ N hN
  · intro q hq
    obtain ⟨y, _, rfl⟩ := List.mem_map.1 hq
    simpa using hη.le

/-! ### Aliasing -/

theorem trapzC_mul (c : ℂ) (l : List (ℝ × ℂ)) : trapzC (l.map fun q => (q.1, c * q.2)) = c * trapzC l := by
  induction l with
  | nil => simp [trapzC]
  | cons a l ih =>
    cases l with
    | nil => simp [trapzC]
    | cons b l =>
      simp only [List.map_cons, trapzC] at ih ⊢
      rw [ih]
      ring

/-- **C188 (d).** On an equally spaced grid of step `h`, whatever the density values, `characteristic_from_pdf` is periodic in the
frequency up to a phase, with period `2π/h`. -/
theorem C188_aliasing (pts : List (ℝ × ℝ)) {a h : ℝ} (hh : h ≠ 0) (hg : ∀ q ∈ pts, ∃ k : ℤ, q.1 = a + k * h) (n : ℤ) (z : ℝ) :
    characteristicFromPdf (z + n * (2 * Real.pi / h)) pts = Complex.exp (Complex.I * (n * (2 * Real.pi / h) * a : ℝ)) * characteristicFromPdf z pts := by
  rw [characteristicFromPdf, characteristicFromPdf, ← trapzC_mul, List.map_map]
  congr 1
  refine List.map_congr_left fun q hq => ?_
  obtain ⟨k, hk⟩ := hg q hq
  simp only [Function.comp, Prod.mk.injEq, true_and]
  rw [← mul_assoc, ← Complex.exp_add]
  congr 1
  rw [Complex.exp_eq_exp_iff_exists_int]
  refine ⟨n * k, ?_⟩
  rw [hk]
  have hhc : (h : ℂ) ≠ 0 := by exact_mod_cast hh
  push_cast
  field_simp
  ring

/-- **C188 (e).** The convergence is therefore not uniform over all frequencies. On every equally spaced grid there are frequencies,
beyond any bound, at which the error against the characteristic function of any integrable density is almost the whole mass of the
supplied values: the true function vanishes at infinity and the computed one returns to the mass. -/
theorem C188_not_uniform (pts : List (ℝ × ℝ)) (hs : pts.Pairwise fun p q => p.1 ≤ q.1) (hp : ∀ q ∈ pts, 0 ≤ q.2) {a h : ℝ} (hh : 0 < h)
    (hg : ∀ q ∈ pts, ∃ k : ℤ, q.1 = a + k * h) {f : ℝ → ℝ} (_hf : Integrable f) {ε : ℝ} (hε : 0 < ε) (K : ℝ) :
    ∃ z ≥ K, ‖characteristicFromPdf z pts‖ = trapzR pts ∧
      trapzR pts - ε ≤ ‖characteristicFromPdf z pts - ∫ x : ℝ, Complex.exp (Complex.I * z * x) * f x‖ := by
  have hper : ∀ n : ℕ, ‖characteristicFromPdf (n * (2 * Real.pi / h)) pts‖ = trapzR pts := by
    intro n
    have := C188_aliasing pts hh.ne' hg n 0
    rw [zero_add] at this
    have e : ((n : ℤ) : ℝ) = (n : ℝ) := by simp
    rw [e] at this
    rw [this, norm_mul, mul_comm Complex.I, Complex.norm_exp_ofReal_mul_I, one_mul, (C88_characteristic_from_pdf pts hs hp).1, Complex.norm_real,
      Real.norm_of_nonneg]
    have h1 := (C88_characteristic_from_pdf pts hs hp).2.1 0
    exact (norm_nonneg _).trans h1
  have hrl : Tendsto (fun z : ℝ => ∫ x : ℝ, Complex.exp (Complex.I * z * x) * f x) atTop (𝓝 0) := by
    have h1 := Real.tendsto_integral_exp_smul_cocompact (fun x : ℝ => (f x : ℂ))
    have h2 : Tendsto (fun z : ℝ => -(z / (2 * Real.pi))) atTop (cocompact ℝ) := by
      refine Tendsto.mono_right ?_ atBot_le_cocompact
      exact tendsto_neg_atTop_atBot.comp (tendsto_id.atTop_div_const (by positivity))
    refine (h1.comp h2).congr fun z => ?_
    refine integral_congr_ae (Eventually.of_forall fun x => ?_)
    simp only [Circle.smul_def, Real.fourierChar_apply, smul_eq_mul]
    congr 2
    have : (Real.pi : ℂ) ≠ 0 := by exact_mod_cast Real.pi_ne_zero
    push_cast
    field_simp
  have hpos : 0 < 2 * Real.pi / h := by positivity
  have hseq : Tendsto (fun n : ℕ => (n : ℝ) * (2 * Real.pi / h)) atTop atTop := tendsto_natCast_atTop_atTop.atTop_mul_const hpos
  have he := (Metric.tendsto_nhds.1 (hrl.comp hseq)) ε hε
  obtain ⟨n, hn, hK⟩ := (he.and (hseq.eventually_ge_atTop K)).exists
  refine ⟨_, hK, hper n, ?_⟩
  rw [dist_zero_right] at hn
  have := norm_sub_norm_le (characteristicFromPdf (n * (2 * Real.pi / h)) pts)
    (∫ x : ℝ, Complex.exp (Complex.I * ((n * (2 * Real.pi / h) : ℝ) : ℂ) * x) * f x)
  rw [hper n] at this
  simp only [Function.comp] at hn
  linarith

/-- the grid `0, 1, 2` with the triangular density of mass one meets the hypotheses. -/
example : ([(0, 0), (1, 1), (2, 0)] : List (ℝ × ℝ)).Pairwise (fun p q => p.1 ≤ q.1) ∧ (∀ q ∈ ([(0, 0), (1, 1), (2, 0)] : List (ℝ × ℝ)), 0 ≤ q.2) ∧
    (∀ q ∈ ([(0, 0), (1, 1), (2, 0)] : List (ℝ × ℝ)), ∃ k : ℤ, q.1 = 0 + k * 1) ∧ trapzR [(0, 0), (1, 1), (2, 0)] = 1 := by
  refine ⟨by simp, by simp, ?_, by norm_num [trapzR]⟩
  intro q hq
  simp only [List.mem_cons, List.not_mem_nil, or_false] at hq
  rcases hq with rfl | rfl | rfl
  · exact ⟨0, by norm_num⟩
  · exact ⟨1, by norm_num⟩
  · exact ⟨2, by norm_num⟩

end Mfs.Props

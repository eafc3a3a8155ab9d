import Verif.Props.EkfScore
import Verif.Props.Continuity
import Verif.Props.FilterLik

/-!
# C211: the likelihoods of the moment filters integrate to one for measurements with a density
-/

namespace Mfs.Props

open Matrix Mfs.Spec Mfs.Quad1 Mfs.Filter1 Mfs.Cont Polynomial MeasureTheory

variable {Y : Type} [TopologicalSpace Y] [SecondCountableTopology Y] [MeasurableSpace Y] [BorelSpace Y]

/-- splitting the first measurement off. -/
theorem lintegral_pi_cons_sigmaFinite {Y : Type} [MeasurableSpace Y] (ν : Measure Y) [SigmaFinite ν] (T : ℕ) {φ : (Fin (T + 1) → Y) → ENNReal} (hφ : Measurable φ) :
    ∫⁻ x, φ x ∂(Measure.pi fun _ : Fin (T + 1) => ν) = ∫⁻ y, ∫⁻ x, φ (Fin.cons y x) ∂(Measure.pi fun _ : Fin T => ν) ∂ν := by
  have hmp := (measurePreserving_piFinSuccAbove (fun _ : Fin (T + 1) => ν) 0).symm
  rw [← hmp.lintegral_comp hφ]
  refine (lintegral_prod (μ := ν) (ν := Measure.pi fun _ : Fin T => ν) _ (hφ.comp hmp.measurable).aemeasurable).trans ?_
  refine lintegral_congr fun x => lintegral_congr fun xs => congrArg φ ?_
  exact Fin.insertNth_zero' x xs

theorem lintegral_liks {Y : Type} [MeasurableSpace Y] (ν : Measure Y) [SigmaFinite ν] {S : Type} {next : S → Y → S} {lik : S → Y → ℝ} (Inv : S → Prop)
    (hnext : ∀ s y, Inv s → Inv (next s y)) (hpos : ∀ s y, Inv s → 0 < lik s y) (hone : ∀ s, Inv s → ∫⁻ y, ENNReal.ofReal (lik s y) ∂ν = 1)
    (hmeas : ∀ T s, Inv s → Measurable fun ys : Fin T → Y => ((liks next lik s (List.ofFn ys)).map Real.log).sum) (T : ℕ) (s : S) (hs : Inv s) :
    ∫⁻ ys : Fin T → Y, ENNReal.ofReal (Real.exp (((liks next lik s (List.ofFn ys)).map Real.log).sum)) ∂(Measure.pi fun _ => ν) = 1 := by
  induction T generalizing s with
  | zero =>
    simp only [List.ofFn_zero, liks, List.map_nil, List.sum_nil, Real.exp_zero, ENNReal.ofReal_one, lintegral_one]
    rw [Measure.pi_univ]
    simp
  | succ T ih =>
    have hφ : Measurable fun ys : Fin (T + 1) → Y => ENNReal.ofReal (Real.exp (((liks next lik s (List.ofFn ys)).map Real.log).sum)) :=
      (Real.measurable_exp.comp (hmeas (T + 1) s hs)).ennreal_ofReal
    rw [lintegral_pi_cons_sigmaFinite ν T hφ, ← hone s hs]
    refine lintegral_congr fun y => ?_
    simp only [List.ofFn_succ, Fin.cons_zero, Fin.cons_succ, liks, List.map_cons, List.sum_cons, Real.exp_add, Real.exp_log (hpos s y hs),
      ENNReal.ofReal_mul (hpos s y hs).le]
    rw [lintegral_const_mul' _ _ ENNReal.ofReal_ne_top, ih _ (hnext s y hs), mul_one]

theorem lintegral_integ {Y : Type} [MeasurableSpace Y] (ν : Measure Y) (B : Backend) (hB : B.Valid) (ms : List ℝ) (hl : 2 ≤ ms.length) (mean scale : ℝ) (sort ldl : Bool) {pdf : Y → ℝ → ℝ}
    (hpos : ∀ y x, 0 < pdf y x) (hm : ∀ x, Measurable fun y => pdf y x) (hone : ∀ x, ∫⁻ y, ENNReal.ofReal (pdf y x) ∂ν = 1) :
    ∫⁻ y, ENNReal.ofReal (integ (momentQuadrature B ms mean scale sort ldl) (pdf y)) ∂ν = 1 := by
  have hw := C09_weights_probability B hB ms hl mean scale sort ldl
  set r := momentQuadrature B ms mean scale sort ldl
  have e : ∀ y, ENNReal.ofReal (integ r (pdf y)) = ∑ i, ENNReal.ofReal (r.1 i) * ENNReal.ofReal (pdf y (r.2 i)) := fun y => by
    rw [integ, ENNReal.ofReal_sum_of_nonneg fun i _ => mul_nonneg (hw.1 i) (hpos y _).le]
    exact Finset.sum_congr rfl fun i _ => ENNReal.ofReal_mul (hw.1 i)
  simp only [e]
  rw [lintegral_finsetSum _ fun i _ => ((hm _).ennreal_ofReal).const_mul _]
  simp only [lintegral_const_mul' _ _ ENNReal.ofReal_ne_top, hone, mul_one]
  rw [← ENNReal.ofReal_sum_of_nonneg fun i _ => hw.1 i, hw.2, ENNReal.ofReal_one]

theorem continuous_of_on {X Z : Type} [TopologicalSpace X] [TopologicalSpace Z] {W : Type} [TopologicalSpace W] {f : X → Z} {V : X → Prop} (h : ContinuousOn f {x | V x}) {g : W → X} (hg : Continuous g)
    (hV : ∀ w, V (g w)) : Continuous fun w => f (g w) := h.comp_continuous hg hV

theorem exists_ofFn {n : ℕ} (s : List ℝ) (hs : s.length = n) : ∃ p : Fin n → ℝ, List.ofFn p = s := by
  subst hs
  exact ⟨s.get, List.ofFn_get s⟩

variable {n : ℕ} {B : Backend} {pdf : Y → ℝ → ℝ} {E : ℝ → ℝ[X] →ₗ[ℝ] ℝ}

omit [SecondCountableTopology Y] in
theorem pdf_measurable (hpdf : Continuous fun p : Y × ℝ => pdf p.1 p.2) (x : ℝ) : Measurable fun y => pdf y x :=
  (hpdf.comp (continuous_id.prodMk continuous_const : Continuous fun y : Y => (y, x))).measurable

omit [SecondCountableTopology Y] [MeasurableSpace Y] [BorelSpace Y] in
theorem rms_continuous (hB : B.Valid) (stable : Bool) (hpos : ∀ y x, 0 < pdf y x) (hpdf : Continuous fun p : Y × ℝ => pdf p.1 p.2) (hn : 2 ≤ n)
    (hE : ∀ x q, q ≠ 0 → q.natDegree < n / 2 → 0 < E x (q ^ 2)) (hEc : ∀ k, Continuous fun x => E x (X ^ k)) (P : ℝ → ℕ → ℝ) (hP : ∀ x, ∀ k < n, P x k = E x (X ^ k)) (T : ℕ) (s : List ℝ) (hs : s.length = n ∧ (gramOf s).PosDef) :
    Continuous fun ys : Fin T → Y => (filterRms B P pdf s (List.ofFn ys) stable).2 := by
  have hf := (C155_filter_rms hB stable hpos hpdf hn hE hEc P hP T).1
  obtain ⟨p, hp⟩ := exists_ofFn s hs.1
  have hg : (gramOf (List.ofFn p)).PosDef := by rw [hp]; exact hs.2
  have := continuous_of_on hf (continuous_const.prodMk continuous_id : Continuous fun ys : Fin T → Y => (p, ys)) fun _ => hg
  simpa only [hp] using this

omit [SecondCountableTopology Y] [MeasurableSpace Y] [BorelSpace Y] in
theorem cms_continuous (hB : B.Valid) (stable : Bool) (hpos : ∀ y x, 0 < pdf y x) (hpdf : Continuous fun p : Y × ℝ => pdf p.1 p.2) (hn : 2 ≤ n)
    (hE : ∀ x q, q ≠ 0 → q.natDegree < n / 2 → 0 < E x (q ^ 2)) (hEc : ∀ k, Continuous fun x => E x (X ^ k)) (P : ℝ → ℕ → ℝ → ℝ) (cm : ℝ → ℝ) (hP : ∀ x m, ∀ k < n, P x k m = E x ((X - C m) ^ k)) (hcm : Continuous cm) (T : ℕ) (s : List ℝ × ℝ)
    (hs : s.1.length = n ∧ (gramOf s.1).PosDef) : Continuous fun ys : Fin T → Y => (filterCms B P cm pdf s.1 s.2 (List.ofFn ys) stable).2 := by
  have hf := (C155_filter_cms hB stable hpos hpdf hn hE hEc P hP cm hcm T).1
  obtain ⟨p, hp⟩ := exists_ofFn s.1 hs.1
  have hg : (gramOf (List.ofFn p)).PosDef := by rw [hp]; exact hs.2
  have := continuous_of_on hf (continuous_const.prodMk (continuous_const.prodMk continuous_id) : Continuous fun ys : Fin T → Y => (p, s.2, ys)) fun _ => hg
  simpa only [hp] using this

omit [SecondCountableTopology Y] [MeasurableSpace Y] [BorelSpace Y] in
theorem scms_continuous (hB : B.Valid) (stable : Bool) (hpos : ∀ y x, 0 < pdf y x) (hpdf : Continuous fun p : Y × ℝ => pdf p.1 p.2) (hn : 4 ≤ n)
    (hE : ∀ x q, q ≠ 0 → q.natDegree < n / 2 → 0 < E x (q ^ 2)) (hEc : ∀ k, Continuous fun x => E x (X ^ k)) (P : ℝ → ℕ → ℝ → ℝ → ℝ) (cm cv : ℝ → ℝ) (hP : ∀ x m s, ∀ k < n, P x k m s = E x ((C s⁻¹ * (X - C m)) ^ k)) (hcm : Continuous cm) (hcv : Continuous cv)
    (hcv0 : ∀ x, 0 < cv x) (T : ℕ) (s : List ℝ × ℝ × ℝ) (hs : s.1.length = n ∧ (gramOf s.1).PosDef) :
    Continuous fun ys : Fin T → Y => (filterScms B P cm cv pdf s.1 s.2.1 s.2.2 (List.ofFn ys) stable).2 := by
  have hf := (C155_filter_scms hB stable hpos hpdf hn hE hEc P hP cm cv hcm hcv hcv0 T).1
  obtain ⟨p, hp⟩ := exists_ofFn s.1 hs.1
  have hg : (gramOf (List.ofFn p)).PosDef := by rw [hp]; exact hs.2
  have := continuous_of_on hf (continuous_const.prodMk (continuous_const.prodMk (continuous_const.prodMk continuous_id)) : Continuous fun ys : Fin T → Y => (p, s.2.1, s.2.2, ys)) fun _ => hg
  simpa only [hp] using this

theorem rms_mass (hB : B.Valid) (stable : Bool) (hpos : ∀ y x, 0 < pdf y x) (hpdf : Continuous fun p : Y × ℝ => pdf p.1 p.2) (ν : Measure Y) [SigmaFinite ν] (hone : ∀ x, ∫⁻ y, ENNReal.ofReal (pdf y x) ∂ν = 1) (hn : 2 ≤ n)
    (hE : ∀ x q, q ≠ 0 → q.natDegree < n / 2 → 0 < E x (q ^ 2)) (hEc : ∀ k, Continuous fun x => E x (X ^ k)) (P : ℝ → ℕ → ℝ) (hP : ∀ x, ∀ k < n, P x k = E x (X ^ k)) (T : ℕ) (s : List ℝ) (hs : s.length = n ∧ (gramOf s).PosDef) :
    ∫⁻ ys : Fin T → Y, ENNReal.ofReal (Real.exp (-(filterRms B P pdf s (List.ofFn ys) stable).2)) ∂(Measure.pi fun _ => ν) = 1 := by
  simp only [filterRms_eq, neg_neg, hs.1]
  have hnb := fun s hs => ((C126_never_breaks B hB stable pdf hpos E n hn hE []).1 P hP s hs).1
  refine lintegral_liks ν (fun s => s.length = n ∧ (gramOf s).PosDef) (fun s y hs => ⟨by simp [nextRms], (next_posDef hB hn (hnb s hs.1) y (hpos y)).2⟩)
    (fun s y hs => (next_posDef hB hn (hnb s hs.1) y (hpos y)).1) (fun s _ => ?_) (fun T s hs => ?_) T s hs
  · unfold likRms
    exact lintegral_integ ν B hB _ (by simpa [predRms] using hn) _ _ _ _ hpos (pdf_measurable hpdf) hone
  · have := (rms_continuous hB stable hpos hpdf hn hE hEc P hP T s hs).neg.measurable
    simpa only [filterRms_eq, Pi.neg_def, neg_neg, hs.1] using this

theorem cms_mass (hB : B.Valid) (stable : Bool) (hpos : ∀ y x, 0 < pdf y x) (hpdf : Continuous fun p : Y × ℝ => pdf p.1 p.2) (ν : Measure Y) [SigmaFinite ν] (hone : ∀ x, ∫⁻ y, ENNReal.ofReal (pdf y x) ∂ν = 1) (hn : 2 ≤ n)
    (hE : ∀ x q, q ≠ 0 → q.natDegree < n / 2 → 0 < E x (q ^ 2)) (hEc : ∀ k, Continuous fun x => E x (X ^ k)) (P : ℝ → ℕ → ℝ → ℝ) (cm : ℝ → ℝ) (hP : ∀ x m, ∀ k < n, P x k m = E x ((X - C m) ^ k)) (hcm : Continuous cm) (T : ℕ) (s : List ℝ × ℝ)
    (hs : s.1.length = n ∧ (gramOf s.1).PosDef) :
    ∫⁻ ys : Fin T → Y, ENNReal.ofReal (Real.exp (-(filterCms B P cm pdf s.1 s.2 (List.ofFn ys) stable).2)) ∂(Measure.pi fun _ => ν) = 1 := by
  simp only [filterCms_eq, neg_neg, hs.1]
  refine lintegral_liks ν (fun s => s.1.length = n ∧ (gramOf s.1).PosDef) (fun s y hs => ⟨by simp [nextCms], ?_⟩) (fun s y hs => ?_) (fun s _ => ?_) (fun T s hs => ?_) T s hs
  · obtain ⟨-, hx⟩ := (C126_never_breaks B hB stable pdf hpos E n hn hE [y]).2.1 P cm hP s.1 s.2 hs.1
    rw [filterCms_eq, hs.1] at hx
    exact (hx (nextCms B stable P cm pdf n s y) (by simp [traj])).1
  · rw [likCms]
    exact integ_pos_of_pos B hB _ (by simpa [predCms] using hn) _ _ _ _ _ (hpos y)
  · unfold likCms
    exact lintegral_integ ν B hB _ (by simpa [predCms] using hn) _ _ _ _ hpos (pdf_measurable hpdf) hone
  · have := (cms_continuous hB stable hpos hpdf hn hE hEc P cm hP hcm T s hs).neg.measurable
    simpa only [filterCms_eq, Pi.neg_def, neg_neg, hs.1] using this

theorem scms_mass (hB : B.Valid) (stable : Bool) (hpos : ∀ y x, 0 < pdf y x) (hpdf : Continuous fun p : Y × ℝ => pdf p.1 p.2) (ν : Measure Y) [SigmaFinite ν] (hone : ∀ x, ∫⁻ y, ENNReal.ofReal (pdf y x) ∂ν = 1) (hn : 4 ≤ n)
    (hE : ∀ x q, q ≠ 0 → q.natDegree < n / 2 → 0 < E x (q ^ 2)) (hEc : ∀ k, Continuous fun x => E x (X ^ k)) (P : ℝ → ℕ → ℝ → ℝ → ℝ) (cm cv : ℝ → ℝ) (hP : ∀ x m s, ∀ k < n, P x k m s = E x ((C s⁻¹ * (X - C m)) ^ k)) (hcm : Continuous cm) (hcv : Continuous cv)
    (hcv0 : ∀ x, 0 < cv x) (T : ℕ) (s : List ℝ × ℝ × ℝ) (hs : s.1.length = n ∧ (gramOf s.1).PosDef) :
    ∫⁻ ys : Fin T → Y, ENNReal.ofReal (Real.exp (-(filterScms B P cm cv pdf s.1 s.2.1 s.2.2 (List.ofFn ys) stable).2)) ∂(Measure.pi fun _ => ν) = 1 := by
  simp only [filterScms_eq, neg_neg, hs.1]
  refine lintegral_liks ν (fun s => s.1.length = n ∧ (gramOf s.1).PosDef) (fun s y hs => ⟨by simp [nextScms], ?_⟩) (fun s y hs => ?_) (fun s _ => ?_) (fun T s hs => ?_) T s hs
  · obtain ⟨-, hx⟩ := (C126_never_breaks B hB stable pdf hpos E n (by omega) hE [y]).2.2 hn P cm cv hcv0 hP s.1 s.2.1 s.2.2 hs.1
    rw [filterScms_eq, hs.1] at hx
    exact (hx (nextScms B stable P cm cv pdf n s y) (by simp [traj])).1
  · rw [likScms]
    exact integ_pos_of_pos B hB _ (by simp [predScms]; omega) _ _ _ _ _ (hpos y)
  · unfold likScms
    exact lintegral_integ ν B hB _ (by simp [predScms]; omega) _ _ _ _ hpos (pdf_measurable hpdf) hone
  · have := (scms_continuous hB stable hpos hpdf hn hE hEc P cm cv hP hcm hcv hcv0 T s hs).neg.measurable
    simpa only [filterScms_eq, Pi.neg_def, neg_neg, hs.1] using this

/-- **C211.** Let the measurement density be positive, jointly continuous and integrate to one at every state with respect to a σ-finite measure `ν`, and the conditional laws of the state be positive on squares with
moments continuous in the state. Then, started from valid moments, the negative log-likelihood of each one-dimensional moment filter is continuous in the measurements, `exp(-nell)` integrates to one over all
measurement sequences of length `T`, and `nell` is a proper score of the data. -/
theorem C211_filters (hB : B.Valid) (stable : Bool) (ν : Measure Y) [SigmaFinite ν] (hpos : ∀ y x, 0 < pdf y x)
    (hpdf : Continuous fun p : Y × ℝ => pdf p.1 p.2) (hone : ∀ x, ∫⁻ y, ENNReal.ofReal (pdf y x) ∂ν = 1) (hn : 2 ≤ n)
    (hE : ∀ x q, q ≠ 0 → q.natDegree < n / 2 → 0 < E x (q ^ 2)) (hEc : ∀ k, Continuous fun x => E x (X ^ k)) (ms0 : List ℝ) (hl : ms0.length = n) (h0 : (gramOf ms0).PosDef) (T : ℕ) :
    let Proper := fun nell : (Fin T → Y) → ℝ => Continuous nell ∧ ∫⁻ ys, ENNReal.ofReal (Real.exp (-nell ys)) ∂(Measure.pi fun _ => ν) = 1 ∧ DensityScore (Measure.pi fun _ => ν) nell
    (∀ P : ℝ → ℕ → ℝ, (∀ x, ∀ k < n, P x k = E x (X ^ k)) → Proper fun ys => (filterRms B P pdf ms0 (List.ofFn ys) stable).2) ∧
    (∀ (P : ℝ → ℕ → ℝ → ℝ) (cm : ℝ → ℝ), (∀ x m, ∀ k < n, P x k m = E x ((X - C m) ^ k)) → Continuous cm → ∀ m0,
      Proper fun ys => (filterCms B P cm pdf ms0 m0 (List.ofFn ys) stable).2) ∧
    (4 ≤ n → ∀ (P : ℝ → ℕ → ℝ → ℝ → ℝ) (cm cv : ℝ → ℝ), (∀ x m s, ∀ k < n, P x k m s = E x ((C s⁻¹ * (X - C m)) ^ k)) → Continuous cm → Continuous cv → (∀ x, 0 < cv x) → ∀ m0 s0,
      Proper fun ys => (filterScms B P cm cv pdf ms0 m0 s0 (List.ofFn ys) stable).2) := by
  intro Proper
  have fin : ∀ nell : (Fin T → Y) → ℝ, Continuous nell → ∫⁻ ys, ENNReal.ofReal (Real.exp (-nell ys)) ∂(Measure.pi fun _ => ν) = 1 → Proper nell := fun nell h1 h2 =>
    ⟨h1, h2, densityScore_of_lintegral h1.measurable h2⟩
  refine ⟨fun P hP => fin _ (rms_continuous hB stable hpos hpdf hn hE hEc P hP T ms0 ⟨hl, h0⟩) (rms_mass hB stable hpos hpdf ν hone hn hE hEc P hP T ms0 ⟨hl, h0⟩),
    fun P cm hP hcm m0 => fin _ (cms_continuous hB stable hpos hpdf hn hE hEc P cm hP hcm T (ms0, m0) ⟨hl, h0⟩)
      (cms_mass hB stable hpos hpdf ν hone hn hE hEc P cm hP hcm T (ms0, m0) ⟨hl, h0⟩),
    fun h4 P cm cv hP hcm hcv hcv0 m0 s0 => fin _ (scms_continuous hB stable hpos hpdf h4 hE hEc P cm cv hP hcm hcv hcv0 T (ms0, m0, s0) ⟨hl, h0⟩)
      (scms_mass hB stable hpos hpdf ν hone h4 hE hEc P cm cv hP hcm hcv hcv0 T (ms0, m0, s0) ⟨hl, h0⟩)⟩

/-- comparison of two scores on data with the density of the first. -/
theorem score_compare {D : Type} [MeasurableSpace D] {ν : Measure D} {nell nell' : D → ℝ} (h1 : Measurable nell) (h2 : ∫⁻ z, ENNReal.ofReal (Real.exp (-nell z)) ∂ν = 1) (h1' : Measurable nell')
    (h3 : DensityScore ν nell') :
    ∫⁻ z, ENNReal.ofReal (Real.exp (-nell z) * (nell z - nell' z)) ∂ν ≤ 1 ∧
    ∫⁻ z, ENNReal.ofReal (Real.exp (-nell z) * (nell z - nell' z)) ∂ν ≤ ∫⁻ z, ENNReal.ofReal (Real.exp (-nell z) * (nell' z - nell z)) ∂ν ∧
    ∀ c : ℝ, ∫⁻ z in {z | nell' z ≤ nell z - c}, ENNReal.ofReal (Real.exp (-nell z)) ∂ν ≤ ENNReal.ofReal (Real.exp (-c)) := by
  obtain ⟨⟨ha, hb⟩, -, hd⟩ := h3 (fun z => Real.exp (-nell z)) (by fun_prop) (fun _ => (Real.exp_pos _).le) h2
  have e : ∀ z, Real.exp (-nell z) * (nell' z + Real.log (Real.exp (-nell z))) = Real.exp (-nell z) * (nell' z - nell z) := fun z => by
    rw [Real.log_exp, sub_eq_add_neg]
  have e2 : ∀ z, -(Real.exp (-nell z) * (nell' z - nell z)) = Real.exp (-nell z) * (nell z - nell' z) := fun z => by ring
  simp only [e, e2] at ha hb
  refine ⟨ha, hb, fun c => hd c _ (measurableSet_le h1' (h1.sub_const c)) fun z hz => ?_⟩
  rw [Real.log_exp, neg_neg]
  exact hz

/-- **C211 (linear data).** On data with the density of a linear Gaussian model with scalar measurements, the expected difference between the negative log-likelihood of the filter of raw moments, for any
nonlinear model and any number of moments, and that of `kf` at the true model exists and is nonnegative; and the moment filter is better by `c` with probability at most `exp (-c)`. -/
theorem C211_linear_data (hB : B.Valid) (stable : Bool) {pdf : (Fin 1 → ℝ) → ℝ → ℝ} (hpos : ∀ y x, 0 < pdf y x) (hpdf : Continuous fun p : (Fin 1 → ℝ) × ℝ => pdf p.1 p.2)
    (hone : ∀ x, ∫⁻ y, ENNReal.ofReal (pdf y x) = 1) (hn : 2 ≤ n) (hE : ∀ x q, q ≠ 0 → q.natDegree < n / 2 → 0 < E x (q ^ 2)) (hEc : ∀ k, Continuous fun x => E x (X ^ k)) (P : ℝ → ℕ → ℝ)
    (hP : ∀ x, ∀ k < n, P x k = E x (X ^ k)) (ms0 : List ℝ) (hl : ms0.length = n) (h0 : (gramOf ms0).PosDef) (T : ℕ)
    {dx : ℕ} (F Sigma : Matrix (Fin dx) (Fin dx) ℝ) (H : Matrix (Fin 1) (Fin dx) ℝ) (Xi : Matrix (Fin 1) (Fin 1) ℝ) (m0 : Fin dx → ℝ) (v0 : Matrix (Fin dx) (Fin dx) ℝ)
    (hv0 : v0.PosDef) (hSig : Sigma.PosDef) (hXi : Xi.PosDef) (nell : (Fin (T + 1) → Fin 1 → ℝ) → ℝ)
    (hnell : ∀ ys out o, Classical.kf B F Sigma H Xi m0 v0 (List.ofFn ys) = some out → out.getLast? = some o → nell ys = o.2) :
    let nell' := fun ys : Fin (T + 1) → Fin 1 → ℝ => (filterRms B P pdf ms0 (List.ofFn ys) stable).2
    ∫⁻ ys, ENNReal.ofReal (Real.exp (-nell ys) * (nell ys - nell' ys)) ≤ 1 ∧
    ∫⁻ ys, ENNReal.ofReal (Real.exp (-nell ys) * (nell ys - nell' ys)) ≤ ∫⁻ ys, ENNReal.ofReal (Real.exp (-nell ys) * (nell' ys - nell ys)) ∧
    ∀ c : ℝ, ∫⁻ ys in {ys | nell' ys ≤ nell ys - c}, ENNReal.ofReal (Real.exp (-nell ys)) ≤ ENNReal.ofReal (Real.exp (-c)) := by
  intro nell'
  obtain ⟨-, h1, h2, -⟩ := C209_kf B F Sigma H Xi m0 v0 hv0 hSig hXi T nell hnell
  obtain ⟨h1', -, h3⟩ := (C211_filters hB stable volume hpos hpdf hone hn hE hEc ms0 hl h0 (T + 1)).1 P hP
  exact score_compare h1.measurable h2 h1'.measurable h3

/-- **C211 (parameters).** On data with the law of the filter of raw moments at one model, no other model, with whatever number of moments, has a smaller expected negative log-likelihood. -/
theorem C211_parameters (hB : B.Valid) (stable : Bool) (ν : Measure Y) [SigmaFinite ν] (hpos : ∀ y x, 0 < pdf y x) (hpdf : Continuous fun p : Y × ℝ => pdf p.1 p.2)
    (hone : ∀ x, ∫⁻ y, ENNReal.ofReal (pdf y x) ∂ν = 1) (hn : 2 ≤ n) (hE : ∀ x q, q ≠ 0 → q.natDegree < n / 2 → 0 < E x (q ^ 2)) (hEc : ∀ k, Continuous fun x => E x (X ^ k)) (P : ℝ → ℕ → ℝ)
    (hP : ∀ x, ∀ k < n, P x k = E x (X ^ k)) (ms0 : List ℝ) (hl : ms0.length = n) (h0 : (gramOf ms0).PosDef)
    {n' : ℕ} {pdf' : Y → ℝ → ℝ} {E' : ℝ → ℝ[X] →ₗ[ℝ] ℝ} (hpos' : ∀ y x, 0 < pdf' y x) (hpdf' : Continuous fun p : Y × ℝ => pdf' p.1 p.2)
    (hone' : ∀ x, ∫⁻ y, ENNReal.ofReal (pdf' y x) ∂ν = 1) (hn' : 2 ≤ n') (hE' : ∀ x q, q ≠ 0 → q.natDegree < n' / 2 → 0 < E' x (q ^ 2)) (hEc' : ∀ k, Continuous fun x => E' x (X ^ k))
    (P' : ℝ → ℕ → ℝ) (hP' : ∀ x, ∀ k < n', P' x k = E' x (X ^ k)) (ms0' : List ℝ) (hl' : ms0'.length = n') (h0' : (gramOf ms0').PosDef) (T : ℕ) :
    let nell := fun ys : Fin T → Y => (filterRms B P pdf ms0 (List.ofFn ys) stable).2
    let nell' := fun ys : Fin T → Y => (filterRms B P' pdf' ms0' (List.ofFn ys) stable).2
    ∫⁻ ys, ENNReal.ofReal (Real.exp (-nell ys) * (nell ys - nell' ys)) ∂(Measure.pi fun _ => ν) ≤ 1 ∧
    ∫⁻ ys, ENNReal.ofReal (Real.exp (-nell ys) * (nell ys - nell' ys)) ∂(Measure.pi fun _ => ν) ≤ ∫⁻ ys, ENNReal.ofReal (Real.exp (-nell ys) * (nell' ys - nell ys)) ∂(Measure.pi fun _ => ν) ∧
    ∀ c : ℝ, ∫⁻ ys in {ys | nell' ys ≤ nell ys - c}, ENNReal.ofReal (Real.exp (-nell ys)) ∂(Measure.pi fun _ => ν) ≤ ENNReal.ofReal (Real.exp (-c)) := by
  intro nell nell'
  obtain ⟨h1, h2, -⟩ := (C211_filters hB stable ν hpos hpdf hone hn hE hEc ms0 hl h0 T).1 P hP
  obtain ⟨h1', -, h3⟩ := (C211_filters hB stable ν hpos' hpdf' hone' hn' hE' hEc' ms0' hl' h0' T).1 P' hP'
  exact score_compare h1.measurable h2 h1'.measurable h3

/-- non-vacuity: normal measurements of the sine of the state, the Euler moments of a drift, a valid moment vector. -/
example : ∃ (pdf : ℝ → ℝ → ℝ) (E : ℝ → ℝ[X] →ₗ[ℝ] ℝ) (P : ℝ → ℕ → ℝ), (∀ y x, 0 < pdf y x) ∧ (Continuous fun p : ℝ × ℝ => pdf p.1 p.2) ∧ (∀ x, ∫⁻ y, ENNReal.ofReal (pdf y x) = 1) ∧
    (∀ x q, q ≠ 0 → q.natDegree < 4 / 2 → 0 < E x (q ^ 2)) ∧ (∀ k, Continuous fun x => E x (X ^ k)) ∧ (∀ x, ∀ k < 4, P x k = E x (X ^ k)) ∧ (gramOf [(1 : ℝ), 0, 1, 0]).PosDef := by
  refine ⟨fun y x => ProbabilityTheory.gaussianPDFReal (Real.sin x) 1 y, _, (Moments1.sdeCondMomentsEuler Real.sin (fun _ => 1) 1 2).raw, fun y x => ProbabilityTheory.gaussianPDFReal_pos _ _ _ one_ne_zero, ?_,
    fun x => ProbabilityTheory.lintegral_gaussianPDFReal_eq_one _ one_ne_zero, fun x q hq _ => euler_pos Real.sin (fun _ => 1) 1 one_pos (fun _ => one_ne_zero) x q hq,
    fun k => continuous_gaussL_pow (mu := fun x => x + Real.sin x * 1) (v := fun x => (1 : ℝ) ^ 2 * 1) (by fun_prop) (by fun_prop) (fun x => by positivity) k,
    fun x k hk => (euler_functional Real.sin (fun _ => 1) 1 zero_le_one 2 x k (by omega)).1, gramOf_example⟩
  simp only [ProbabilityTheory.gaussianPDFReal]
  fun_prop

end Mfs.Props

import Verif.Spec.ProperScore
import Verif.Props.ProperScore
import Verif.Props.KalmanExact

/-!
# C209: the negative log-likelihood of the Kalman filter is a proper score
-/

namespace Mfs.Props

open Mfs.Spec Mfs.Classical Mfs.Lemmas MeasureTheory Matrix

/-- `nell` with likelihoods that integrate to one. -/
theorem densityScore_of_lintegral {D : Type} [MeasurableSpace D] {ν : Measure D} {nell : D → ℝ} (hm : Measurable nell)
    (h : ∫⁻ z, ENNReal.ofReal (Real.exp (-nell z)) ∂ν = 1) : DensityScore ν nell := by
  have hq : Measurable fun z => Real.exp (-nell z) := by fun_prop
  have hqi : Integrable (fun z => Real.exp (-nell z)) ν := ⟨hq.aestronglyMeasurable, by
    rw [hasFiniteIntegral_iff_ofReal (Filter.Eventually.of_forall fun _ => (Real.exp_pos _).le), h]; exact ENNReal.one_lt_top⟩
  have hq1 : ∫ z, Real.exp (-nell z) ∂ν = 1 := by
    rw [integral_eq_lintegral_of_nonneg_ae (Filter.Eventually.of_forall fun _ => (Real.exp_pos _).le) hq.aestronglyMeasurable, h, ENNReal.toReal_one]
  intro p hpm hp hp1
  have hpi : Integrable p ν := ⟨hpm.aestronglyMeasurable, by
    rw [hasFiniteIntegral_iff_ofReal (Filter.Eventually.of_forall hp), hp1]; exact ENNReal.one_lt_top⟩
  have hpI : ∫ z, p z ∂ν = 1 := by
    rw [integral_eq_lintegral_of_nonneg_ae (Filter.Eventually.of_forall hp) hpm.aestronglyMeasurable, hp1, ENNReal.toReal_one]
  have hpt : ∀ z, p z - Real.exp (-nell z) ≤ p z * (nell z + Real.log (p z)) := fun z => by
    have := (kl_point (hp z) (Real.exp_pos (-nell z))).1
    rw [Real.log_exp] at this
    nlinarith
  refine ⟨⟨?_, ?_⟩, fun hs => ?_, fun c A hA hAc => ?_⟩
  · rw [← h]
    exact lintegral_mono fun z => ENNReal.ofReal_le_ofReal (by linarith [hpt z, hp z])
  · refine (ENNReal.add_le_add_iff_right ENNReal.one_ne_top).1 ?_
    conv_lhs => rw [← hp1]
    conv_rhs => rw [← h]
    rw [← lintegral_add_right _ hpm.ennreal_ofReal, ← lintegral_add_right _ hq.ennreal_ofReal]
    refine lintegral_mono fun z => ?_
    have h1 := hpt z
    rcases le_total 0 (p z * (nell z + Real.log (p z))) with h0 | h0
    · rw [ENNReal.ofReal_of_nonpos (neg_nonpos.2 h0), zero_add, ← ENNReal.ofReal_add h0 (Real.exp_pos _).le]
      exact ENNReal.ofReal_le_ofReal (by linarith)
    · rw [ENNReal.ofReal_of_nonpos h0, zero_add, ← ENNReal.ofReal_add (neg_nonneg.2 h0) (hp z)]
      exact ENNReal.ofReal_le_ofReal (by linarith)
  · have e : ∀ z, p z * (nell z + Real.log (p z)) - p z + Real.exp (-nell z) = p z * (Real.log (p z) - Real.log (Real.exp (-nell z))) - p z + Real.exp (-nell z) := fun z => by
      rw [Real.log_exp]; ring
    have hfi : Integrable (fun z => p z * (nell z + Real.log (p z)) - p z + Real.exp (-nell z)) ν := (hs.sub hpi).add hqi
    have hI : ∫ z, (p z * (nell z + Real.log (p z)) - p z + Real.exp (-nell z)) ∂ν = ∫ z, p z * (nell z + Real.log (p z)) ∂ν := by
      have h1 := integral_add (hs.sub hpi) hqi
      have h2 := integral_sub hs hpi
      simp only [Pi.sub_apply] at h1
      rw [h1, h2, hpI, hq1, sub_add_cancel]
    have hnn : ∀ z, 0 ≤ p z * (nell z + Real.log (p z)) - p z + Real.exp (-nell z) := fun z => by
      rw [e]; exact (kl_point (hp z) (Real.exp_pos _)).1
    rw [← hI]
    refine ⟨integral_nonneg hnn, fun h0 => ?_, fun he => ?_⟩
    · rw [integral_eq_zero_iff_of_nonneg hnn hfi] at h0
      filter_upwards [h0] with z hz
      have hz' : p z * (nell z + Real.log (p z)) - p z + Real.exp (-nell z) = 0 := hz
      rw [e] at hz'
      exact ((kl_point (hp z) (Real.exp_pos _)).2 hz').symm
    · rw [integral_eq_zero_iff_of_nonneg hnn hfi]
      filter_upwards [he] with z hz
      show p z * (nell z + Real.log (p z)) - p z + Real.exp (-nell z) = 0
      rw [← hz, Real.log_exp]; ring
  · calc ∫⁻ z in A, ENNReal.ofReal (p z) ∂ν ≤ ∫⁻ z in A, ENNReal.ofReal (Real.exp (-c)) * ENNReal.ofReal (Real.exp (-nell z)) ∂ν := by
          refine setLIntegral_mono (by fun_prop) fun z hz => ?_
          rw [← ENNReal.ofReal_mul (Real.exp_pos _).le]
          refine ENNReal.ofReal_le_ofReal ?_
          rcases (hp z).eq_or_lt with h0 | h0
          · rw [← h0]; positivity
          · rw [← Real.exp_add, ← Real.exp_log h0, Real.exp_le_exp]
            linarith [hAc z hz]
      _ ≤ ∫⁻ z, ENNReal.ofReal (Real.exp (-c)) * ENNReal.ofReal (Real.exp (-nell z)) ∂ν := setLIntegral_le_lintegral _ _
      _ = ENNReal.ofReal (Real.exp (-c)) := by rw [lintegral_const_mul _ (by fun_prop), h, mul_one]

variable {dx dy : ℕ} {F Q : Matrix (Fin dx) (Fin dx) ℝ} {H : Matrix (Fin dy) (Fin dx) ℝ} {R : Matrix (Fin dy) (Fin dy) ℝ}

theorem evid_continuous (T : ℕ) (V : Matrix (Fin dx) (Fin dx) ℝ) :
    Continuous fun p : (Fin dx → ℝ) × (Fin T → Fin dy → ℝ) => evid F Q H R (p.1, V) (List.ofFn p.2) := by
  induction T generalizing V with
  | zero => simpa [evid] using continuous_const
  | succ T ih =>
    have h0 : Continuous fun p : (Fin dx → ℝ) × (Fin (T + 1) → Fin dy → ℝ) => p.2 0 := (continuous_apply 0).comp continuous_snd
    have h1 : Continuous fun p : (Fin dx → ℝ) × (Fin (T + 1) → Fin dy → ℝ) => F *ᵥ p.1 := (mulVec_continuous F).comp continuous_fst
    have h2 : Continuous fun p : (Fin dx → ℝ) × (Fin (T + 1) → Fin dy → ℝ) => H *ᵥ (F *ᵥ p.1) := (mulVec_continuous H).comp h1
    have h3 : Continuous fun p : (Fin dx → ℝ) × (Fin (T + 1) → Fin dy → ℝ) => F *ᵥ p.1 + kgain (innov V F Q) H R *ᵥ (p.2 0 - H *ᵥ (F *ᵥ p.1)) :=
      h1.add ((mulVec_continuous _).comp (h0.sub h2))
    have h4 : Continuous fun p : (Fin dx → ℝ) × (Fin (T + 1) → Fin dy → ℝ) => fun i : Fin T => p.2 i.succ :=
      continuous_pi fun i => (continuous_apply i.succ).comp continuous_snd
    have h5 := (mvnPdf_continuous (innov (innov V F Q) H R) h2 h0).mul ((ih (kcov (innov V F Q) H R)).comp (h3.prodMk h4))
    refine h5.congr fun p => ?_
    rw [List.ofFn_succ, evid, kev, kstep]
    rfl

theorem lintegral_evid (hQ : Q.PosDef) (hR : R.PosDef) (T : ℕ) (b : Belief dx) (hb : b.2.PosDef) :
    ∫⁻ ys : Fin T → Fin dy → ℝ, ENNReal.ofReal (evid F Q H R b (List.ofFn ys)) = 1 := by
  induction T generalizing b with
  | zero =>
    simp only [List.ofFn_zero, evid, ENNReal.ofReal_one, lintegral_one]
    rw [volume_pi, Measure.pi_univ]
    simp
  | succ T ih =>
    have hc := evid_continuous (F := F) (Q := Q) (H := H) (R := R) (T + 1) b.2
    have hm : Measurable fun ys : Fin (T + 1) → Fin dy → ℝ => ENNReal.ofReal (evid F Q H R b (List.ofFn ys)) :=
      (hc.comp (continuous_const.prodMk continuous_id : Continuous fun ys : Fin (T + 1) → Fin dy → ℝ => (b.1, ys))).measurable.ennreal_ofReal
    rw [lintegral_path_succ T hm]
    simp only [List.ofFn_succ, Fin.cons_zero, Fin.cons_succ, evid]
    have hS : (innov (innov b.2 F Q) H R).PosDef := innov_posDef H (innov_posDef F hb.posSemidef hQ).posSemidef hR
    have : ∀ y, ∫⁻ xs : Fin T → Fin dy → ℝ, ENNReal.ofReal (kev F Q H R b y * evid F Q H R (kstep F Q H R b y) (List.ofFn xs)) = ENNReal.ofReal (kev F Q H R b y) := fun y => by
      simp only [ENNReal.ofReal_mul (show 0 ≤ kev F Q H R b y by unfold kev mvnPdf; positivity)]
      rw [lintegral_const_mul' _ _ ENNReal.ofReal_ne_top, ih _ (kstep_posDef hb hQ hR y), mul_one]
    simp only [this]
    exact lintegral_mvnPdf _ hS

/-- the likelihood of `kf` as a function of the measurements. -/
theorem kf_nell (B : Backend) {dx : ℕ} (F Sigma : Matrix (Fin dx) (Fin dx) ℝ) (H : Matrix (Fin 1) (Fin dx) ℝ) (Xi : Matrix (Fin 1) (Fin 1) ℝ)
    (m0 : Fin dx → ℝ) (v0 : Matrix (Fin dx) (Fin dx) ℝ) (hv0 : v0.PosDef) (hSig : Sigma.PosDef) (hXi : Xi.PosDef) (T : ℕ) (ys : Fin (T + 1) → Fin 1 → ℝ) :
    ∃ out o, kf B F Sigma H Xi m0 v0 (List.ofFn ys) = some out ∧ out.getLast? = some o ∧ Real.exp (-o.2) = evid F Sigma H Xi (m0, v0) (List.ofFn ys) := by
  obtain ⟨out, h1, h2, -⟩ := C105_kf_exact B F Sigma H Xi m0 v0 (List.ofFn ys) hv0 hSig hXi
  rw [List.length_ofFn] at h2
  obtain ⟨o, ho⟩ : ∃ o, out[T]? = some o := ⟨_, List.getElem?_eq_getElem (by omega)⟩
  refine ⟨out, o, h1, by rw [List.getLast?_eq_getElem?, h2]; exact ho, ?_⟩
  have ok : UpdateShapeOk dx 1 := Or.inl rfl
  rw [kf, dif_pos ok, Option.some.injEq] at h1
  have h3 := (kf_evid ok hSig hXi (List.ofFn ys) ((m0, v0), 0) hv0 T o (by rw [h1]; exact ho)).2
  rwa [neg_zero, Real.exp_zero, one_mul, List.take_of_length_le (by rw [List.length_ofFn])] at h3

/-- **C209.** Scalar measurements. The last negative log-likelihood that `kf` returns is a continuous function of the measurements, `exp(-nell)` integrates to one over all measurement
sequences, and `nell` is a proper score: whatever density the data have, its expectation is at least their entropy, with equality only if `exp(-nell)` is that density; and the probability that the
filter's density exceeds the true one by a factor `exp c` is at most `exp (-c)`. -/
theorem C209_kf (B : Backend) {dx : ℕ} (F Sigma : Matrix (Fin dx) (Fin dx) ℝ) (H : Matrix (Fin 1) (Fin dx) ℝ) (Xi : Matrix (Fin 1) (Fin 1) ℝ)
    (m0 : Fin dx → ℝ) (v0 : Matrix (Fin dx) (Fin dx) ℝ) (hv0 : v0.PosDef) (hSig : Sigma.PosDef) (hXi : Xi.PosDef) (T : ℕ)
    (nell : (Fin (T + 1) → Fin 1 → ℝ) → ℝ)
    (hn : ∀ ys out o, kf B F Sigma H Xi m0 v0 (List.ofFn ys) = some out → out.getLast? = some o → nell ys = o.2) :
    (∀ ys : Fin (T + 1) → Fin 1 → ℝ, ∃ out o, kf B F Sigma H Xi m0 v0 (List.ofFn ys) = some out ∧ out.getLast? = some o) ∧
    Continuous nell ∧ ∫⁻ ys, ENNReal.ofReal (Real.exp (-nell ys)) = 1 ∧ DensityScore volume nell := by
  have he : ∀ ys, Real.exp (-nell ys) = evid F Sigma H Xi (m0, v0) (List.ofFn ys) := fun ys => by
    obtain ⟨out, o, h1, h2, h3⟩ := kf_nell B F Sigma H Xi m0 v0 hv0 hSig hXi T ys
    rw [hn ys out o h1 h2, h3]
  have hc : Continuous fun ys : Fin (T + 1) → Fin 1 → ℝ => evid F Sigma H Xi (m0, v0) (List.ofFn ys) :=
    (evid_continuous (F := F) (Q := Sigma) (H := H) (R := Xi) (T + 1) v0).comp (continuous_const.prodMk continuous_id : Continuous fun ys : Fin (T + 1) → Fin 1 → ℝ => (m0, ys))
  have hcn : Continuous nell := by
    have h1 : Continuous fun ys => -Real.log (evid F Sigma H Xi (m0, v0) (List.ofFn ys)) := (hc.log fun ys => by rw [← he]; exact (Real.exp_pos _).ne').neg
    refine h1.congr fun ys => ?_
    rw [← he, Real.log_exp, neg_neg]
  have hm : ∫⁻ ys, ENNReal.ofReal (Real.exp (-nell ys)) = 1 := by
    simp only [he]
    exact lintegral_evid hSig hXi (T + 1) (m0, v0) hv0
  refine ⟨fun ys => ?_, hcn, hm, densityScore_of_lintegral hcn.measurable hm⟩
  obtain ⟨out, o, h1, h2, -⟩ := kf_nell B F Sigma H Xi m0 v0 hv0 hSig hXi T ys
  exact ⟨out, o, h1, h2⟩

/-- **C209 (parameters).** If the data have the density of one linear Gaussian model, the expected difference between `kf`'s negative log-likelihood at any other model, of whatever state dimension, and
at the true one exists and is nonnegative; and the other model is better by `c` with probability at most `exp (-c)`. -/
theorem C209_parameters (B : Backend) {dx dx' : ℕ} (F Sigma : Matrix (Fin dx) (Fin dx) ℝ) (H : Matrix (Fin 1) (Fin dx) ℝ) (Xi : Matrix (Fin 1) (Fin 1) ℝ)
    (m0 : Fin dx → ℝ) (v0 : Matrix (Fin dx) (Fin dx) ℝ) (hv0 : v0.PosDef) (hSig : Sigma.PosDef) (hXi : Xi.PosDef)
    (F' Sigma' : Matrix (Fin dx') (Fin dx') ℝ) (H' : Matrix (Fin 1) (Fin dx') ℝ) (Xi' : Matrix (Fin 1) (Fin 1) ℝ)
    (m0' : Fin dx' → ℝ) (v0' : Matrix (Fin dx') (Fin dx') ℝ) (hv0' : v0'.PosDef) (hSig' : Sigma'.PosDef) (hXi' : Xi'.PosDef) (T : ℕ)
    (nell nell' : (Fin (T + 1) → Fin 1 → ℝ) → ℝ)
    (hn : ∀ ys out o, kf B F Sigma H Xi m0 v0 (List.ofFn ys) = some out → out.getLast? = some o → nell ys = o.2)
    (hn' : ∀ ys out o, kf B F' Sigma' H' Xi' m0' v0' (List.ofFn ys) = some out → out.getLast? = some o → nell' ys = o.2) :
    ∫⁻ ys, ENNReal.ofReal (Real.exp (-nell ys) * (nell ys - nell' ys)) ≤ 1 ∧
    ∫⁻ ys, ENNReal.ofReal (Real.exp (-nell ys) * (nell ys - nell' ys)) ≤ ∫⁻ ys, ENNReal.ofReal (Real.exp (-nell ys) * (nell' ys - nell ys)) ∧
    ∀ c : ℝ, ∫⁻ ys in {ys | nell' ys ≤ nell ys - c}, ENNReal.ofReal (Real.exp (-nell ys)) ≤ ENNReal.ofReal (Real.exp (-c)) := by
  obtain ⟨-, h1, h2, -⟩ := C209_kf B F Sigma H Xi m0 v0 hv0 hSig hXi T nell hn
  obtain ⟨-, h1', -, h3⟩ := C209_kf B F' Sigma' H' Xi' m0' v0' hv0' hSig' hXi' T nell' hn'
  obtain ⟨⟨ha, hb⟩, -, hd⟩ := h3 (fun ys => Real.exp (-nell ys)) (by have := h1.measurable; fun_prop) (fun _ => (Real.exp_pos _).le) h2
  have e : ∀ ys, Real.exp (-nell ys) * (nell' ys + Real.log (Real.exp (-nell ys))) = Real.exp (-nell ys) * (nell' ys - nell ys) := fun ys => by
    rw [Real.log_exp, sub_eq_add_neg]
  have e2 : ∀ ys, -(Real.exp (-nell ys) * (nell' ys - nell ys)) = Real.exp (-nell ys) * (nell ys - nell' ys) := fun ys => by ring
  simp only [e, e2] at ha hb
  refine ⟨ha, hb, fun c => hd c _ (measurableSet_le h1'.measurable (h1.measurable.sub_const c)) fun ys hys => ?_⟩
  rw [Real.log_exp, neg_neg]
  exact hys

/-- non-vacuity: a model with a correlated two-dimensional state, three measurements and its negative log-likelihood. -/
example : ∃ (F Sigma v0 : Matrix (Fin 2) (Fin 2) ℝ) (H : Matrix (Fin 1) (Fin 2) ℝ) (Xi : Matrix (Fin 1) (Fin 1) ℝ) (nell : (Fin 3 → Fin 1 → ℝ) → ℝ),
    H ≠ 0 ∧ v0.PosDef ∧ Sigma.PosDef ∧ Xi.PosDef ∧
    ∀ ys out o, kf theBackend F Sigma H Xi 0 v0 (List.ofFn ys) = some out → out.getLast? = some o → nell ys = o.2 := by
  refine ⟨!![1, 1; 0, 1], 1, 1, !![1, 0], 1, fun ys => ((kf theBackend !![1, 1; 0, 1] 1 !![1, 0] 1 0 1 (List.ofFn ys)).bind (·.getLast?)).elim 0 (·.2),
    fun h => by simpa using congrFun (congrFun h 0) 0, PosDef.one, PosDef.one, PosDef.one, fun ys out o h1 h2 => ?_⟩
  dsimp only
  rw [h1, Option.bind_some, h2]
  rfl

end Mfs.Props

import Verif.Props.ContiConverge
import Verif.Props.ConvergencePf
import Verif.Props.Models1
import Verif.Model.ParamPf
import Mathlib.Analysis.SpecialFunctions.Exponential

/-!
# C183: the likelihood, and two models: linear Gaussian, and the double well of the parameter-estimation script
-/

namespace Mfs.Props

open Mfs.Smc Mfs.Spec Mfs.Prng Mfs.Experiments Mfs.SsModels Mfs.Jvp Mfs.Converge Mfs.Lemmas MeasureTheory ProbabilityTheory
open scoped NNReal

/-! ## The likelihood -/

/-- **C183 (likelihood).** The negative log-likelihood returned by `bootstrap_filter` with `conti_resampling=True` converges in probability to the exact one:
a deviation of `ε` has probability at most `C / n`, with `C` independent of the number of particles. -/
theorem C183_nell {Y : Type} (P : Kernel ℝ ℝ) [IsMarkovKernel P] (μ0 : Measure ℝ) [IsProbabilityMeasure μ0] (g : Y → ℝ → ℝ) (G : ℝ) (hg0 : ∀ y x, 0 < g y x)
    (hg : ∀ y, Jor (g y) G) (hP : ∀ f A, Jor f A → ∃ B, Jor (fun x => ∫ x', f x' ∂(P x)) B) (ys : List Y) (ε : ℝ) (hε : 0 < ε) :
    ∃ C, ∀ (n : ℕ) [NeZero n] (K : Type) [MeasurableSpace K] (ρ ν : Measure K) [IsProbabilityMeasure ν] (transition : (Fin n → ℝ) → K → Fin n → ℝ)
      (init : K → Fin n → ℝ) (eps : ℝ) (draw : K → ℕ → ℝ) (splitFst : K → K) (splitN : K → ℕ → List K) (keysOf : K → Fin ys.length → K),
      0 ≤ eps → Measurable (fun p : (Fin n → ℝ) × K => transition p.1 p.2) → (∀ j, Measurable fun k => draw k j) → Measurable splitFst →
      (∀ key, splitN key ys.length = List.ofFn (keysOf key)) →
      ρ.map (fun key => (init key, keysOf key)) = (Measure.pi fun _ => μ0).prod (Measure.pi fun _ => ν) →
      (∀ s, ν.map (transition s) = Measure.pi fun j => P (s j)) → (∀ᵐ k ∂ν, ∀ j < n, 0 ≤ draw (splitFst k) j ∧ draw (splitFst k) j < 1) →
      ρ.real {key | ε ≤ |(Smc.bootstrapFilter transition (fun y s i => g y (s i)) ys init key (resampleConti eps draw) splitFst splitN).2
        + Real.log (∫ x, markovE P g (fun _ => 1) ys x ∂μ0)|} ≤ C / n := by
  have hgm : ∀ y, Measurable (g y) := fun y => (hg y).measurable
  have hgG : ∀ y x, g y x ≤ G := fun y x => (le_abs_self _).trans ((hg y).abs_le x)
  obtain ⟨B1, hB1⟩ := jor_markovE hg hP Jor.const_one ys
  obtain ⟨C, hC⟩ := C183_bootstrap_mse P μ0 g G hg0 hg hP (fun _ => 1) 1 Jor.const_one ys
  set z := ∫ x, markovE P g (fun _ => 1) ys x ∂μ0 with hz
  have hz0 : 0 < z := by
    have hpos := markovEY_one_pos (fun _ => P) hgm hg0 hgG ys
    simp only [markovEY_const] at hpos
    rw [hz, integral_pos_iff_support_of_nonneg (fun x => (hpos x).le) (integrable_of_abs_le _ hB1.measurable hB1.abs_le),
      show Function.support (markovE P g (fun _ => 1) ys) = Set.univ from Set.eq_univ_of_forall fun x => (hpos x).ne']
    simp
  have he : 0 < 1 - Real.exp (-ε) := by
    have := Real.exp_lt_one_iff.2 (show -ε < 0 by linarith)
    linarith
  set δ := z * (1 - Real.exp (-ε)) with hδ
  have hδ0 : 0 < δ := mul_pos hz0 he
  refine ⟨C / δ ^ 2, ?_⟩
  intro n _ K _ ρ ν _ transition init eps draw splitFst splitN keysOf heps htm hd hsm hsplit hideal hind hdr
  have hn1 : (0 : ℝ) < n := Nat.cast_pos.2 (Nat.pos_of_ne_zero (NeZero.ne n))
  obtain ⟨hi, h1, -⟩ := hC n K ρ ν transition init eps draw splitFst splitN keysOf heps htm hd hsm hsplit hideal hind hdr
  have hone : ∀ x : ℝ, x * ((∑ _j : Fin n, (1 : ℝ)) / n) = x := fun x => by simp [hn1.ne']
  simp only [hone] at hi h1
  have hfin : IsFiniteMeasure ρ := by
    have hne : ρ.map (fun key => (init key, keysOf key)) ≠ 0 := by
      rw [hideal]; exact IsProbabilityMeasure.ne_zero _
    have hae : AEMeasurable (fun key => (init key, keysOf key)) ρ := by
      by_contra hc
      exact hne (Measure.map_of_not_aemeasurable hc)
    refine ⟨?_⟩
    have := Measure.map_apply_of_aemeasurable hae (MeasurableSet.univ (α := (Fin n → ℝ) × (Fin ys.length → K)))
    rw [hideal, measure_univ, Set.preimage_univ] at this
    rw [← this]; exact ENNReal.one_lt_top
  have hsub : {key | ε ≤ |(Smc.bootstrapFilter transition (fun y s i => g y (s i)) ys init key (resampleConti eps draw) splitFst splitN).2 + Real.log z|}
      ⊆ {key | δ ^ 2 ≤ (Real.exp (-(Smc.bootstrapFilter transition (fun y s i => g y (s i)) ys init key (resampleConti eps draw) splitFst splitN).2) - z) ^ 2} := by
    intro key hk
    rw [Set.mem_ofPred_eq] at hk ⊢
    generalize (Smc.bootstrapFilter transition (fun y s i => g y (s i)) ys init key (resampleConti eps draw) splitFst splitN).2 = r at hk ⊢
    have e : Real.exp (-r) = z * Real.exp (-(r + Real.log z)) := by
      rw [neg_add, Real.exp_add, Real.exp_neg (Real.log z), Real.exp_log hz0]
      field_simp
    rw [e, ← sq_abs (z * _ - z)]
    refine pow_le_pow_left₀ hδ0.le ?_ 2
    rw [show z * Real.exp (-(r + Real.log z)) - z = z * (Real.exp (-(r + Real.log z)) - 1) by ring, abs_mul, abs_of_pos hz0]
    refine mul_le_mul_of_nonneg_left ?_ hz0.le
    generalize r + Real.log z = t at hk
    rcases le_abs.1 hk with h | h
    · rw [abs_of_nonpos (by linarith [Real.exp_le_one_iff.2 (show -t ≤ 0 by linarith)])]
      linarith [Real.exp_le_exp.2 (show -t ≤ -ε by linarith)]
    · have h3 : ε + 1 ≤ Real.exp (-t) := (Real.add_one_le_exp ε).trans (Real.exp_le_exp.2 (by linarith))
      have h4 := Real.add_one_le_exp (-ε)
      rw [abs_of_nonneg (by linarith)]
      linarith
  refine (measureReal_mono hsub).trans ?_
  have h5 := mul_meas_ge_le_integral_of_nonneg (μ := ρ) (Filter.Eventually.of_forall fun key => sq_nonneg _) hi (δ ^ 2)
  rw [div_div, le_div_iff₀ (by positivity)]
  have h6 := h5.trans h1
  rw [le_div_iff₀ hn1] at h6
  linarith

/-! ## Functions of bounded variation -/

theorem Jor.add {f g : ℝ → ℝ} {A B : ℝ} (hf : Jor f A) (hg : Jor g B) : Jor (fun x => f x + g x) (A + B) := by
  obtain ⟨p, q, mp, mq, hp, hq, e⟩ := hf
  obtain ⟨p', q', mp', mq', hp', hq', e'⟩ := hg
  refine ⟨fun x => p x + p' x, fun x => q x + q' x, mp.add mp', mq.add mq', fun x => ⟨add_nonneg (hp x).1 (hp' x).1, add_le_add (hp x).2 (hp' x).2⟩,
    fun x => ⟨add_nonneg (hq x).1 (hq' x).1, add_le_add (hq x).2 (hq' x).2⟩, fun x => by simp only [e, e']; ring⟩

theorem Jor.neg {f : ℝ → ℝ} {A : ℝ} (hf : Jor f A) : Jor (fun x => -f x) A := by
  obtain ⟨p, q, mp, mq, hp, hq, e⟩ := hf
  exact ⟨q, p, mq, mp, hq, hp, fun x => by simp only [e]; ring⟩

theorem Jor.of_monotone {f : ℝ → ℝ} {A : ℝ} (hm : Monotone f) (h : ∀ x, 0 ≤ f x ∧ f x ≤ A) : Jor f A :=
  ⟨f, fun _ => 0, hm, monotone_const, h, fun x => ⟨le_rfl, (h x).1.trans (h x).2⟩, fun x => by ring⟩

theorem Jor.of_antitone {f : ℝ → ℝ} {A : ℝ} (hm : Antitone f) (h : ∀ x, 0 ≤ f x ∧ f x ≤ A) : Jor f A :=
  ⟨fun _ => A, fun x => A - f x, monotone_const, fun x y hxy => sub_le_sub_left (hm hxy) A, fun x => ⟨(h x).1.trans (h x).2, le_rfl⟩,
    fun x => ⟨by linarith [(h x).2], by linarith [(h x).1]⟩, fun x => by ring⟩

/-- the indicator of a half-line. -/
theorem Jor.cdf (c : ℝ) : Jor (fun x => if x ≤ c then 1 else 0) 1 :=
  Jor.of_antitone (fun x y hxy => by split_ifs <;> linarith) fun x => by split_ifs <;> norm_num

/-- a function that increases up to `c` and decreases from there. -/
theorem Jor.of_unimodal {h : ℝ → ℝ} {c A : ℝ} (h1 : MonotoneOn h (Set.Iic c)) (h2 : AntitoneOn h (Set.Ici c)) (hb : ∀ x, 0 ≤ h x ∧ h x ≤ A) : Jor h A := by
  refine ⟨fun x => h (min x c), fun x => h c - h (max x c), fun x y hxy => h1 (Set.mem_Iic.2 (min_le_right _ _)) (Set.mem_Iic.2 (min_le_right _ _)) (min_le_min_right c hxy),
    fun x y hxy => sub_le_sub_left (h2 (Set.mem_Ici.2 (le_max_right _ _)) (Set.mem_Ici.2 (le_max_right _ _)) (max_le_max_right c hxy)) _, fun x => hb _, fun x => ⟨?_, ?_⟩, fun x => ?_⟩
  · exact sub_nonneg.2 (h2 (Set.mem_Ici.2 le_rfl) (Set.mem_Ici.2 (le_max_right _ _)) (le_max_right _ _))
  · linarith [(hb c).2, (hb (max x c)).1]
  · rcases le_total x c with h | h
    · simp [h]
    · simp [h]

/-- averaging over a normal law with a given mean keeps bounded variation. -/
theorem Jor.gauss {f : ℝ → ℝ} {A : ℝ} (hf : Jor f A) (v : ℝ≥0) : Jor (fun u => ∫ x, f x ∂gaussianReal u v) A := by
  obtain ⟨p, q, mp, mq, hp, hq, e⟩ := hf
  have hshift : ∀ (r : ℝ → ℝ), Monotone r → ∀ u, ∫ x, r x ∂gaussianReal u v = ∫ x, r (u + x) ∂gaussianReal 0 v := by
    intro r hr u
    have h := gaussianReal_map_const_add (μ := 0) (v := v) u
    rw [zero_add] at h
    rw [← h, integral_map (by fun_prop) hr.measurable.aestronglyMeasurable]
  have hint : ∀ (r : ℝ → ℝ) (u : ℝ), Monotone r → (∀ x, 0 ≤ r x ∧ r x ≤ A) → Integrable (fun x => r (u + x)) (gaussianReal 0 v) := fun r u hr hb =>
    integrable_of_abs_le _ (hr.measurable.comp (measurable_const_add u)) (B := A) fun x => by rw [abs_of_nonneg (hb _).1]; exact (hb _).2
  have hmono : ∀ (r : ℝ → ℝ), Monotone r → (∀ x, 0 ≤ r x ∧ r x ≤ A) → Monotone fun u => ∫ x, r x ∂gaussianReal u v := by
    intro r hr hb u u' huu
    simp only [hshift r hr]
    exact integral_mono (hint r u hr hb) (hint r u' hr hb) fun x => hr (by linarith)
  have hbd : ∀ (r : ℝ → ℝ), Monotone r → (∀ x, 0 ≤ r x ∧ r x ≤ A) → ∀ u, 0 ≤ ∫ x, r x ∂gaussianReal u v ∧ ∫ x, r x ∂gaussianReal u v ≤ A := by
    intro r hr hb u
    refine ⟨integral_nonneg fun x => (hb x).1, ?_⟩
    rw [hshift r hr]
    refine (integral_mono (hint r u hr hb) (integrable_const A) fun x => (hb _).2).trans (by simp)
  refine ⟨_, _, hmono p mp hp, hmono q mq hq, hbd p mp hp, hbd q mq hq, fun u => ?_⟩
  have hi : ∀ (r : ℝ → ℝ), Monotone r → (∀ x, 0 ≤ r x ∧ r x ≤ A) → Integrable r (gaussianReal u v) := fun r hr hb =>
    integrable_of_abs_le _ hr.measurable (B := A) fun x => by rw [abs_of_nonneg (hb _).1]; exact (hb _).2
  simp only [e]
  exact integral_sub (hi p mp hp) (hi q mq hq)

/-- composition with a function that decreases, increases and decreases. -/
theorem Jor.comp_cubic {f : ℝ → ℝ} {A a b : ℝ} (hf : Jor f A) {m : ℝ → ℝ} (hab : a ≤ b) (h1 : AntitoneOn m (Set.Iic a)) (h2 : MonotoneOn m (Set.Icc a b))
    (h3 : AntitoneOn m (Set.Ici b)) : ∃ B, Jor (fun x => f (m x)) B := by
  obtain ⟨p, q, mp, mq, hp, hq, e⟩ := hf
  have key : ∀ r : ℝ → ℝ, Monotone r → (∀ x, 0 ≤ r x ∧ r x ≤ A) → ∃ B, Jor (fun x => r (m x)) B := by
    intro r hr hb
    have j1 : Jor (fun x => r (m (min x a))) A :=
      Jor.of_antitone (fun x y hxy => hr (h1 (Set.mem_Iic.2 (min_le_right _ _)) (Set.mem_Iic.2 (min_le_right _ _)) (min_le_min_right a hxy))) fun x => hb _
    have j2 : Jor (fun x => r (m (max a (min x b)))) A :=
      Jor.of_monotone (fun x y hxy => hr (h2 ⟨le_max_left _ _, max_le hab (min_le_right _ _)⟩ ⟨le_max_left _ _, max_le hab (min_le_right _ _)⟩
        (max_le_max_left a (min_le_min_right b hxy)))) fun x => hb _
    have j3 : Jor (fun x => r (m (max x b))) A :=
      Jor.of_antitone (fun x y hxy => hr (h3 (Set.mem_Ici.2 (le_max_right _ _)) (Set.mem_Ici.2 (le_max_right _ _)) (max_le_max_right b hxy))) fun x => hb _
    have j4 : Jor (fun _ => r (m a)) A := Jor.of_monotone monotone_const fun x => hb _
    have j5 : Jor (fun _ => r (m b)) A := Jor.of_monotone monotone_const fun x => hb _
    have j := (((j1.add j2).add j3).add j4.neg).add j5.neg
    suffices he : (fun x => r (m x)) = fun x => r (m (min x a)) + r (m (max a (min x b))) + r (m (max x b)) + -r (m a) + -r (m b) from ⟨_, he ▸ j⟩
    funext x
    rcases le_total x a with h | h
    · have h' : x ≤ b := h.trans hab
      simp only [min_eq_left h, min_eq_left h', max_eq_left h, max_eq_right h']
      ring
    · rcases le_total x b with h' | h'
      · simp only [min_eq_right h, min_eq_left h', max_eq_right h, max_eq_right h']
        ring
      · simp only [min_eq_right h, min_eq_right h', max_eq_right hab, max_eq_left h']
        ring
  obtain ⟨B, hB⟩ := key p mp hp
  obtain ⟨B', hB'⟩ := key q mq hq
  have he : (fun x => f (m x)) = fun x => p (m x) + -q (m x) := funext fun x => by rw [e]; ring
  exact ⟨_, he ▸ hB.add hB'.neg⟩

/-! ## The models -/

variable {K : Type} [MeasurableSpace K]

/-- the hypotheses on the generator. -/
theorem idealGen_conti {G : Gen K} {ρ : Measure K} (hG : IdealGen G ρ) (n : ℕ) [NeZero n] {m : ℝ → ℝ} (hm : Measurable m) {v : ℝ} (hv : 0 ≤ v) :
    Measurable (fun p : (Fin n → ℝ) × K => scriptTransition G m (fun _ => v) p.1 p.2) ∧ (∀ j, Measurable fun k => G.uniform k n j) ∧ Measurable G.fst ∧
    (∀ key num, G.split key num = List.ofFn fun i : Fin num => G.key key num i) ∧
    (∀ s, ρ.map (scriptTransition G m (fun _ => v) s) = Measure.pi fun j : Fin n => normalKernel m (fun _ => v.toNNReal) hm measurable_const (s j)) ∧
    ∀ᵐ k ∂ρ, ∀ j < n, 0 ≤ G.uniform (G.fst k) n j ∧ G.uniform (G.fst k) n j < 1 := by
  have := hG.prob
  refine ⟨?_, fun j => hG.measurable_uniform n j, hG.measurable_key 2 0, fun key num => ?_, fun s => ?_, ?_⟩
  · refine measurable_pi_lambda _ fun i => ?_
    have h1 : Measurable fun r : (Fin n → ℝ) × K => m (r.1 i) := hm.comp ((measurable_pi_apply i).comp measurable_fst)
    have h2 : Measurable fun r : (Fin n → ℝ) × K => G.normal r.2 n i := (hG.measurable_normal _ _).comp measurable_snd
    exact h1.add (h2.const_mul _)
  · refine List.ext_getElem (by rw [hG.length, List.length_ofFn]) fun i h1 h2 => ?_
    simp [Gen.key, List.getD_eq_getElem?_getD, h1]
  · have h := congrArg (Measure.map Prod.fst) (idealGen_normals_fst hG n (fun i => m (s i)) (fun _ => v) fun _ => hv)
    rw [Measure.map_fst_prod, measure_univ, one_smul, Measure.map_map measurable_fst] at h
    · exact h
    · exact (measurable_pi_lambda _ fun i => ((hG.measurable_normal _ _).const_mul _).const_add _).prodMk (hG.measurable_key 2 0)
  · have hu : ∀ᵐ u ∂(Measure.pi fun _ : Fin n => (volume : Measure ℝ).restrict (Set.Ico 0 1)), ∀ i, u i ∈ Set.Ico (0 : ℝ) 1 := by
      rw [ae_all_iff]
      intro i
      have hp : IsProbabilityMeasure ((volume : Measure ℝ).restrict (Set.Ico 0 1)) := ⟨by simp⟩
      have h := (measurePreserving_eval (fun _ : Fin n => (volume : Measure ℝ).restrict (Set.Ico 0 1)) i).quasiMeasurePreserving.ae
        (p := fun x => x ∈ Set.Ico (0 : ℝ) 1) (ae_restrict_mem measurableSet_Ico)
      exact h
    rw [← hG.uniforms n] at hu
    have hmu : Measurable fun k (i : Fin n) => G.uniform k n i := measurable_pi_lambda _ fun i => hG.measurable_uniform _ _
    have h1 := ae_of_ae_map hmu.aemeasurable hu
    have h2 : ρ.map G.fst = ρ := by
      have h := congrArg (Measure.map Prod.snd) (idealGen_normals_fst hG 0 (fun i => 0) (fun _ => 0) fun _ => le_rfl)
      rw [Measure.map_snd_prod, measure_univ, one_smul, Measure.map_map measurable_snd] at h
      · exact h
      · exact (measurable_pi_lambda _ fun i => ((hG.measurable_normal _ _).const_mul _).const_add _).prodMk (hG.measurable_key 2 0)
    rw [← h2] at h1
    filter_upwards [ae_of_ae_map (hG.measurable_key 2 0).aemeasurable h1] with k hk j hj
    exact hk ⟨j, hj⟩

theorem normPdf_unimodal {R : ℝ} (hR : 0 < R) (y : ℝ) : Jor (fun z => normPdf y z (√R)) (normPdf 0 0 (√R)) := by
  have hcmp : ∀ a b : ℝ, (y - b) ^ 2 ≤ (y - a) ^ 2 → normPdf y a (√R) ≤ normPdf y b (√R) := by
    intro a b h
    rw [normPdf, normPdf, Real.exp_le_exp, normLogpdf, normLogpdf, Real.sq_sqrt hR.le]
    have : (y - b) ^ 2 / R ≤ (y - a) ^ 2 / R := by gcongr
    linarith
  refine Jor.of_unimodal (c := y) (fun a ha b hb hab => hcmp a b ?_) (fun a ha b hb hab => hcmp b a ?_) fun x => ⟨(normPdf_pos _ _ _).le, ?_⟩
  · rw [Set.mem_Iic] at ha hb; nlinarith
  · rw [Set.mem_Ici] at ha hb; nlinarith
  · refine (normPdf_le y _ hR).trans (le_of_eq ?_)
    simp [normPdf, normLogpdf]

theorem linKernel_jor (F : ℝ) (v : ℝ≥0) {f : ℝ → ℝ} {A : ℝ} (hf : Jor f A) : ∃ B, Jor (fun x => ∫ x', f x' ∂(linKernel F v x)) B := by
  obtain ⟨p, q, mp, mq, hp, hq, e⟩ := hf.gauss v
  have he : ∀ x, ∫ x', f x' ∂(linKernel F v x) = p (F * x) - q (F * x) := fun x => e (F * x)
  simp only [he]
  rcases le_total 0 F with hF | hF
  · exact ⟨A, fun x => p (F * x), fun x => q (F * x), fun x y h => mp (mul_le_mul_of_nonneg_left h hF), fun x y h => mq (mul_le_mul_of_nonneg_left h hF),
      fun x => hp _, fun x => hq _, fun x => rfl⟩
  · have j1 : Jor (fun x => p (F * x)) A := Jor.of_antitone (fun x y h => mp (mul_le_mul_of_nonpos_left h hF)) fun x => hp _
    have j2 : Jor (fun x => q (F * x)) A := Jor.of_antitone (fun x y h => mq (mul_le_mul_of_nonpos_left h hF)) fun x => hq _
    have he : (fun x => p (F * x) - q (F * x)) = fun x => p (F * x) + -q (F * x) := funext fun x => by ring
    exact ⟨_, he ▸ j1.add j2.neg⟩

/-- **C183 (linear Gaussian model).** For the linear Gaussian model, and a generator that is ideal: the distribution of the particles of the filter with continuous
resampling converges to the law that the Kalman filter returns, for all half-lines and all functions of bounded variation, and its negative log-likelihood to that of the
Kalman filter. -/
theorem C183_linear {G : Gen K} {ρ : Measure K} (hG : IdealGen G ρ) {F Sigma R mean0 var0 : ℝ} (hS : 0 < Sigma) (hR : 0 < R) (hv0 : 0 < var0)
    (ys : List ℝ) (eps : ℝ) (heps : 0 ≤ eps) (f : ℝ → ℝ) (A : ℝ) (hf : Jor f A) (ε : ℝ) (hε : 0 < ε) :
    let out := fun n key => Prng.bootstrapFilter (n := n + 1) G (scriptTransition G (fun x => F * x) fun _ => Sigma) (fun y s i => normPdf y (s i) (√R)) ys
      (pfInit G mean0 var0) key (resampleConti eps fun k => G.uniform k (n + 1))
    let kfEnd := (scan (kfBody F Sigma R) (mean0, var0, 0) ys).1
    ∃ C, ∀ n : ℕ, ∫ key, ((∑ j, f ((out n key).1.getLastD (pfInit G mean0 var0 key) j)) / (n + 1 : ℕ) - ∫ x, f x ∂gaussianReal kfEnd.1 kfEnd.2.1.toNNReal) ^ 2 ∂ρ
        ≤ C / (n + 1 : ℕ) ∧
      ρ.real {key | ε ≤ |(out n key).2 - kfEnd.2.2|} ≤ C / (n + 1 : ℕ) := by
  intro out kfEnd
  have := hG.prob
  have hη : ∀ (f : ℝ → ℝ) (A : ℝ), Jor f A →
      ∫ x, markovE (linKernel F Sigma.toNNReal) (fun y z => normPdf y z (√R)) f ys x ∂gaussianReal mean0 var0.toNNReal
        = Real.exp (0 - kfEnd.2.2) * ∫ x, f x ∂gaussianReal kfEnd.1 kfEnd.2.1.toNNReal := fun f A hf =>
    (kf_markovE F hS hR hf.measurable ⟨A, 0, fun x => by have := hf.abs_le x; have := hf.nonneg; simp only [pow_zero]; linarith⟩ ys mean0 var0 0 hv0).2
  obtain ⟨C, hC⟩ := C183_bootstrap_mse (linKernel F Sigma.toNNReal) (gaussianReal mean0 var0.toNNReal) (fun y z => normPdf y z (√R)) (normPdf 0 0 (√R))
    (fun _ _ => normPdf_pos _ _ _) (normPdf_unimodal hR) (fun f A hf => linKernel_jor F _ hf) f A hf ys
  obtain ⟨C', hC'⟩ := C183_nell (linKernel F Sigma.toNNReal) (gaussianReal mean0 var0.toNNReal) (fun y z => normPdf y z (√R)) (normPdf 0 0 (√R))
    (fun _ _ => normPdf_pos _ _ _) (normPdf_unimodal hR) (fun f A hf => linKernel_jor F _ hf) ys ε hε
  have h1 := hη (fun _ => 1) 1 Jor.const_one
  have hf' := hη f A hf
  simp only [integral_const, probReal_univ, smul_eq_mul, mul_one] at h1
  rw [h1, hf', mul_div_cancel_left₀ _ (Real.exp_pos _).ne'] at hC
  rw [h1, Real.log_exp] at hC'
  refine ⟨max C C', fun n => ?_⟩
  obtain ⟨a1, a2, a3, a4, a5, a6⟩ := idealGen_conti hG (n + 1) (m := fun x => F * x) (by fun_prop) hS.le
  have hid := idealGen_normals hG ys.length (n + 1) (fun _ => mean0) (fun _ => var0) fun _ => hv0.le
  obtain ⟨-, -, h2⟩ := hC (n + 1) K ρ ρ _ (pfInit G mean0 var0) eps (fun k => G.uniform k (n + 1)) G.fst G.split (fun key i => G.key key ys.length i) heps a1 a2 a3
    (fun key => a4 key _) hid a5 a6
  have h3 := hC' (n + 1) K ρ ρ _ (pfInit G mean0 var0) eps (fun k => G.uniform k (n + 1)) G.fst G.split (fun key i => G.key key ys.length i) heps a1 a2 a3
    (fun key => a4 key _) hid a5 a6
  refine ⟨h2.trans (by gcongr; exact le_max_left _ _), ?_⟩
  have e : ∀ key, (out n key).2 - kfEnd.2.2 = (out n key).2 + (0 - kfEnd.2.2) := fun key => by ring
  simp only [e]
  exact h3.trans (by gcongr; exact le_max_right _ _)

/-! ## The double well -/

theorem poissonPmf_le_one (y : ℕ) {μ : ℝ} (h : 0 < μ) : poissonPmf y μ ≤ 1 := by
  have h1 : poissonPmf y μ = μ ^ y / y.factorial * Real.exp (-μ) := by
    rw [poissonPmf, Real.exp_sub, Real.exp_sub, Real.exp_log (by positivity), ← Real.log_pow, Real.exp_log (by positivity), Real.exp_neg]
    ring
  rw [h1]
  have h2 := Real.pow_div_factorial_le_exp μ h.le y
  calc _ ≤ Real.exp μ * Real.exp (-μ) := by gcongr
    _ = 1 := by rw [← Real.exp_add, add_neg_cancel, Real.exp_zero]

theorem poissonPmf_mono (y : ℕ) {a b : ℝ} (ha : 0 < a) (hab : a ≤ b) (hb : b ≤ y) : poissonPmf y a ≤ poissonPmf y b := by
  have hb0 : 0 < b := ha.trans_le hab
  rw [poissonPmf, poissonPmf, Real.exp_le_exp]
  have h1 := Real.one_sub_inv_le_log_of_pos (div_pos hb0 ha)
  rw [Real.log_div hb0.ne' ha.ne', inv_div] at h1
  have h2 : b - a ≤ y * (1 - a / b) := by
    calc b - a = b * (1 - a / b) := by field_simp
      _ ≤ _ := by gcongr; rw [sub_nonneg, div_le_one hb0]; exact hab
  have h3 : (y : ℝ) * (1 - a / b) ≤ y * (Real.log b - Real.log a) := by gcongr
  linarith

theorem poissonPmf_anti (y : ℕ) {a b : ℝ} (ha : 0 < a) (hab : a ≤ b) (hy : (y : ℝ) ≤ a) : poissonPmf y b ≤ poissonPmf y a := by
  have hb0 : 0 < b := ha.trans_le hab
  rw [poissonPmf, poissonPmf, Real.exp_le_exp]
  have h1 := Real.log_le_sub_one_of_pos (div_pos hb0 ha)
  rw [Real.log_div hb0.ne' ha.ne'] at h1
  have h2 : y * (b / a - 1) ≤ b - a := by
    calc y * (b / a - 1) ≤ a * (b / a - 1) := by gcongr; rw [sub_nonneg, one_le_div ha]; exact hab
      _ = _ := by field_simp
  have h3 : (y : ℝ) * (Real.log b - Real.log a) ≤ y * (b / a - 1) := by gcongr
  linarith

theorem wellPmf_jor {p : ℝ} (hp : 0 < p) (y : ℕ) : Jor (fun x => wellPmf y x p) 1 := by
  have hpos : ∀ x, 0 < wellEmission x p := fun x => Real.log_pos (by linarith [Real.exp_pos (p * x)])
  have hmono : Monotone fun x => wellEmission x p := fun x x' h => by
    refine Real.log_le_log (by positivity) ?_
    have := Real.exp_le_exp.2 (mul_le_mul_of_nonneg_left h hp.le)
    linarith
  have hb : ∀ x, 0 ≤ wellPmf y x p ∧ wellPmf y x p ≤ 1 := fun x => ⟨(wellPmf_pos _ _ _).le, poissonPmf_le_one y (hpos x)⟩
  rcases Nat.eq_zero_or_pos y with rfl | hy
  · exact Jor.of_antitone (fun x x' h => poissonPmf_anti 0 (hpos x) (hmono h) (by simpa using (hpos x).le)) hb
  · have hy0 : (0 : ℝ) < y := by exact_mod_cast hy
    have hey : 0 < Real.exp y - 1 := by linarith [Real.add_one_lt_exp hy0.ne']
    -- where the emission equals `y`
    set c := Real.log (Real.exp y - 1) / p with hc
    have hce : wellEmission c p = y := by
      rw [wellEmission, hc, mul_div_cancel₀ _ hp.ne', Real.exp_log hey, add_sub_cancel, Real.log_exp]
    refine Jor.of_unimodal (c := c) (fun a _ b hb hab => ?_) (fun a ha b _ hab => ?_) hb
    · exact poissonPmf_mono y (hpos a) (hmono hab) (hce ▸ hmono hb)
    · exact poissonPmf_anti y (hpos a) (hmono hab) (hce ▸ hmono ha)

/-- the Euler mean of the double well. -/
theorem wellEuler_jor {θ δ : ℝ} (hθ : 0 < θ) (hδ : 0 < δ) {f : ℝ → ℝ} {A : ℝ} (hf : Jor f A) : ∃ B, Jor (fun x => f (x + wellDrift x θ * δ)) B := by
  set r := √((1 + δ) / (3 * θ * δ)) with hr
  have hr0 : 0 ≤ r := Real.sqrt_nonneg _
  have hr2 : 3 * θ * δ * r ^ 2 = 1 + δ := by rw [hr, Real.sq_sqrt (by positivity)]; field_simp
  have hd : ∀ a b : ℝ, (b + wellDrift b θ * δ) - (a + wellDrift a θ * δ) = (b - a) * (θ * δ * (3 * r ^ 2 - (a ^ 2 + a * b + b ^ 2))) := fun a b => by
    have : 1 + δ - θ * δ * (a ^ 2 + a * b + b ^ 2) = θ * δ * (3 * r ^ 2 - (a ^ 2 + a * b + b ^ 2)) := by linarith
    rw [← this, wellDrift, wellDrift]; ring
  have hk : 0 < θ * δ := by positivity
  refine hf.comp_cubic (a := -r) (b := r) (by linarith) (fun a ha b hb hab => ?_) (fun a ha b hb hab => ?_) fun a ha b hb hab => ?_
  · rw [Set.mem_Iic] at ha hb
    have h1 : 3 * r ^ 2 - (a ^ 2 + a * b + b ^ 2) ≤ 0 := by
      nlinarith [mul_nonneg (show 0 ≤ -a - r by linarith) hr0, mul_nonneg (show 0 ≤ -b - r by linarith) hr0,
        mul_nonneg (show 0 ≤ -a - r by linarith) (show 0 ≤ -b - r by linarith)]
    have h2 := mul_nonpos_of_nonneg_of_nonpos (sub_nonneg.2 hab) (mul_nonpos_of_nonneg_of_nonpos hk.le h1)
    have h3 := hd a b
    linarith
  · obtain ⟨ha1, ha2⟩ := ha
    obtain ⟨hb1, hb2⟩ := hb
    have h1 : 0 ≤ 3 * r ^ 2 - (a ^ 2 + a * b + b ^ 2) := by
      nlinarith [mul_nonneg (show 0 ≤ r - a by linarith) (show 0 ≤ r + a by linarith),
        mul_nonneg (show 0 ≤ r - b by linarith) (show 0 ≤ r + b by linarith), sq_nonneg (a - b)]
    have h2 := mul_nonneg (sub_nonneg.2 hab) (mul_nonneg hk.le h1)
    have h3 := hd a b
    linarith
  · rw [Set.mem_Ici] at ha hb
    have h1 : 3 * r ^ 2 - (a ^ 2 + a * b + b ^ 2) ≤ 0 := by
      nlinarith [mul_nonneg (show 0 ≤ a - r by linarith) hr0, mul_nonneg (show 0 ≤ b - r by linarith) hr0,
        mul_nonneg (show 0 ≤ a - r by linarith) (show 0 ≤ b - r by linarith)]
    have h2 := mul_nonpos_of_nonneg_of_nonpos (sub_nonneg.2 hab) (mul_nonpos_of_nonneg_of_nonpos hk.le h1)
    have h3 := hd a b
    linarith

/-- the transition kernel of the Euler scheme of `dX = X (1 - θ X²) dt + dW` with steps of a hundredth, written out. -/
noncomputable def wellKernel (θ : ℝ) : Kernel ℝ ℝ :=
  normalKernel (fun x => x + x * (1 - θ * x ^ 2) * (1 / 100)) (fun _ => (1 / 100 : ℝ).toNNReal) (by fun_prop) (by fun_prop)

theorem wellKernel_eq (θ : ℝ) : wellKernel θ
    = normalKernel (fun x => x + wellDrift x θ * dt1) (fun x => (dispersion1 x ^ 2 * dt1).toNNReal) (by unfold wellDrift; fun_prop) (by unfold dispersion1; fun_prop) := by
  have h : dt1 = 1 / 100 := by norm_num [dt1]
  simp only [wellKernel, wellDrift, dispersion1, h, one_pow, one_mul]

instance (θ : ℝ) : IsMarkovKernel (wellKernel θ) := by rw [wellKernel]; infer_instance

/-- **C183 (double well).** The objective of the parameter-estimation script with the options `--euler` and `--cr`, for all parameters: with an ideal generator and
an initial sampler whose draws are independent of the keys of the steps, the negative log-likelihood of `bootstrap_filter` converges in probability to the exact one of the
discretised model. (The sampler of the script violates this: C160, C182.) -/
theorem C183_well {G : Gen K} {ρ : Measure K} (hG : IdealGen G ρ) (params : ℝ × ℝ) (μ0 : Measure ℝ) [IsProbabilityMeasure μ0] (init : (n : ℕ) → K → Fin n → ℝ) (ys : List ℕ)
    (hinit : ∀ n, ρ.map (fun key => (init n key, fun i : Fin ys.length => G.key key ys.length i)) = (Measure.pi fun _ => μ0).prod (Measure.pi fun _ => ρ))
    (eps : ℝ) (heps : 0 ≤ eps) (ε : ℝ) (hε : 0 < ε) :
    ∃ C, ∀ n : ℕ, ρ.real {key | ε ≤ |(Prng.bootstrapFilter G (n := n + 1)
        (scriptTransition G (fun x => x + wellDrift x (softplus params.1) * dt1) fun x => dispersion1 x ^ 2 * dt1)
        (fun y s i => wellPmf y (s i) (softplus params.2)) ys (init (n + 1)) key (resampleConti eps fun k => G.uniform k (n + 1))).2
      + Real.log (∫ x, markovE (wellKernel (softplus params.1)) (fun y x => wellPmf y x (softplus params.2)) (fun _ => 1) ys x ∂μ0)|} ≤ C / (n + 1 : ℕ) := by
  have := hG.prob
  have hsp : ∀ p, 0 < softplus p := fun p => Real.log_pos (by linarith [Real.exp_pos p])
  have hdt : 0 < dt1 := by norm_num [dt1]
  have hv : ∀ x : ℝ, dispersion1 x ^ 2 * dt1 = dt1 := fun x => by simp [dispersion1]
  obtain ⟨C, hC⟩ := C183_nell (wellKernel (softplus params.1)) μ0 (fun y x => wellPmf y x (softplus params.2)) 1 (fun _ _ => wellPmf_pos _ _ _)
    (fun y => wellPmf_jor (hsp _) y) (fun f A hf => by
      have := wellEuler_jor (hsp params.1) hdt (hf.gauss dt1.toNNReal)
      simpa only [wellKernel_eq, normalKernel_apply, hv] using this) ys ε hε
  refine ⟨C, fun n => ?_⟩
  obtain ⟨a1, a2, a3, a4, a5, a6⟩ := idealGen_conti hG (n + 1) (m := fun x => x + wellDrift x (softplus params.1) * dt1) (by unfold wellDrift; fun_prop) hdt.le
  have hfun : (fun x => dispersion1 x ^ 2 * dt1) = fun _ => dt1 := funext hv
  rw [hfun]
  have h3 := hC (n + 1) K ρ ρ _ (init (n + 1)) eps (fun k => G.uniform k (n + 1)) G.fst G.split (fun key i => G.key key ys.length i) heps a1 a2 a3
    (fun key => a4 key _) (hinit _) (fun s => by rw [a5]; simp only [wellKernel_eq, hv]) a6
  exact h3

/-! ## Cases -/

/-- one resampling of a hundred particles with equal weights: the proportion below `c` changes by at most 3 in 100. -/
example (draw : Unit → ℕ → ℝ) (h : ∀ j < 100, 0 ≤ draw () j ∧ draw () j < 1) (s : Fin 100 → ℝ) (c : ℝ) :
    |(∑ j, if resampleConti 0 draw s (fun _ => 1 / 100) () j ≤ c then (1 : ℝ) else 0) / (100 : ℕ) - ∑ i, 1 / 100 * (if s i ≤ c then (1 : ℝ) else 0)| ≤ 3 / 100 := by
  have h1 := C183_resampling (n := 100) (eps := 0) le_rfl draw () h s (fun _ => 1 / 100) (fun _ => by norm_num) (by norm_num)
    (b := 1 / 100) (fun _ => le_rfl) (Jor.cdf c)
  exact h1.trans (by norm_num)

/-- the linear model of the convergence experiment, with trees of draws as keys: the empirical distribution function at zero. -/
example (ys : List ℝ) (ε : ℝ) (hε : 0 < ε) :
    let out := fun n key => Prng.bootstrapFilter (n := n + 1) treeGen (scriptTransition treeGen (fun x => 0.9 * x) fun _ => 0.1) (fun y s i => normPdf y (s i) (√1)) ys
      (pfInit treeGen 0 1) key (resampleConti 0 fun k => treeGen.uniform k (n + 1))
    let kfEnd := (scan (kfBody 0.9 0.1 1) (0, 1, 0) ys).1
    ∃ C, ∀ n : ℕ, ∫ key, ((∑ j, if (out n key).1.getLastD (pfInit treeGen 0 1 key) j ≤ 0 then (1 : ℝ) else 0) / (n + 1 : ℕ)
          - ∫ x, (if x ≤ 0 then (1 : ℝ) else 0) ∂gaussianReal kfEnd.1 kfEnd.2.1.toNNReal) ^ 2 ∂treeLaw ≤ C / (n + 1 : ℕ) ∧
      treeLaw.real {key | ε ≤ |(out n key).2 - kfEnd.2.2|} ≤ C / (n + 1 : ℕ) :=
  C183_linear treeGen_ideal (F := 0.9) (by norm_num) one_pos one_pos ys 0 le_rfl _ 1 (Jor.cdf 0) ε hε

/-- the double well started from a normal law. -/
example (ys : List ℕ) (ε : ℝ) (hε : 0 < ε) :
    ∃ C, ∀ n : ℕ, treeLaw.real {key | ε ≤ |(Prng.bootstrapFilter treeGen (n := n + 1)
        (scriptTransition treeGen (fun x => x + wellDrift x (softplus 1) * dt1) fun x => dispersion1 x ^ 2 * dt1)
        (fun y s i => wellPmf y (s i) (softplus 2)) ys (pfInit treeGen 0 1) key (resampleConti 0 fun k => treeGen.uniform k (n + 1))).2
      + Real.log (∫ x, markovE (wellKernel (softplus 1)) (fun y x => wellPmf y x (softplus 2)) (fun _ => 1) ys x ∂gaussianReal 0 (1 : ℝ).toNNReal)|} ≤ C / (n + 1 : ℕ) :=
  C183_well treeGen_ideal (1, 2) (gaussianReal 0 (1 : ℝ).toNNReal) (fun _ => pfInit treeGen 0 1) ys
    (fun n => idealGen_normals treeGen_ideal ys.length n (fun _ => 0) (fun _ => 1) fun _ => zero_le_one) 0 le_rfl ε hε

end Mfs.Props

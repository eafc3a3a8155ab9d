import Verif.Props.Keys
import Verif.Props.GaussianSum
import Verif.Lemmas.Resampling

/-!
# The samplers of the Gaussian sums from uniform and normal draws (C163)
-/

namespace Mfs.Props

open Mfs.Prng MeasureTheory ProbabilityTheory Mfs.Resampling

variable {K Ω : Type} [MeasurableSpace Ω]

/-- the uniform law on `[0, 1)`. -/
noncomputable def unif01 : Measure ℝ := (volume : Measure ℝ).restrict (Set.Ico 0 1)

instance : IsProbabilityMeasure unif01 := ⟨by simp [unif01]⟩

/-- the component selected by a uniform draw. -/
noncomputable def pickComp (ss : List ℝ → ℝ → ℕ) (w : List ℝ) (h : 0 < w.length) (u : ℝ) : Fin w.length :=
  ⟨min (ss (cumsum w) (w.sum * (1 - u))) (w.length - 1), lt_of_le_of_lt (min_le_right _ _) (by omega)⟩

theorem measurable_pickComp {ss : List ℝ → ℝ → ℕ} (hss : SearchSorted ss) (w : List ℝ) (h : 0 < w.length) (hw : ∀ a ∈ w, 0 ≤ a)
    (h1 : w.sum = 1) : Measurable (pickComp ss w h) := by
  have hm : Antitone fun u => (pickComp ss w h u : ℕ) := fun u v huv =>
    min_le_min (ss_cumsum_mono hss w hw (by rw [h1]; linarith)) le_rfl
  exact measurable_to_countable' fun k => by
    have : pickComp ss w h ⁻¹' {k} = (fun u => (pickComp ss w h u : ℕ)) ⁻¹' {(k : ℕ)} := by
      ext u; simp [Fin.ext_iff]
    rw [this]
    exact hm.measurable (measurableSet_singleton _)

/-- a uniform draw selects a component with the probability of its weight. -/
theorem map_pickComp {ss : List ℝ → ℝ → ℕ} (hss : SearchSorted ss) (w : List ℝ) (h : 0 < w.length) (hw : ∀ a ∈ w, 0 ≤ a)
    (h1 : w.sum = 1) : unif01.map (pickComp ss w h) = categorical fun i => w[i] := by
  refine Measure.ext_of_singleton fun k => ?_
  rw [Measure.map_apply (measurable_pickComp hss w h hw h1) (measurableSet_singleton _), categorical, Measure.finsetSum_apply, unif01,
    Measure.restrict_apply (measurable_pickComp hss w h hw h1 (measurableSet_singleton _))]
  have hS0 := S_nonneg w hw k
  have hS1 : S w (k + 1) ≤ 1 := by
    rw [← h1, ← S_length]; exact S_mono w hw (by have := k.2; omega)
  have hset : pickComp ss w h ⁻¹' {k} ∩ Set.Ico 0 1 = Set.Ico (1 - S w (k + 1)) (1 - S w k) := by
    ext u
    simp only [Set.mem_inter_iff, Set.mem_preimage, Set.mem_singleton_iff, Set.mem_Ico, Fin.ext_iff, pickComp, h1, one_mul]
    constructor
    · rintro ⟨he, hu0, hu1⟩
      rw [clip_ss_eq_iff hss w hw (1 - u) (by linarith) k k.2] at he
      refine ⟨by linarith [he.2], ?_⟩
      rcases he.1 with h0 | h0
      · rw [h0, S_zero]; linarith
      · linarith
    · rintro ⟨ha, hb⟩
      have hu0 : 0 ≤ u := by linarith
      refine ⟨?_, hu0, by linarith⟩
      rw [clip_ss_eq_iff hss w hw (1 - u) (by linarith) k k.2]
      exact ⟨.inr (by linarith), by linarith⟩
  rw [hset, Real.volume_Ico]
  have hk : S w (k + 1) = S w k + w[k] := by
    rw [S_succ, List.getD_eq_getElem _ _ k.2]; rfl
  rw [Finset.sum_eq_single k]
  · simp only [Measure.smul_apply, smul_eq_mul, Measure.dirac_apply_of_mem (Set.mem_singleton k), mul_one]
    congr 1; rw [hk]; ring
  · intro b _ hb
    simp [Measure.smul_apply, Measure.dirac_apply' _ (measurableSet_singleton k), hb]
  · intro hk; exact absurd (Finset.mem_univ k) hk

/-- the same with the length of the weights given separately. -/
noncomputable def pickFin (ss : List ℝ → ℝ → ℕ) (w : List ℝ) {m : ℕ} (_ : w.length = m) (h : 0 < m) (u : ℝ) : Fin m :=
  ⟨min (ss (cumsum w) (w.sum * (1 - u))) (m - 1), lt_of_le_of_lt (min_le_right _ _) (by omega)⟩

theorem pickFin_law {ss : List ℝ → ℝ → ℕ} (hss : SearchSorted ss) (w : List ℝ) {m : ℕ} (e : w.length = m) (h : 0 < m)
    (hw : ∀ a ∈ w, 0 ≤ a) (h1 : w.sum = 1) :
    Measurable (pickFin ss w e h) ∧ unif01.map (pickFin ss w e h) = categorical fun i : Fin m => w[(i : ℕ)]'(e ▸ i.2) := by
  subst e
  exact ⟨measurable_pickComp hss w h hw h1, map_pickComp hss w h hw h1⟩

/-- independent uniform draws select independent components. -/
theorem pickFin_pi {ss : List ℝ → ℝ → ℕ} (hss : SearchSorted ss) (w : List ℝ) {m n : ℕ} (e : w.length = m) (h : 0 < m)
    (hw : ∀ a ∈ w, 0 ≤ a) (h1 : w.sum = 1) {α : Type*} [MeasurableSpace α] (ν : Measure α) [IsProbabilityMeasure ν] :
    ((Measure.pi fun _ : Fin n => unif01).prod ν).map (fun p => ((fun i => pickFin ss w e h (p.1 i)), p.2)) =
      (Measure.pi fun _ : Fin n => categorical fun i : Fin m => w[(i : ℕ)]'(e ▸ i.2)).prod ν := by
  obtain ⟨hm, hl⟩ := pickFin_law hss w e h hw h1
  have : IsProbabilityMeasure (unif01.map (pickFin ss w e h)) := Measure.isProbabilityMeasure_map hm.aemeasurable
  have h2 := Measure.pi_map_pi (μ := fun _ : Fin n => unif01) (f := fun _ => pickFin ss w e h) fun _ => hm.aemeasurable
  rw [hl] at h2
  have hmp : Measurable fun (x : Fin n → ℝ) i => pickFin ss w e h (x i) := measurable_pi_lambda _ fun i => hm.comp (measurable_pi_apply i)
  have : IsProbabilityMeasure ((Measure.pi fun _ : Fin n => unif01).map fun (x : Fin n → ℝ) i => pickFin ss w e h (x i)) :=
    Measure.isProbabilityMeasure_map hmp.aemeasurable
  rw [← h2]
  have h3 := Measure.map_prod_map (Measure.pi fun _ : Fin n => unif01) ν hmp measurable_id
  rw [Measure.map_id] at h3
  exact h3.symm

/-- **C163.** With independent uniform draws at the key and independent normal draws at the split key, independent of each other, the
particles of `GaussianSum1D.sampler` are independent draws from the mixture. -/
theorem C163_sampler (μ : Measure Ω) (G : Ω → Gen K) {ss : List ℝ → ℝ → ℕ} (hss : SearchSorted ss) (comps : List Moments1.Component)
    (hw : ∀ c ∈ comps, 0 ≤ c.weight) (h1 : (comps.map (·.weight)).sum = 1) (hv : ∀ c ∈ comps, 0 ≤ c.variance) (n : ℕ) (key : K)
    (hm : AEMeasurable (fun ω => ((fun i : Fin n => (G ω).uniform key n i), fun i : Fin n => (G ω).normal ((G ω).fst key) n i)) μ)
    (hlaw : μ.map (fun ω => ((fun i : Fin n => (G ω).uniform key n i), fun i : Fin n => (G ω).normal ((G ω).fst key) n i)) =
      (Measure.pi fun _ : Fin n => unif01).prod (Measure.pi fun _ : Fin n => gaussianReal 0 1)) :
    μ.map (fun ω => sampler1 (G ω) ss comps (n := n) key) = Measure.pi fun _ : Fin n => mixture comps := by
  have hne : 0 < comps.length := by
    rcases comps with _ | ⟨c, l⟩
    · simp at h1
    · simp
  have hwl : (comps.map (·.weight)).length = comps.length := by simp
  have hw' : ∀ a ∈ comps.map (·.weight), 0 ≤ a := by
    intro a ha; obtain ⟨c, hc, rfl⟩ := List.mem_map.1 ha; exact hw c hc
  have hpi := pickFin_pi (n := n) hss _ hwl hne hw' h1 (Measure.pi fun _ : Fin n => gaussianReal 0 1)
  have hpk := (pickFin_law hss _ hwl hne hw' h1).1
  have hp1 : Measurable fun p : (Fin n → ℝ) × (Fin n → ℝ) => ((fun i => pickFin ss _ hwl hne (p.1 i)), p.2) :=
    (measurable_pi_lambda _ fun i => hpk.comp ((measurable_pi_apply i).comp measurable_fst)).prodMk measurable_snd
  have hp2 : Measurable fun p : (Fin n → Fin comps.length) × (Fin n → ℝ) => GaussianSum.sampler1 comps p.1 p.2 :=
    measurable_from_prod_countable_right fun cs => by
      refine Continuous.measurable ?_
      unfold GaussianSum.sampler1
      refine continuous_pi fun i => ?_
      change Continuous fun y : Fin n → ℝ => comps[cs i].mean + √comps[cs i].variance * y i
      exact continuous_const.add (continuous_const.mul (continuous_apply i))
  have he : (fun ω => sampler1 (G ω) ss comps (n := n) key) = ((fun p : (Fin n → Fin comps.length) × (Fin n → ℝ) =>
      GaussianSum.sampler1 comps p.1 p.2) ∘ fun p : (Fin n → ℝ) × (Fin n → ℝ) => ((fun i => pickFin ss _ hwl hne (p.1 i)), p.2)) ∘
      fun ω => ((fun i : Fin n => (G ω).uniform key n i), fun i : Fin n => (G ω).normal ((G ω).fst key) n i) := by
    funext ω i
    have hq : min (choice (G ω) ss key (comps.map (·.weight)) n i) (comps.length - 1) < comps.length := lt_of_le_of_lt (min_le_right _ _) (by omega)
    simp only [sampler1, List.getD_eq_getElem _ _ hq]
    rfl
  rw [he, ← AEMeasurable.map_map_of_aemeasurable (hp2.comp hp1).aemeasurable hm, hlaw, ← Measure.map_map hp2 hp1, hpi]
  simpa using (C102_gaussian_sum_density comps hw h1).2.2.2 hv n

/-- **C163**, in several dimensions, for positive definite covariances. -/
theorem C163_sampler_nd {d : ℕ} (μ : Measure Ω) (G : Ω → Gen K) {ss : List ℝ → ℝ → ℕ} (hss : SearchSorted ss) (B : Backend) (hB : B.Valid)
    (comps : List (MomentsND.Component d)) (hw : ∀ c ∈ comps, 0 ≤ c.weight) (h1 : (comps.map (·.weight)).sum = 1)
    (hv : ∀ c ∈ comps, c.cov.PosDef) (n : ℕ) (key : K)
    (hm : AEMeasurable (fun ω => ((fun i : Fin n => (G ω).uniform key n i),
      fun (i : Fin n) (j : Fin d) => (G ω).normal ((G ω).fst key) (n * d) (i * d + j))) μ)
    (hlaw : μ.map (fun ω => ((fun i : Fin n => (G ω).uniform key n i),
        fun (i : Fin n) (j : Fin d) => (G ω).normal ((G ω).fst key) (n * d) (i * d + j))) =
      (Measure.pi fun _ : Fin n => unif01).prod (Measure.pi fun _ : Fin n => Measure.pi fun _ : Fin d => gaussianReal 0 1)) :
    μ.map (fun ω i => WithLp.toLp 2 (samplerND (G ω) ss B comps (n := n) key i)) = Measure.pi fun _ : Fin n => mixtureND comps := by
  have hne : 0 < comps.length := by
    rcases comps with _ | ⟨c, l⟩
    · simp at h1
    · simp
  have hwl : (comps.map (·.weight)).length = comps.length := by simp
  have hw' : ∀ a ∈ comps.map (·.weight), 0 ≤ a := by
    intro a ha; obtain ⟨c, hc, rfl⟩ := List.mem_map.1 ha; exact hw c hc
  have hpi := pickFin_pi (n := n) hss _ hwl hne hw' h1 (Measure.pi fun _ : Fin n => Measure.pi fun _ : Fin d => gaussianReal 0 1)
  have hpk := (pickFin_law hss _ hwl hne hw' h1).1
  have hp1 : Measurable fun p : (Fin n → ℝ) × (Fin n → Fin d → ℝ) => ((fun i => pickFin ss _ hwl hne (p.1 i)), p.2) :=
    (measurable_pi_lambda _ fun i => hpk.comp ((measurable_pi_apply i).comp measurable_fst)).prodMk measurable_snd
  have hp2 : Measurable fun p : (Fin n → Fin comps.length) × (Fin n → Fin d → ℝ) =>
      fun i => WithLp.toLp 2 (GaussianSum.samplerND B comps p.1 p.2 i) :=
    measurable_from_prod_countable_right fun cs => by
      refine Continuous.measurable ?_
      unfold GaussianSum.samplerND
      refine continuous_pi fun i => (PiLp.continuous_toLp 2 _).comp ?_
      change Continuous fun y : Fin n → Fin d → ℝ => comps[cs i].mean + (B.chol (symmetrize comps[cs i].cov)).mulVec (y i)
      exact continuous_const.add (Continuous.matrix_mulVec (A := fun _ : Fin n → Fin d → ℝ => B.chol (symmetrize comps[cs i].cov))
        continuous_const (continuous_apply i))
  have he : (fun ω i => WithLp.toLp 2 (samplerND (G ω) ss B comps (n := n) key i)) = ((fun p : (Fin n → Fin comps.length) × (Fin n → Fin d → ℝ) =>
      fun i => WithLp.toLp 2 (GaussianSum.samplerND B comps p.1 p.2 i)) ∘
      fun p : (Fin n → ℝ) × (Fin n → Fin d → ℝ) => ((fun i => pickFin ss _ hwl hne (p.1 i)), p.2)) ∘
      fun ω => ((fun i : Fin n => (G ω).uniform key n i),
        fun (i : Fin n) (j : Fin d) => (G ω).normal ((G ω).fst key) (n * d) (i * d + j)) := by
    funext ω i
    have hq : min (choice (G ω) ss key (comps.map (·.weight)) n i) (comps.length - 1) < comps.length := lt_of_le_of_lt (min_le_right _ _) (by omega)
    simp only [samplerND, List.getD_eq_getElem _ _ hq]
    rfl
  rw [he, ← AEMeasurable.map_map_of_aemeasurable (hp2.comp hp1).aemeasurable hm, hlaw, ← Measure.map_map hp2 hp1, hpi]
  simpa using (C103_gaussian_sum_nd_density B hB comps hw h1 hv).2.2.2.2 n

/-- a generator with two keys whose uniforms and normals are the two coordinates of the outcome. -/
noncomputable def pairGen {n : ℕ} (ω : (Fin n → ℝ) × (Fin n → ℝ)) : Gen Bool where
  split _ _ := [false, false]
  uniform _ _ i := if h : i < n then ω.1 ⟨i, h⟩ else 0
  normal _ _ i := if h : i < n then ω.2 ⟨i, h⟩ else 0

/-- an equal mixture of `N(-1, 1)` and `N(3, 4)`, any number of particles. -/
example (n : ℕ) {ss : List ℝ → ℝ → ℕ} (hss : SearchSorted ss) :
    ((Measure.pi fun _ : Fin n => unif01).prod (Measure.pi fun _ : Fin n => gaussianReal 0 1)).map
      (fun ω => sampler1 (pairGen ω) ss [⟨-1, 1, 1 / 2⟩, ⟨3, 4, 1 / 2⟩] (n := n) true) =
      Measure.pi fun _ : Fin n => mixture [⟨-1, 1, 1 / 2⟩, ⟨3, 4, 1 / 2⟩] := by
  have e : (fun ω : (Fin n → ℝ) × (Fin n → ℝ) => ((fun i : Fin n => (pairGen ω).uniform true n i),
      fun i : Fin n => (pairGen ω).normal ((pairGen ω).fst true) n i)) = id := by
    funext ω; ext i <;> simp [pairGen]
  refine C163_sampler _ _ hss _ ?_ ?_ ?_ n true ?_ ?_
  · intro c hc; simp only [List.mem_cons, List.not_mem_nil, or_false] at hc; rcases hc with rfl | rfl <;> norm_num
  · norm_num
  · intro c hc; simp only [List.mem_cons, List.not_mem_nil, or_false] at hc; rcases hc with rfl | rfl <;> norm_num
  · rw [e]; exact aemeasurable_id
  · rw [e, Measure.map_id]

/-- the same with two normals for every particle. -/
noncomputable def pairGen2 {n : ℕ} (ω : (Fin n → ℝ) × (Fin n → Fin 2 → ℝ)) : Gen Bool where
  split _ _ := [false, false]
  uniform _ _ i := if h : i < n then ω.1 ⟨i, h⟩ else 0
  normal _ _ i := if h : i / 2 < n then ω.2 ⟨i / 2, h⟩ ⟨i % 2, Nat.mod_lt _ (by norm_num)⟩ else 0

/-- a mixture of two Gaussians in the plane, one of them with dependent coordinates. -/
example (n : ℕ) {ss : List ℝ → ℝ → ℕ} (hss : SearchSorted ss) :
    ((Measure.pi fun _ : Fin n => unif01).prod (Measure.pi fun _ : Fin n => Measure.pi fun _ : Fin 2 => gaussianReal 0 1)).map
      (fun ω i => WithLp.toLp 2 (samplerND (pairGen2 ω) ss theBackend [⟨![0, 1], !![2, 1; 1, 2], 1 / 3⟩, ⟨0, 1, 2 / 3⟩] (n := n) true i)) =
      Measure.pi fun _ : Fin n => mixtureND [⟨![0, 1], !![2, 1; 1, 2], 1 / 3⟩, ⟨0, 1, 2 / 3⟩] := by
  have e : (fun ω : (Fin n → ℝ) × (Fin n → Fin 2 → ℝ) => ((fun i : Fin n => (pairGen2 ω).uniform true n i),
      fun (i : Fin n) (j : Fin 2) => (pairGen2 ω).normal ((pairGen2 ω).fst true) (n * 2) (i * 2 + j))) = id := by
    funext ω
    refine Prod.ext ?_ ?_
    · funext i; simp [pairGen2]
    · funext i j
      have h1 : ((i : ℕ) * 2 + j) / 2 = i := by omega
      have h2 : ((i : ℕ) * 2 + j) % 2 = j := by omega
      simp [pairGen2, h1, h2]
  have hpd : (!![2, 1; 1, 2] : Matrix (Fin 2) (Fin 2) ℝ).PosDef := by
    refine Matrix.PosDef.of_dotProduct_mulVec_pos ?_ fun x hx => ?_
    · ext i j; fin_cases i <;> fin_cases j <;> simp
    · have h : 0 < x 0 ^ 2 + x 1 ^ 2 := by
        by_contra hc
        have h0 : x 0 = 0 := pow_eq_zero_iff (two_ne_zero) |>.1 (by nlinarith [sq_nonneg (x 0), sq_nonneg (x 1)])
        have h1 : x 1 = 0 := pow_eq_zero_iff (two_ne_zero) |>.1 (by nlinarith [sq_nonneg (x 0), sq_nonneg (x 1)])
        exact hx (funext fun i => by fin_cases i <;> assumption)
      simp [Matrix.mulVec, dotProduct, Fin.sum_univ_two]
      nlinarith [sq_nonneg (x 0 + x 1)]
  refine C163_sampler_nd _ _ hss _ theBackend_valid _ ?_ ?_ ?_ n true ?_ ?_
  · intro c hc; simp only [List.mem_cons, List.not_mem_nil, or_false] at hc; rcases hc with rfl | rfl <;> norm_num
  · norm_num
  · intro c hc; simp only [List.mem_cons, List.not_mem_nil, or_false] at hc
    rcases hc with rfl | rfl
    · exact hpd
    · exact Matrix.PosDef.one
  · rw [e]; exact aemeasurable_id
  · rw [e, Measure.map_id]

end Mfs.Props

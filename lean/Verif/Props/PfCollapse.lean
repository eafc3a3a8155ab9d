import Verif.Props.ConvergencePf

/-!
# C180: the particle filter of the convergence experiment collapses with positive probability
-/

namespace Mfs.Props

open Mfs.Smc Mfs.Spec Mfs.Prng Mfs.Experiments Mfs.Converge Mfs.Lemmas MeasureTheory ProbabilityTheory Filter Topology
open scoped NNReal ENNReal

variable {K : Type}

/-- **C180.** In floating point the Kullback–Leibler error is the real number `errKl` when the variance is positive and infinite when it is zero. -/
theorem C180_ieee (m trueM : ℝ) {v trueV : ℝ} (ht : 0 < trueV) :
    (0 < v → errKlIeee m v trueM trueV = (errKl m v trueM trueV : EReal)) ∧ errKlIeee m 0 trueM trueV = ⊤ := by
  constructor
  · intro hv
    simp only [errKlIeee, errKl]
    rw [ENNReal.log_ofReal_of_pos hv, ENNReal.log_ofReal_of_pos ht, ← EReal.coe_sub, EReal.exp_coe, EReal.coe_ennreal_ofReal, max_eq_left (Real.exp_pos _).le]
    push_cast
    norm_cast
  · simp only [errKlIeee]
    rw [ENNReal.ofReal_zero, ENNReal.log_zero, ENNReal.log_ofReal_of_pos ht, EReal.bot_sub]
    simp only [EReal.exp_bot, EReal.coe_ennreal_zero, zero_sub]
    have : (-1 + (((trueM - m) ^ 2 / trueV : ℝ) : EReal) + (Real.log trueV : EReal) - ⊥) = ⊤ := by
      have : (-1 + (((trueM - m) ^ 2 / trueV : ℝ) : EReal) + (Real.log trueV : EReal)) = ((-1 + (trueM - m) ^ 2 / trueV + Real.log trueV : ℝ) : EReal) := by
        push_cast; rfl
      rw [this, EReal.coe_sub_bot]
    rw [this, EReal.coe_mul_top_of_pos (by norm_num)]

/-! ## Resampling -/

section resampling
open Mfs.Resampling

variable {n : ℕ} [NeZero n]

/-- when nearly all weight is on the first particle, it is copied everywhere. -/
theorem stratified_collapse (w : Fin n → ℝ) (hw : ∀ i, 0 ≤ w i) (h0 : 1 - 1 / (2 * n) ≤ w 0) (u : ℕ → ℝ) (hu : ∀ j : Fin n, u j ≤ 1 / 2) (j : Fin n) :
    (systematicOrStratified ssCount (List.ofFn w) u).getD j 0 = 0 := by
  have hn : (0 : ℝ) < n := by exact_mod_cast NeZero.pos n
  have hss : SearchSorted ssCount := fun _ _ _ => rfl
  have hw' : ∀ a ∈ List.ofFn w, 0 ≤ a := fun a ha => by obtain ⟨i, rfl⟩ := List.mem_ofFn.1 ha; exact hw i
  rw [sos_getD]
  have h := (lt_ss_cumsum hss (List.ofFn w) hw' (((j : ℕ) + u j) / n) 0 (by simpa using NeZero.pos n)).not.2 (by
    rw [not_lt, div_le_iff₀ hn]
    have e : S (List.ofFn w) (0 + 1) = w 0 := by
      rw [S_succ, S_zero, zero_add, List.getD_eq_getElem _ _ (by simpa using NeZero.pos n)]
      simp
    rw [e]
    have h1 : (1 - 1 / (2 * n)) * (n : ℝ) ≤ w 0 * n := by gcongr
    have h2 : (1 - 1 / (2 * n)) * (n : ℝ) = n - 1 / 2 := by field_simp
    have h3 : ((j : ℕ) : ℝ) + 1 ≤ n := by exact_mod_cast j.2
    have := hu j
    linarith)
  have : ssCount (cumsum (List.ofFn w)) (((j : ℕ) + u j) / n) = 0 := by omega
  rw [this]
  simp

/-- when the weights are nearly equal, every particle is kept. -/
theorem stratified_identity (w : Fin n → ℝ) (hw : ∀ i, 0 ≤ w i) (h : ∀ i, |w i - 1 / n| ≤ 1 / (4 * n ^ 2)) (u : ℕ → ℝ)
    (hu : ∀ j : Fin n, 1 / 4 < u j ∧ u j ≤ 3 / 4) (j : Fin n) : (systematicOrStratified ssCount (List.ofFn w) u).getD j 0 = j := by
  have hn : (0 : ℝ) < n := by exact_mod_cast NeZero.pos n
  have hss : SearchSorted ssCount := fun _ _ _ => rfl
  have hw' : ∀ a ∈ List.ofFn w, 0 ≤ a := fun a ha => by obtain ⟨i, rfl⟩ := List.mem_ofFn.1 ha; exact hw i
  have hS : ∀ k ≤ n, |S (List.ofFn w) k - k / n| ≤ k / (4 * n ^ 2) := by
    intro k
    induction k with
    | zero => intro _; simp [S_zero]
    | succ k ih =>
      intro hk
      have e : S (List.ofFn w) (k + 1) = S (List.ofFn w) k + w ⟨k, hk⟩ := by
        rw [S_succ, List.getD_eq_getElem _ _ (by simpa using hk)]
        simp
      rw [e]
      have h1 := ih (by omega)
      have h2 := h ⟨k, hk⟩
      have e1 : S (List.ofFn w) k + w ⟨k, hk⟩ - ((k + 1 : ℕ) : ℝ) / n = (S (List.ofFn w) k - k / n) + (w ⟨k, hk⟩ - 1 / n) := by push_cast; ring
      have e2 : ((k + 1 : ℕ) : ℝ) / (4 * n ^ 2) = k / (4 * n ^ 2) + 1 / (4 * n ^ 2) := by push_cast; ring
      rw [e1, e2]
      exact (abs_add_le _ _).trans (add_le_add h1 h2)
  have hb : ∀ k ≤ n, |S (List.ofFn w) k - k / n| ≤ 1 / (4 * n) := fun k hk => by
    refine (hS k hk).trans ?_
    rw [div_le_div_iff₀ (by positivity) (by positivity)]
    have : (k : ℝ) ≤ n := by exact_mod_cast hk
    nlinarith
  rw [sos_getD]
  set c := ssCount (cumsum (List.ofFn w)) (((j : ℕ) + u j) / n) with hc
  have e4 : 1 / (4 * n) = (1 / 4 : ℝ) / n := by field_simp
  have hup : ¬ (j : ℕ) < c := by
    rw [hc, lt_ss_cumsum hss _ hw' _ _ (by simp), not_lt]
    have h1 := (abs_le.1 (hb (j + 1) (by have := j.2; omega))).1
    have h2 := (hu j).2
    rw [e4] at h1
    push_cast at h1
    have h3 : ((j : ℕ) + u j) / n ≤ ((j : ℕ) + 3 / 4) / n := by gcongr
    have h4 : (((j : ℕ) : ℝ) + 3 / 4) / n = (((j : ℕ) : ℝ) + 1) / n - 1 / 4 / n := by ring
    linarith
  have hlo : ∀ k < (j : ℕ), k < c := by
    intro k hk
    have hkn : k < n := by have := j.2; omega
    rw [hc, lt_ss_cumsum hss _ hw' _ _ (by simpa using hkn)]
    have h1 := (abs_le.1 (hb (k + 1) (by omega))).2
    have h2 := (hu j).1
    rw [e4] at h1
    have h3 : ((k + 1 : ℕ) : ℝ) / n ≤ (j : ℕ) / n := by gcongr; exact hk
    have h4 : (((j : ℕ) : ℝ) + 1 / 4) / n < ((j : ℕ) + u j) / n := by gcongr
    have h5 : (((j : ℕ) : ℝ) + 1 / 4) / n = ((j : ℕ) : ℝ) / n + 1 / 4 / n := by ring
    linarith
  have hcj : c = j := by
    refine le_antisymm (not_lt.1 hup) ?_
    by_contra hcon
    exact absurd (hlo c (by omega)) (lt_irrefl _)
  rw [hcj]
  have := j.2
  omega

end resampling

/-! ## Probabilities -/

variable [MeasurableSpace K]

theorem scan_getD_fold {C E : Type} (f : C → E → C × C) (hf : ∀ a e, (f a e).2 = (f a e).1) (l : List E) (a d : C) (t : ℕ) (ht : t < l.length) :
    (scan f a l).2.getD t d = (l.take (t + 1)).foldl (fun a e => (f a e).1) a := by
  induction l generalizing a t with
  | nil => simp at ht
  | cons e l ih =>
    cases t with
    | zero => simp [scan, hf]
    | succ t =>
      have := ih (f a e).1 t (by simpa using ht)
      simpa [scan] using this

theorem measurable_foldl {C Y : Type} [MeasurableSpace C] {g : C → Y × K → C} (hg : ∀ y, Measurable fun p : C × K => g p.1 (y, p.2)) (ys : List Y) :
    Measurable fun p : C × (Fin ys.length → K) => (ys.zip (List.ofFn p.2)).foldl g p.1 := by
  induction ys with
  | nil => simpa using measurable_fst
  | cons y ys ih =>
    have e : (fun p : C × (Fin (y :: ys).length → K) => ((y :: ys).zip (List.ofFn p.2)).foldl g p.1)
        = fun p => (ys.zip (List.ofFn (Fin.tail p.2))).foldl g (g p.1 (y, p.2 0)) := by
      funext p
      have : List.ofFn p.2 = p.2 0 :: List.ofFn (Fin.tail p.2) := List.ofFn_succ
      rw [this, List.zip_cons_cons, List.foldl_cons]
    rw [e]
    have h1 : Measurable fun p : C × (Fin (y :: ys).length → K) => g p.1 (y, p.2 0) := (hg y).comp (measurable_fst.prodMk ((measurable_pi_apply _).comp measurable_snd))
    have h2 : Measurable fun p : C × (Fin (y :: ys).length → K) => (Fin.tail p.2 : Fin ys.length → K) :=
      measurable_pi_lambda _ fun i => (measurable_pi_apply _).comp measurable_snd
    exact ih.comp (h1.prodMk h2)

/-- a chain reaches a set with positive probability if each step keeps it on course with positive probability. -/
theorem fold_pos {C Y : Type} [MeasurableSpace C] (ρ : Measure K) [IsProbabilityMeasure ρ] {g : C → Y × K → C} (hg : ∀ y, Measurable fun p : C × K => g p.1 (y, p.2))
    {D : Set C} (hD : MeasurableSet D) (good : List Y → Set C) (h0 : good [] ⊆ D) (hstep : ∀ y ys a, a ∈ good (y :: ys) → 0 < ρ {k | g a (y, k) ∈ good ys})
    (ys : List Y) (a : C) (ha : a ∈ good ys) : 0 < (Measure.pi fun _ : Fin ys.length => ρ) {keys | (ys.zip (List.ofFn keys)).foldl g a ∈ D} := by
  induction ys generalizing a with
  | nil =>
    have := h0 ha
    simp [this]
  | cons y ys ih =>
    have hmp := (measurePreserving_piFinSuccAbove (fun _ : Fin (ys.length + 1) => ρ) 0).symm
    have hm : ∀ (zs : List Y) (a : C), MeasurableSet {keys : Fin zs.length → K | (zs.zip (List.ofFn keys)).foldl g a ∈ D} := fun zs a =>
      ((measurable_foldl hg zs).comp (measurable_const.prodMk measurable_id)) hD
    have e : (Measure.pi fun _ : Fin (y :: ys).length => ρ) {keys | ((y :: ys).zip (List.ofFn keys)).foldl g a ∈ D}
        = (ρ.prod (Measure.pi fun _ : Fin ys.length => ρ)) {p | (ys.zip (List.ofFn p.2)).foldl g (g a (y, p.1)) ∈ D} := by
      rw [show (Measure.pi fun _ : Fin (y :: ys).length => ρ) = Measure.pi fun _ : Fin (ys.length + 1) => ρ from rfl, ← hmp.map_eq,
        Measure.map_apply hmp.measurable (hm (y :: ys) a)]
      congr 1
      ext p
      simp only [Set.mem_preimage, Set.mem_ofPred_eq]
      have : List.ofFn ((MeasurableEquiv.piFinSuccAbove (fun _ : Fin (ys.length + 1) => K) 0).symm p) = p.1 :: List.ofFn p.2 := by
        rw [List.ofFn_succ]
        simp [MeasurableEquiv.piFinSuccAbove]
      have h2 : (y :: ys).zip (List.ofFn ((MeasurableEquiv.piFinSuccAbove (fun _ : Fin (ys.length + 1) => K) 0).symm p)) = (y, p.1) :: ys.zip (List.ofFn p.2) := by
        rw [this, List.zip_cons_cons]
      exact Eq.to_iff (congrArg (fun l => List.foldl g a l ∈ D) h2)
    have hmS : MeasurableSet {p : K × (Fin ys.length → K) | (ys.zip (List.ofFn p.2)).foldl g (g a (y, p.1)) ∈ D} :=
      ((measurable_foldl hg ys).comp (((hg y).comp (measurable_const.prodMk measurable_fst)).prodMk measurable_snd)) hD
    rw [e, Measure.prod_apply hmS, lintegral_pos_iff_support (measurable_measure_prodMk_left hmS)]
    refine lt_of_lt_of_le (hstep y ys a ha) (measure_mono fun k hk => ?_)
    exact (ih (g a (y, k)) hk).ne'

/-- the weights of the script's particle filter. -/
noncomputable def pfW (F Sigma R : ℝ) {n : ℕ} (a : Fin n → ℝ) (y : ℝ) (i : Fin n) : ℝ :=
  gaussianPDFReal (F * a i) (Sigma + R).toNNReal y / ∑ j, gaussianPDFReal (F * a j) (Sigma + R).toNNReal y

section step
variable {G : Gen K} {ρ : Measure K} {F Sigma R : ℝ} {n : ℕ} [NeZero n]

/-- one step of the script's particle filter. -/
noncomputable def pfStep (G : Gen K) (F Sigma R : ℝ) (a : Fin n → ℝ) (e : ℝ × K) : Fin n → ℝ :=
  (particleBody (proposalSampler F Sigma R fun k i => G.normal k n i) (proposalDensity F Sigma R) (transitionDensity F Sigma) (measurementPdf R)
    (Prng.systematicOrStratified G ssCount false) G.fst a e).1

omit [MeasurableSpace K] in
theorem pfStep_eq (G : Gen K) (hS : 0 < Sigma) (hR : 0 < R) (a : Fin n → ℝ) (y : ℝ) (k : K) :
    pfStep G F Sigma R a (y, k) = gather (proposalSampler F Sigma R (fun k i => G.normal k n i) a y k)
      (Prng.systematicOrStratified G ssCount false (pfW F Sigma R a y) (G.fst k)) :=
  (C119_optimal_proposal F Sigma R hS hR).2.2.2 n K (fun k i => G.normal k n i) (Prng.systematicOrStratified G ssCount false) G.fst a y k

theorem pdf_pos' {Sigma R : ℝ} (hS : 0 < Sigma) (hR : 0 < R) (m y : ℝ) : 0 < gaussianPDFReal m (Sigma + R).toNNReal y :=
  gaussianPDFReal_pos _ _ _ (by rw [Ne, Real.toNNReal_eq_zero, not_le]; positivity)

theorem pfW_sum_pos (hS : 0 < Sigma) (hR : 0 < R) (a : Fin n → ℝ) (y : ℝ) : 0 < ∑ j, gaussianPDFReal (F * a j) (Sigma + R).toNNReal y :=
  Finset.sum_pos (fun _ _ => pdf_pos' hS hR _ _) Finset.univ_nonempty

theorem pfW_nonneg (hS : 0 < Sigma) (hR : 0 < R) (a : Fin n → ℝ) (y : ℝ) (i : Fin n) : 0 ≤ pfW F Sigma R a y i :=
  div_nonneg (pdf_pos' hS hR _ _).le (pfW_sum_pos hS hR a y).le

theorem continuous_pfW (hS : 0 < Sigma) (hR : 0 < R) (y : ℝ) (i : Fin n) : Continuous fun a : Fin n → ℝ => pfW F Sigma R a y i := by
  have h : ∀ j : Fin n, Continuous fun a : Fin n → ℝ => gaussianPDFReal (F * a j) (Sigma + R).toNNReal y := fun j => by
    have e : (fun a : Fin n → ℝ => gaussianPDFReal (F * a j) (Sigma + R).toNNReal y) = fun a => normPdf y (F * a j) (√(Sigma + R)) := by
      funext a; rw [expNormPdf_eq _ _ (by positivity)]
    rw [e]
    exact (normPdf_continuous y _).comp (by fun_prop)
  exact (h i).div (continuous_finsetSum _ fun j _ => h j) fun a => (pfW_sum_pos hS hR a y).ne'

/-- any open box of uniforms inside the unit cube has positive probability. -/
theorem uniforms_pos (hG : IdealGen G ρ) (n : ℕ) {l r : ℝ} (hl : 0 ≤ l) (hlr : l < r) (hr : r ≤ 1) : 0 < ρ {k | ∀ j : Fin n, l < G.uniform k n j ∧ G.uniform k n j ≤ r} := by
  have hm : Measurable fun k (i : Fin n) => G.uniform k n i := measurable_pi_lambda _ fun i => hG.measurable_uniform _ _
  have e : {k | ∀ j : Fin n, l < G.uniform k n j ∧ G.uniform k n j ≤ r} = (fun k (i : Fin n) => G.uniform k n i) ⁻¹' Set.univ.pi fun _ => Set.Ioc l r := by
    ext k; simp
  rw [e, ← Measure.map_apply hm (MeasurableSet.univ_pi fun _ => measurableSet_Ioc), hG.uniforms, Measure.pi_pi]
  refine CanonicallyOrderedAdd.prod_pos.2 fun i _ => ?_
  rw [Measure.restrict_apply measurableSet_Ioc]
  have : Set.Ioo l r ⊆ Set.Ioc l r ∩ Set.Ico 0 1 := fun x hx => ⟨⟨hx.1, hx.2.le⟩, by linarith [hx.1], by linarith [hx.2]⟩
  refine lt_of_lt_of_le ?_ (measure_mono this)
  simpa using hlr

theorem gaussian_openPos (m : ℝ) {v : ℝ≥0} (hv : v ≠ 0) : (gaussianReal m v).IsOpenPosMeasure :=
  (gaussianReal_absolutelyContinuous' m hv).isOpenPosMeasure

/-- a step from ancestors of which one has nearly all weight ends in equal particles with positive probability. -/
theorem step_collapse (hG : IdealGen G ρ) (hS : 0 < Sigma) (hR : 0 < R) (a : Fin n → ℝ) (y : ℝ) (ha : 1 - 1 / (2 * n) < pfW F Sigma R a y 0) :
    0 < ρ {k | pfStep G F Sigma R a (y, k) ∈ {s : Fin n → ℝ | ∀ i, s i = s 0}} := by
  have := hG.prob
  have hmf : Measurable G.fst := hG.measurable_key 2 0
  have hf : ρ.map G.fst = ρ := by
    have h := congrArg (fun m => m.map Prod.snd) (idealGen_normals_fst hG n (fun _ => 0) (fun _ => 1) fun _ => zero_le_one)
    simp only [Measure.map_snd_prod, measure_univ, one_smul] at h
    have hm : Measurable fun k => ((fun i : Fin n => 0 + √1 * G.normal k n i), G.fst k) :=
      (measurable_pi_lambda _ fun i => ((hG.measurable_normal _ _).const_mul _).const_add _).prodMk hmf
    rw [Measure.map_map measurable_snd hm] at h
    exact h
  have hpos := uniforms_pos hG n le_rfl (by norm_num : (0 : ℝ) < 1 / 2) (by norm_num)
  have hms : MeasurableSet {k | ∀ j : Fin n, 0 < G.uniform k n j ∧ G.uniform k n j ≤ 1 / 2} := by
    have : {k | ∀ j : Fin n, 0 < G.uniform k n j ∧ G.uniform k n j ≤ 1 / 2} = ⋂ j : Fin n, (fun k => G.uniform k n j) ⁻¹' Set.Ioc 0 (1 / 2) := by ext k; simp
    rw [this]
    exact MeasurableSet.iInter fun j => hG.measurable_uniform _ _ measurableSet_Ioc
  rw [← hf, Measure.map_apply hmf hms] at hpos
  refine lt_of_lt_of_le hpos (measure_mono fun k hk => ?_)
  simp only [Set.mem_preimage, Set.mem_ofPred_eq] at hk ⊢
  have hidx : ∀ j, Prng.systematicOrStratified G ssCount false (pfW F Sigma R a y) (G.fst k) j = 0 := fun j => by
    simp only [Prng.systematicOrStratified, Bool.false_eq_true, if_false]
    exact stratified_collapse _ (pfW_nonneg hS hR a y) ha.le _ (fun j => (hk j).2) j
  intro i
  simp only [pfStep_eq G hS hR, gather, hidx]

/-- a step from ancestors of nearly equal weights reaches any open set of clouds with positive probability. -/
theorem step_open (hG : IdealGen G ρ) (hS : 0 < Sigma) (hR : 0 < R) (a : Fin n → ℝ) (y : ℝ) (ha : ∀ i, |pfW F Sigma R a y i - 1 / n| ≤ 1 / (4 * n ^ 2))
    {U : Set (Fin n → ℝ)} (hU : IsOpen U) (hne : U.Nonempty) : 0 < ρ {k | pfStep G F Sigma R a (y, k) ∈ U} := by
  have := hG.prob
  have hlaw := idealGen_normals_fst hG n (fun i => (proposalMeanVar F Sigma R (a i) y).1) (fun i => (proposalMeanVar F Sigma R (a i) y).2)
    fun i => (proposal_var_pos (F := F) hS hR (a i) y).le
  set box := {k | ∀ j : Fin n, 1 / 4 < G.uniform k n j ∧ G.uniform k n j ≤ 3 / 4} with hbox
  have hpos : 0 < ρ box := uniforms_pos hG n (by norm_num) (by norm_num : (1 / 4 : ℝ) < 3 / 4) (by norm_num)
  have hms : MeasurableSet box := by
    have : box = ⋂ j : Fin n, (fun k => G.uniform k n j) ⁻¹' Set.Ioc (1 / 4) (3 / 4) := by ext k; simp [hbox]
    rw [this]
    exact MeasurableSet.iInter fun j => hG.measurable_uniform _ _ measurableSet_Ioc
  have hmk : Measurable fun k => ((fun i : Fin n => (proposalMeanVar F Sigma R (a i) y).1 + √(proposalMeanVar F Sigma R (a i) y).2 * G.normal k n i), G.fst k) :=
    (measurable_pi_lambda _ fun i => ((hG.measurable_normal _ _).const_mul _).const_add _).prodMk (hG.measurable_key 2 0)
  have hop : ∀ i, (gaussianReal (proposalMeanVar F Sigma R (a i) y).1 (proposalMeanVar F Sigma R (a i) y).2.toNNReal).IsOpenPosMeasure := fun i =>
    gaussian_openPos _ (by rw [Ne, Real.toNNReal_eq_zero, not_le]; exact proposal_var_pos (F := F) hS hR (a i) y)
  have hprod : 0 < ((Measure.pi fun i => gaussianReal (proposalMeanVar F Sigma R (a i) y).1 (proposalMeanVar F Sigma R (a i) y).2.toNNReal).prod ρ) (U ×ˢ box) := by
    rw [Measure.prod_prod]
    exact ENNReal.mul_pos (hU.measure_pos _ hne).ne' hpos.ne'
  rw [← hlaw, Measure.map_apply hmk (hU.measurableSet.prod hms)] at hprod
  refine lt_of_lt_of_le hprod (measure_mono fun k hk => ?_)
  simp only [Set.mem_preimage, Set.mem_prod, Set.mem_ofPred_eq] at hk ⊢
  have hidx : ∀ j : Fin n, Prng.systematicOrStratified G ssCount false (pfW F Sigma R a y) (G.fst k) j = j := fun j => by
    simp only [Prng.systematicOrStratified, Bool.false_eq_true, if_false]
    exact stratified_identity _ (pfW_nonneg hS hR a y) ha _ hk.2 j
  rw [pfStep_eq G hS hR]
  have : gather (proposalSampler F Sigma R (fun k i => G.normal k n i) a y k) (Prng.systematicOrStratified G ssCount false (pfW F Sigma R a y) (G.fst k))
      = proposalSampler F Sigma R (fun k i => G.normal k n i) a y k := by
    funext j
    rw [gather_of_lt _ _ _ (by rw [hidx]; exact j.2)]
    simp only [hidx]
  rw [this]
  exact hk.1

/-- the sets of clouds to pass through. -/
def pfGood (F Sigma R : ℝ) : List ℝ → Set (Fin n → ℝ)
  | [] => {s | ∀ i, s i = s 0}
  | [y] => {a | 1 - 1 / (2 * n) < pfW F Sigma R a y 0}
  | y :: _ :: _ => {a | ∀ i, |pfW F Sigma R a y i - 1 / n| < 1 / (4 * n ^ 2)}

theorem pfGood_open (hS : 0 < Sigma) (hR : 0 < R) (hF : F ≠ 0) (y : ℝ) (ys : List ℝ) :
    IsOpen (pfGood (n := n) F Sigma R (y :: ys)) ∧ (pfGood (n := n) F Sigma R (y :: ys)).Nonempty := by
  have hn : (0 : ℝ) < n := by exact_mod_cast NeZero.pos n
  cases ys with
  | nil =>
    refine ⟨isOpen_lt continuous_const (continuous_pfW hS hR y 0), ?_⟩
    have hlim : Tendsto (fun c : ℝ => gaussianPDFReal (F * c) (Sigma + R).toNNReal y) atTop (𝓝 0) := by
      have e : (fun c : ℝ => gaussianPDFReal (F * c) (Sigma + R).toNNReal y)
          = fun c => (√(2 * Real.pi * (Sigma + R).toNNReal))⁻¹ * Real.exp (-((y - F * c) ^ 2 / (2 * (Sigma + R).toNNReal))) := by
        funext c; rw [gaussianPDFReal]; congr 2; ring
      rw [e]
      have hv : (0 : ℝ) < 2 * ((Sigma + R).toNNReal : ℝ) := by rw [Real.coe_toNNReal _ (by positivity)]; positivity
      have h1 : Tendsto (fun c : ℝ => (y - F * c) ^ 2) atTop atTop := by
        have h2 : Tendsto (fun c : ℝ => |y - F * c|) atTop atTop := by
          have h3 : Tendsto (fun c : ℝ => |F| * |c| - |y|) atTop atTop :=
            tendsto_atTop_add_const_right _ _ (Tendsto.const_mul_atTop (abs_pos.2 hF) tendsto_abs_atTop_atTop)
          refine tendsto_atTop_mono (fun c => ?_) h3
          have := abs_sub_abs_le_abs_sub (F * c) y
          rw [abs_mul, abs_sub_comm] at this
          exact this
        refine ((tendsto_pow_atTop two_ne_zero).comp h2).congr fun c => ?_
        simp
      have h2 := (Real.tendsto_exp_neg_atTop_nhds_zero.comp (h1.atTop_div_const hv)).const_mul (√(2 * Real.pi * (Sigma + R).toNNReal))⁻¹
      rw [mul_zero] at h2
      exact h2
    set p0 := gaussianPDFReal (F * (y / F)) (Sigma + R).toNNReal y with hp0
    have hp0' : 0 < p0 := pdf_pos' hS hR _ _
    obtain ⟨c, hc⟩ := (hlim.eventually_lt_const (show (0 : ℝ) < p0 / (2 * n ^ 2) by positivity)).exists
    refine ⟨fun i => if i = 0 then y / F else c, ?_⟩
    show _ < pfW F Sigma R _ y 0
    have hsum : ∑ j : Fin n, gaussianPDFReal (F * (if j = 0 then y / F else c)) (Sigma + R).toNNReal y ≤ p0 + p0 / (2 * n) - p0 / (2 * n ^ 2) := by
      rw [← Finset.add_sum_erase _ _ (Finset.mem_univ (0 : Fin n)), if_pos rfl]
      have h1 : ∑ j ∈ Finset.univ.erase (0 : Fin n), gaussianPDFReal (F * (if j = 0 then y / F else c)) (Sigma + R).toNNReal y
          ≤ ∑ _j ∈ Finset.univ.erase (0 : Fin n), p0 / (2 * n ^ 2) := Finset.sum_le_sum fun j hj => by
        rw [if_neg (Finset.ne_of_mem_erase hj)]; exact hc.le
      rw [Finset.sum_const, Finset.card_erase_of_mem (Finset.mem_univ _), Finset.card_univ, Fintype.card_fin, nsmul_eq_mul, Nat.cast_sub (NeZero.pos n)] at h1
      have h2 : ((n : ℝ) - (1 : ℕ)) * (p0 / (2 * n ^ 2)) = p0 / (2 * n) - p0 / (2 * n ^ 2) := by
        push_cast
        field_simp
      linarith
    rw [pfW, if_pos rfl, lt_div_iff₀ (pfW_sum_pos hS hR _ y)]
    have hn1 : (1 : ℝ) ≤ n := by exact_mod_cast NeZero.pos n
    have hnn : 0 < 1 - 1 / (2 * (n : ℝ)) := by
      rw [sub_pos, div_lt_one (by positivity)]; linarith
    refine lt_of_le_of_lt (mul_le_mul_of_nonneg_left hsum hnn.le) ?_
    have e : (1 - 1 / (2 * (n : ℝ))) * (p0 + p0 / (2 * n) - p0 / (2 * n ^ 2)) = p0 - p0 * (1 / (4 * n ^ 2) + 1 / (2 * n ^ 2) * (1 - 1 / (2 * n))) := by
      field_simp
      ring
    rw [e, ← hp0]
    have : 0 < p0 * (1 / (4 * (n : ℝ) ^ 2) + 1 / (2 * n ^ 2) * (1 - 1 / (2 * n))) := by positivity
    linarith
  | cons y' ys =>
    constructor
    · have : pfGood (n := n) F Sigma R (y :: y' :: ys) = ⋂ i, {a | |pfW F Sigma R a y i - 1 / n| < 1 / (4 * n ^ 2)} := by ext a; simp [pfGood]
      rw [this]
      exact isOpen_iInter_of_finite fun i => isOpen_lt ((continuous_pfW hS hR y i).sub continuous_const).abs continuous_const
    · refine ⟨fun _ => 0, fun i => ?_⟩
      have : pfW F Sigma R (fun _ : Fin n => (0 : ℝ)) y i = 1 / n := by
        rw [pfW, Finset.sum_const, Finset.card_univ, Fintype.card_fin, nsmul_eq_mul]
        have := (pdf_pos' hS hR (F * 0) y).ne'
        field_simp
      rw [this, sub_self, abs_zero]
      positivity

end step

theorem sampleVar_zero {n : ℕ} [NeZero n] {s : Fin n → ℝ} (h : ∀ i, s i = s 0) : (sampleMeanVar s).2 = 0 := by
  have hn : (n : ℝ) ≠ 0 := by exact_mod_cast NeZero.ne n
  simp only [sampleMeanVar, h, Finset.sum_const, Finset.card_univ, Fintype.card_fin, nsmul_eq_mul]
  field_simp
  simp

theorem sampleVar_nonneg {n : ℕ} (s : Fin n → ℝ) : 0 ≤ (sampleMeanVar s).2 := div_nonneg (Finset.sum_nonneg fun _ _ => sq_nonneg _) (Nat.cast_nonneg n)

omit [MeasurableSpace K] in
/-- the errors at one time. -/
theorem pfKls_getD (G : Gen K) (hl : ∀ k num, (G.split k num).length = num) (ss : List ℝ → ℝ → ℕ) (F Sigma R mean0 var0 : ℝ) (n : ℕ) [NeZero n]
    (ys : List ℝ) (key : K) (t : ℕ) (ht : t < ys.length) :
    (pf G ss F Sigma R mean0 var0 n ys key).getD t (0, 0) = sampleMeanVar ((pfSamples G ss F Sigma R mean0 var0 n ys key).getD t (pfInit G mean0 var0 key)) ∧
    (pfKls G ss F Sigma R mean0 var0 n ys key).getD t 0
      = let o := (pf G ss F Sigma R mean0 var0 n ys key).getD t (0, 0)
        let tm := (kf F Sigma R mean0 var0 ys).1.getD t (0, 0)
        errKlIeee o.1 o.2 tm.1 tm.2 := by
  have h1 : (pfSamples G ss F Sigma R mean0 var0 n ys key).length = ys.length := by
    rw [pfSamples, particleFilter, scan_len, List.length_zip, hl, min_self]
  have h2 : (kf F Sigma R mean0 var0 ys).1.length = ys.length := scan_len _ _ _
  have h4 : (pf G ss F Sigma R mean0 var0 n ys key).length = ys.length := by rw [pf, List.length_map, h1]
  have h3 : (pfKls G ss F Sigma R mean0 var0 n ys key).length = ys.length := by
    rw [pfKls, List.length_zipWith, h4, h2, min_self]
  rw [List.getD_eq_getElem _ _ (by omega), List.getD_eq_getElem _ _ (by omega), List.getD_eq_getElem _ _ (by omega), List.getD_eq_getElem _ _ (by omega)]
  simp [pfKls, pf]

theorem measurable_pfStep {G : Gen K} {ρ : Measure K} (hG : IdealGen G ρ) {F Sigma R : ℝ} (hS : 0 < Sigma) (hR : 0 < R) {n : ℕ} [NeZero n] (y : ℝ) :
    Measurable fun p : (Fin n → ℝ) × K => pfStep G F Sigma R p.1 (y, p.2) := by
  have hprop : Measurable fun p : (Fin n → ℝ) × K => proposalSampler F Sigma R (fun k i => G.normal k n i) p.1 y p.2 := by
    refine measurable_pi_lambda _ fun i => ?_
    have h2 : Measurable fun p : (Fin n → ℝ) × K => G.normal p.2 n i := (hG.measurable_normal n i).comp measurable_snd
    simp only [proposalSampler, proposalMeanVar]
    fun_prop
  have hw : Measurable fun p : (Fin n → ℝ) × K => pfW F Sigma R p.1 y :=
    measurable_pi_lambda _ fun i => (continuous_pfW hS hR y i).measurable.comp measurable_fst
  have h := measurable_gather.comp (hprop.prodMk ((idealGen_stratified hG n).1.comp (hw.prodMk ((hG.measurable_key 2 0).comp measurable_snd))))
  refine Eq.mp (congrArg Measurable (funext fun p => ?_)) h
  exact (pfStep_eq G hS hR p.1 y p.2).symm

omit [MeasurableSpace K] in
/-- the particles at time `t` are those of `t + 1` steps with the first `t + 1` keys. -/
theorem pfSamples_fold (G : Gen K) (hl : ∀ k num, (G.split k num).length = num) (F Sigma R mean0 var0 : ℝ) (n : ℕ) [NeZero n] (ys : List ℝ) (key : K) (t : ℕ)
    (ht : t < ys.length) (hle : (ys.take (t + 1)).length ≤ ys.length) :
    (pfSamples G ssCount F Sigma R mean0 var0 n ys key).getD t (pfInit G mean0 var0 key)
      = ((ys.take (t + 1)).zip (List.ofFn fun i : Fin (ys.take (t + 1)).length => G.key key ys.length (Fin.castLE hle i))).foldl (pfStep G F Sigma R)
        (pfInit G mean0 var0 key) := by
  have hlt : (ys.take (t + 1)).length = t + 1 := by rw [List.length_take, min_eq_left ht]
  rw [pfSamples, particleFilter, scan_getD_fold _ (fun _ _ => rfl) _ _ _ _ (by rw [List.length_zip, hl, min_self]; exact ht), take_zip']
  congr 2
  refine List.ext_getElem (by simp [hl]) fun i h1 h2 => ?_
  have hi : i < ys.length := by
    have : i < (ys.take (t + 1)).length := by simpa using h2
    omega
  simp [Gen.key, List.getD_eq_getElem?_getD, hl, hi]

/-- **C180.** For any number of particles and any measurements the variance of the particles is exactly zero with positive probability at every
time; then the Kullback–Leibler error of the script is infinite. -/
theorem C180_collapse {G : Gen K} {ρ : Measure K} (hG : IdealGen G ρ) {ss : List ℝ → ℝ → ℕ} (hss : Resampling.SearchSorted ss) {F Sigma R mean0 var0 : ℝ}
    (hF : F ≠ 0) (hS : 0 < Sigma) (hR : 0 < R) (hv0 : 0 < var0) (n : ℕ) [NeZero n] (ys : List ℝ) (t : ℕ) (ht : t < ys.length) :
    0 < ρ {key | ((pf G ss F Sigma R mean0 var0 n ys key).getD t (0, 0)).2 = 0} ∧
    ∀ key, (pfKls G ss F Sigma R mean0 var0 n ys key).getD t 0 = ⊤ ↔ ((pf G ss F Sigma R mean0 var0 n ys key).getD t (0, 0)).2 = 0 := by
  have := hG.prob
  constructor
  · have hl : (ys.take (t + 1)).length = t + 1 := by rw [List.length_take, min_eq_left ht]
    have hle : (ys.take (t + 1)).length ≤ ys.length := by rw [hl]; exact ht
    have hgm := measurable_pfStep hG hS hR (F := F) (n := n)
    have hD : MeasurableSet {s : Fin n → ℝ | ∀ i, s i = s 0} := by
      have : {s : Fin n → ℝ | ∀ i, s i = s 0} = ⋂ i, {s | s i = s 0} := by ext s; simp
      rw [this]
      exact MeasurableSet.iInter fun i => measurableSet_eq_fun (measurable_pi_apply i) (measurable_pi_apply 0)
    have hfold := fold_pos ρ hgm hD (pfGood F Sigma R) le_rfl (fun y zs a ha => by
      cases zs with
      | nil => exact step_collapse hG hS hR a y ha
      | cons z zs =>
        have h := pfGood_open (n := n) hS hR hF z zs
        exact step_open hG hS hR a y (fun i => (ha i).le) h.1 h.2) (ys.take (t + 1))
    have hlaw := ideal_take (ν := ρ) hle (idealGen_normals hG ys.length n (fun _ => mean0) (fun _ => var0) fun _ => hv0.le)
    set Q : Set ((Fin n → ℝ) × (Fin (ys.take (t + 1)).length → K)) := {p | ((ys.take (t + 1)).zip (List.ofFn p.2)).foldl (pfStep G F Sigma R) p.1 ∈ {s | ∀ i, s i = s 0}} with hQ
    have hQm : MeasurableSet Q := (measurable_foldl hgm (ys.take (t + 1))) hD
    have hmk : Measurable fun key => ((fun i : Fin n => mean0 + √var0 * G.normal key n i), fun i : Fin (ys.take (t + 1)).length => G.key key ys.length (Fin.castLE hle i)) :=
      (measurable_pi_lambda _ fun i => ((hG.measurable_normal _ _).const_mul _).const_add _).prodMk (measurable_pi_lambda _ fun i => hG.measurable_key _ _)
    have hpos : 0 < ((Measure.pi fun _ : Fin n => gaussianReal mean0 var0.toNNReal).prod (Measure.pi fun _ : Fin (ys.take (t + 1)).length => ρ)) Q := by
      rw [Measure.prod_apply hQm, lintegral_pos_iff_support (measurable_measure_prodMk_left hQm)]
      have hop : (gaussianReal mean0 var0.toNNReal).IsOpenPosMeasure := gaussian_openPos _ (by rw [Ne, Real.toNNReal_eq_zero, not_le]; exact hv0)
      have hgood : IsOpen (pfGood (n := n) F Sigma R (ys.take (t + 1))) ∧ (pfGood (n := n) F Sigma R (ys.take (t + 1))).Nonempty := by
        obtain ⟨y, zs, e⟩ := List.exists_cons_of_length_eq_add_one hl
        rw [e]
        exact pfGood_open hS hR hF y zs
      exact lt_of_lt_of_le (hgood.1.measure_pos _ hgood.2) (measure_mono fun a ha => (hfold a ha).ne')
    rw [← hlaw, Measure.map_apply hmk hQm] at hpos
    refine lt_of_lt_of_le hpos (measure_mono fun key hk => ?_)
    have hk' : ∀ i, ((ys.take (t + 1)).zip (List.ofFn fun i : Fin (ys.take (t + 1)).length => G.key key ys.length (Fin.castLE hle i))).foldl (pfStep G F Sigma R)
      (pfInit G mean0 var0 key) i = _ := hk
    show ((pf G ss F Sigma R mean0 var0 n ys key).getD t (0, 0)).2 = 0
    rw [(pfKls_getD G hG.length ss F Sigma R mean0 var0 n ys key t ht).1, pfSamples_ss G hss]
    refine sampleVar_zero ?_
    rw [pfSamples_fold G hG.length F Sigma R mean0 var0 n ys key t ht hle]
    exact hk'
  · intro key
    obtain ⟨e1, e2⟩ := pfKls_getD G hG.length ss F Sigma R mean0 var0 n ys key t ht
    set tm := (kf F Sigma R mean0 var0 ys).1.getD t (0, 0) with htm
    have hvt : 0 < tm.2 := by
      have : tm = _ := kf_getD F Sigma R ys (mean0, var0, 0) t ht (0, 0)
      rw [this]
      exact (kf_markovE F hS hR measurable_const (PolyGrowth.const 1) _ mean0 var0 0 hv0).1
    rw [e2]
    have h := fun m v => C180_ieee m tm.1 (v := v) hvt
    constructor
    · intro htop
      by_contra hne
      have hp : 0 < ((pf G ss F Sigma R mean0 var0 n ys key).getD t (0, 0)).2 := lt_of_le_of_ne (by rw [e1]; exact sampleVar_nonneg _) (Ne.symm hne)
      simp only [(h _ _).1 hp, EReal.coe_ne_top] at htop
    · intro h0
      simp only [h0, (h _ 0).2]

/-- the variance of the particles in the script is zero on a measurable set of keys of positive probability. -/
theorem pfScript_zero {G : Gen K} {ρ : Measure K} (hG : IdealGen G ρ) {ss : List ℝ → ℝ → ℕ} (hss : Resampling.SearchSorted ss) (B : Backend)
    {ell sigma dt R mean0 var0 : ℝ} (hell : 0 < ell) (hsigma : sigma ≠ 0) (hdt : 0 < dt) (hR : 0 < R) (hv0 : 0 < var0) (n : ℕ) [NeZero n] (T t : ℕ) (ht : t < T) :
    MeasurableSet {key | (pfScriptKls G ss B ell sigma dt R mean0 var0 n T key).getD t 0 = ⊤} ∧
    0 < ρ {key | (pfScriptKls G ss B ell sigma dt R mean0 var0 n T key).getD t 0 = ⊤} ∧
    ∀ key, (pfScriptKls G ss B ell sigma dt R mean0 var0 n T key).getD t 0 ≠ ⊥ := by
  have := hG.prob
  have hS : 0 < ouSigma ell sigma dt := by
    have : Real.exp (-2 * dt / ell) < 1 := by
      rw [Real.exp_lt_one_iff]
      have : 0 < 2 * dt / ell := by positivity
      have e : -2 * dt / ell = -(2 * dt / ell) := by ring
      linarith
    rw [ouSigma]
    exact mul_pos (by positivity) (by linarith)
  have hF : ouF ell dt ≠ 0 := by
    rw [ouF]
    exact (Real.exp_pos _).ne'
  have hlen : ∀ key, (pfData G B ell sigma dt R T key).length = T := fun key => by simp [pfData]
  set yf : (Fin T → ℝ) × (Fin T → ℝ) → Fin T → ℝ := fun z i => ouSimulate B ell sigma dt z.1 i + √R * z.2 i with hyf
  have hym : Measurable yf := by
    refine measurable_pi_lambda _ fun i => ?_
    simp only [hyf, ouSimulate, Matrix.mulVec, dotProduct]
    fun_prop
  set Z : Set (((Fin T → ℝ) × (Fin T → ℝ)) × K) := {p |
    ((pf G ss (ouF ell dt) (ouSigma ell sigma dt) R mean0 var0 n (List.ofFn (yf p.1)) p.2).getD t (0, 0)).2 = 0} with hZ
  have hZm : MeasurableSet Z := by
    have h1 := (measurable_pfSamples hG (ouF ell dt) (ouSigma ell sigma dt) R mean0 var0 n T t).comp ((hym.comp measurable_fst).prodMk measurable_snd)
    have h2 : Measurable fun s : Fin n → ℝ => (sampleMeanVar s).2 := by
      simp only [sampleMeanVar]
      fun_prop
    have h3 := measurableSet_eq_fun (h2.comp h1) (measurable_const (a := (0 : ℝ)))
    refine Eq.mp (congrArg MeasurableSet (Set.ext fun p => ?_)) h3
    have := (pfKls_getD G hG.length ss (ouF ell dt) (ouSigma ell sigma dt) R mean0 var0 n (List.ofFn (yf p.1)) p.2 t (by simpa using ht)).1
    rw [pfSamples_ss G hss] at this
    simp only [hZ, Set.mem_ofPred_eq, this]
    exact Iff.rfl
  set D := fun key => (((fun i : Fin T => G.normal (G.key key 2 0) T i), fun i : Fin T => G.normal (G.key key 2 1) T i), G.fst (G.key key 2 1)) with hD
  have hDm : Measurable D :=
    ((measurable_pi_lambda _ fun i : Fin T => (hG.measurable_normal T i).comp (hG.measurable_key 2 0)).prodMk
      (measurable_pi_lambda _ fun i : Fin T => (hG.measurable_normal T i).comp (hG.measurable_key 2 1))).prodMk ((hG.measurable_key 2 0).comp (hG.measurable_key 2 1))
  have hset : {key | (pfScriptKls G ss B ell sigma dt R mean0 var0 n T key).getD t 0 = ⊤} = D ⁻¹' Z := by
    ext key
    exact (C180_collapse hG hss hF hS hR hv0 n (pfData G B ell sigma dt R T key) t (by rw [hlen]; exact ht)).2 (G.fst (G.key key 2 1))
  refine ⟨hset ▸ hDm hZm, ?_, fun key => ?_⟩
  · rw [hset, ← Measure.map_apply hDm hZm, pfScript_law hG T, Measure.prod_apply hZm, lintegral_pos_iff_support (measurable_measure_prodMk_left hZm)]
    have : Function.support (fun x => ρ (Prod.mk x ⁻¹' Z)) = Set.univ :=
      Set.eq_univ_of_forall fun x => (C180_collapse hG hss hF hS hR hv0 n (List.ofFn (yf x)) t (by simpa using ht)).1.ne'
    rw [this, measure_univ]
    exact one_pos
  · have hl : t < (pfData G B ell sigma dt R T key).length := by rw [hlen]; exact ht
    by_cases h : (pfScriptKls G ss B ell sigma dt R mean0 var0 n T key).getD t 0 = ⊤
    · rw [h]
      exact top_ne_bot
    · rw [pfScriptKls] at h ⊢
      have h' := mt ((C180_collapse hG hss hF hS hR hv0 n (pfData G B ell sigma dt R T key) t hl).2 (G.fst (G.key key 2 1))).2 h
      obtain ⟨e1, e2⟩ := pfKls_getD G hG.length ss (ouF ell dt) (ouSigma ell sigma dt) R mean0 var0 n (pfData G B ell sigma dt R T key) (G.fst (G.key key 2 1)) t hl
      rw [e2]
      have hp := lt_of_le_of_ne (by rw [e1]; exact sampleVar_nonneg _) (Ne.symm h')
      have hvt : 0 < ((kf (ouF ell dt) (ouSigma ell sigma dt) R mean0 var0 (pfData G B ell sigma dt R T key)).1.getD t (0, 0)).2 := by
        have : (kf (ouF ell dt) (ouSigma ell sigma dt) R mean0 var0 (pfData G B ell sigma dt R T key)).1.getD t (0, 0) = _ :=
          kf_getD _ _ R (pfData G B ell sigma dt R T key) (mean0, var0, 0) t hl (0, 0)
        rw [this]
        exact (kf_markovE _ hS hR measurable_const (PolyGrowth.const 1) _ mean0 var0 0 hv0).1
      simp only [(C180_ieee _ _ hvt).1 hp]
      exact EReal.coe_ne_bot _

/-- **C180.** The error that the script saves at time `t` is infinite with positive probability, for any number of particles. -/
theorem C180_script {G : Gen K} {ρ : Measure K} (hG : IdealGen G ρ) {ss : List ℝ → ℝ → ℕ} (hss : Resampling.SearchSorted ss) (B : Backend)
    {ell sigma dt R mean0 var0 : ℝ} (hell : 0 < ell) (hsigma : sigma ≠ 0) (hdt : 0 < dt) (hR : 0 < R) (hv0 : 0 < var0) (n : ℕ) [NeZero n] (T t : ℕ) (ht : t < T) :
    0 < ρ {key | (pfScriptKls G ss B ell sigma dt R mean0 var0 n T key).getD t 0 = ⊤} :=
  (pfScript_zero hG hss B hell hsigma hdt hR hv0 n T t ht).2.1

/-- **C180.** The error has no finite mean, for any number of particles. -/
theorem C180_mean {G : Gen K} {ρ : Measure K} (hG : IdealGen G ρ) {ss : List ℝ → ℝ → ℕ} (hss : Resampling.SearchSorted ss) (B : Backend)
    {ell sigma dt R mean0 var0 : ℝ} (hell : 0 < ell) (hsigma : sigma ≠ 0) (hdt : 0 < dt) (hR : 0 < R) (hv0 : 0 < var0) (n : ℕ) [NeZero n] (T t : ℕ) (ht : t < T) :
    ∫⁻ key, ((pfScriptKls G ss B ell sigma dt R mean0 var0 n T key).getD t 0).toENNReal ∂ρ = ⊤ := by
  obtain ⟨hm, hpos, -⟩ := pfScript_zero hG hss B hell hsigma hdt hR hv0 n T t ht (mean0 := mean0)
  refine top_unique ?_
  calc (⊤ : ℝ≥0∞) = ⊤ * ρ {key | (pfScriptKls G ss B ell sigma dt R mean0 var0 n T key).getD t 0 = ⊤} := (ENNReal.top_mul hpos.ne').symm
    _ = ∫⁻ key, Set.indicator {key | (pfScriptKls G ss B ell sigma dt R mean0 var0 n T key).getD t 0 = ⊤} (fun _ => ⊤) key ∂ρ := (lintegral_indicator_const hm _).symm
    _ ≤ _ := lintegral_mono fun key => by
      by_cases h : key ∈ {key | (pfScriptKls G ss B ell sigma dt R mean0 var0 n T key).getD t 0 = ⊤}
      · rw [Set.indicator_of_mem h, show (pfScriptKls G ss B ell sigma dt R mean0 var0 n T key).getD t 0 = ⊤ from h]
        simp
      · rw [Set.indicator_of_notMem h]
        exact zero_le

theorem sum_top {ι : Type} (s : Finset ι) (f : ι → EReal) (hb : ∀ i ∈ s, f i ≠ ⊥) {i : ι} (hi : i ∈ s) (h : f i = ⊤) : ∑ i ∈ s, f i = ⊤ := by
  classical
  have hne : ∀ s : Finset ι, (∀ i ∈ s, f i ≠ ⊥) → ∑ i ∈ s, f i ≠ ⊥ := fun s => by
    induction s using Finset.induction_on with
    | empty => simp
    | insert a s ha ih =>
      intro hs
      rw [Finset.sum_insert ha]
      exact EReal.add_ne_bot_iff.2 ⟨hs _ (Finset.mem_insert_self _ _), ih fun i hi => hs i (Finset.mem_insert_of_mem hi)⟩
  rw [← Finset.add_sum_erase _ _ hi, h]
  exact EReal.top_add_of_ne_bot (hne _ fun j hj => hb j (Finset.mem_of_mem_erase hj))

/-- **C180.** The sum (so the average) of the saved errors over Monte Carlo runs is finite with a probability that decreases geometrically in the number of runs. -/
theorem C180_average {G : Gen K} {ρ : Measure K} (hG : IdealGen G ρ) {ss : List ℝ → ℝ → ℕ} (hss : Resampling.SearchSorted ss) (B : Backend)
    {ell sigma dt R mean0 var0 : ℝ} (hell : 0 < ell) (hsigma : sigma ≠ 0) (hdt : 0 < dt) (hR : 0 < R) (hv0 : 0 < var0) (n : ℕ) [NeZero n] (T t : ℕ) (ht : t < T) :
    ∃ p : ℝ, 0 < p ∧ p ≤ 1 ∧ ∀ runs maxMcs, runs ≤ maxMcs →
      ρ.real {main | pfSumKl G ss B ell sigma dt R mean0 var0 n T t runs maxMcs main ≠ ⊤} ≤ (1 - p) ^ runs := by
  have := hG.prob
  obtain ⟨hm, hpos, hbot⟩ := pfScript_zero hG hss B hell hsigma hdt hR hv0 n T t ht (mean0 := mean0)
  set A := {key | (pfScriptKls G ss B ell sigma dt R mean0 var0 n T key).getD t 0 = ⊤} with hA
  refine ⟨ρ.real A, ENNReal.toReal_pos hpos.ne' (measure_ne_top _ _), measureReal_le_one, fun runs maxMcs hle => ?_⟩
  have hkm : Measurable fun k (i : Fin maxMcs) => G.key k maxMcs i := measurable_pi_lambda _ fun i => hG.measurable_key _ _
  have hk : ρ.map (fun k (i : Fin maxMcs) => G.key k maxMcs i) = Measure.pi fun _ => ρ := by
    have h := congrArg (fun m => m.map Prod.snd) (hG.normals maxMcs 0)
    simp only [Measure.map_snd_prod, measure_univ, one_smul] at h
    have hmn : Measurable fun k => ((fun i : Fin 0 => G.normal k 0 i), fun i : Fin maxMcs => G.key k maxMcs i) :=
      (measurable_pi_lambda _ fun i => hG.measurable_normal _ _).prodMk hkm
    rw [Measure.map_map measurable_snd hmn] at h
    exact h
  have hsub : {main | pfSumKl G ss B ell sigma dt R mean0 var0 n T t runs maxMcs main ≠ ⊤}
      ⊆ (fun k (i : Fin maxMcs) => G.key k maxMcs i) ⁻¹' Set.univ.pi fun i : Fin maxMcs => if (i : ℕ) < runs then Aᶜ else Set.univ := by
    intro main hmain
    rw [Set.mem_preimage, Set.mem_univ_pi]
    intro i
    split_ifs with hi
    · intro hA
      exact hmain (sum_top _ _ (fun k _ => hbot _) (Finset.mem_range.2 hi) hA)
    · trivial
  refine (measureReal_mono hsub).trans ?_
  have hms : MeasurableSet (Set.univ.pi fun i : Fin maxMcs => if (i : ℕ) < runs then Aᶜ else Set.univ) :=
    MeasurableSet.univ_pi fun i => by split_ifs; exacts [hm.compl, MeasurableSet.univ]
  rw [measureReal_def, ← Measure.map_apply hkm hms, hk, Measure.pi_pi, ENNReal.toReal_prod]
  have e : ∀ i : Fin maxMcs, (ρ (if (i : ℕ) < runs then Aᶜ else Set.univ)).toReal = (fun j : ℕ => if j < runs then 1 - ρ.real A else 1) i := fun i => by
    dsimp only
    split_ifs
    · exact probReal_compl_eq_one_sub hm
    · simp
  rw [Finset.prod_congr rfl fun i _ => e i, Fin.prod_univ_eq_prod_range (fun j : ℕ => if j < runs then 1 - ρ.real A else 1) maxMcs, Finset.prod_ite,
    Finset.prod_const, Finset.prod_const_one, mul_one]
  have : (Finset.range maxMcs).filter (· < runs) = Finset.range runs := by
    ext j
    simp only [Finset.mem_filter, Finset.mem_range]
    omega
  rw [this, Finset.card_range]

/-- **C180.** With ever more runs the average is infinite with probability tending to one. -/
theorem C180_average_tendsto {G : Gen K} {ρ : Measure K} (hG : IdealGen G ρ) {ss : List ℝ → ℝ → ℕ} (hss : Resampling.SearchSorted ss) (B : Backend)
    {ell sigma dt R mean0 var0 : ℝ} (hell : 0 < ell) (hsigma : sigma ≠ 0) (hdt : 0 < dt) (hR : 0 < R) (hv0 : 0 < var0) (n : ℕ) [NeZero n] (T t : ℕ) (ht : t < T)
    (maxMcs : ℕ → ℕ) (hle : ∀ runs, runs ≤ maxMcs runs) :
    Tendsto (fun runs => ρ.real {main | pfSumKl G ss B ell sigma dt R mean0 var0 n T t runs (maxMcs runs) main ≠ ⊤}) atTop (𝓝 0) := by
  obtain ⟨p, h0, h1, h⟩ := C180_average hG hss B hell hsigma hdt hR hv0 n T t ht (mean0 := mean0)
  exact squeeze_zero (fun _ => measureReal_nonneg) (fun runs => h runs _ (hle runs)) (tendsto_pow_atTop_nhds_zero_of_lt_one (by linarith) (by linarith))

/-! ## The hypotheses can be met -/

/-- the script as it stands (10000 particles, say), with trees of draws as keys. -/
example (B : Backend) (T t : ℕ) (ht : t < T) : 0 < treeLaw {key | (pfScriptKls treeGen ssCount B 1 0.5 1e-1 1 0 (0.5 ^ 2) 10000 T key).getD t 0 = ⊤} :=
  C180_script treeGen_ideal (fun _ _ _ => rfl) B one_pos (by norm_num) (by norm_num) one_pos (by norm_num) 10000 T t ht

example : 0 < treeLaw {key | ((pf treeGen ssCount 0.9 1 1 0 1 100 [0.3, -0.2] key).getD 1 (0, 0)).2 = 0} :=
  (C180_collapse treeGen_ideal (fun _ _ _ => rfl) (by norm_num) one_pos one_pos one_pos 100 [0.3, -0.2] 1 (by simp)).1

end Mfs.Props

import Verif.Model.ConvergencePf
import Verif.Props.SmcProbability
import Verif.Props.OuConverge
import Verif.Props.ExperimentErrors
import Verif.Props.Keys
import Verif.Lemmas.IdealGen

/-!
# C179: the convergence experiment with the particle filter
-/

namespace Mfs.Props

open Mfs.Smc Mfs.Spec Mfs.Prng Mfs.Experiments Mfs.Converge Mfs.Lemmas MeasureTheory ProbabilityTheory Filter Topology
open scoped NNReal

variable {K : Type}

/-! ## Keys -/

/-- the keys at which the script draws: states, measurements, initial particles, and proposal and resampling at every step. -/
def pfScriptKeys (G : Gen K) (T : ℕ) (key : K) : List K :=
  let keyPf := G.fst (G.key key 2 1)
  [G.key key 2 0, G.key key 2 1, keyPf] ++ (G.split keyPf T).flatMap fun k => [k, G.fst k]

theorem pfKeys_nodup (depth : K → ℕ) (c0 c1 p : K) (child : ℕ → K) (f : K → K) (T : ℕ) (h01 : c0 ≠ c1) (h1 : depth c0 = depth c1)
    (hp : depth p = depth c1 + 1) (hc : ∀ i, depth (child i) = depth p + 1) (hf : ∀ k, depth (f k) = depth k + 1)
    (hci : Function.Injective child) (hfi : Function.Injective f) :
    ([c0, c1, p] ++ ((List.range T).map child).flatMap fun k => [k, f k]).Nodup := by
  have hd : ∀ k l : K, depth k ≠ depth l → k ≠ l := fun k l h e => h (by rw [e])
  rw [List.nodup_append]
  refine ⟨?_, ?_, ?_⟩
  · have h2 := hd c0 p (by omega)
    have h3 := hd c1 p (by omega)
    simp [h01, h2, h3]
  · rw [List.flatMap_map, List.nodup_flatMap]
    refine ⟨fun t _ => by simpa using hd (child t) (f (child t)) (by rw [hf]; omega), ?_⟩
    refine List.Pairwise.imp ?_ (List.nodup_range (n := T))
    intro s t hst x hx hy
    simp only [List.mem_cons, List.not_mem_nil, or_false] at hx hy
    rcases hx with rfl | rfl <;> rcases hy with hy | hy
    · exact hst (hci hy)
    · exact hd _ _ (by rw [hf, hc, hc]; omega) hy
    · exact hd _ _ (by rw [hf, hc, hc]; omega) hy
    · exact hst (hci (hfi hy))
  · intro a ha b hb
    simp only [List.mem_cons, List.not_mem_nil, or_false] at ha
    obtain ⟨t, ht, hb⟩ := List.mem_flatMap.1 hb
    obtain ⟨i, -, rfl⟩ := List.mem_map.1 ht
    simp only [List.mem_cons, List.not_mem_nil, or_false] at hb
    have e1 := hc i
    have e2 := hf (child i)
    rcases ha with rfl | rfl | rfl <;> rcases hb with rfl | rfl <;> exact hd _ _ (by omega)

/-- **C179.** The script never uses a key twice, for any number of measurements, whether or not the children of a key depend on how many are
asked for. -/
theorem C179_keys (T : ℕ) :
    (∀ (G : Gen FreeKey), (∀ k n, G.split k n = (List.range n).map (FreeKey.child k n)) → ∀ key, (pfScriptKeys G T key).Nodup) ∧
    (∀ (G : Gen PrefixKey), (∀ k n, G.split k n = (List.range n).map (PrefixKey.child k)) → ∀ key, (pfScriptKeys G T key).Nodup) := by
  refine ⟨fun G hG key => ?_, fun G hG key => ?_⟩
  · have hf : ∀ k, G.fst k = .child k 2 0 := fun k => by simp [Gen.fst, Gen.key, hG]
    have hk : ∀ k i, i < 2 → G.key k 2 i = .child k 2 i := fun k i hi => by
      simp [Gen.key, hG, List.getD_eq_getElem?_getD, hi]
    simp only [pfScriptKeys, hf, hk _ 0 (by omega), hk _ 1 (by omega), hG]
    exact pfKeys_nodup FreeKey.depth _ _ _ _ (fun k => .child k 2 0) T (by simp) rfl rfl (fun _ => rfl) (fun _ => rfl)
      (fun i j h => by injection h) (fun i j h => by injection h)
  · have hf : ∀ k, G.fst k = .child k 0 := fun k => by simp [Gen.fst, Gen.key, hG]
    have hk : ∀ k i, i < 2 → G.key k 2 i = .child k i := fun k i hi => by
      simp [Gen.key, hG, List.getD_eq_getElem?_getD, hi]
    simp only [pfScriptKeys, hf, hk _ 0 (by omega), hk _ 1 (by omega), hG]
    exact pfKeys_nodup PrefixKey.depth _ _ _ _ (fun k => .child k 0) T (by simp) rfl rfl (fun _ => rfl) (fun _ => rfl)
      (fun i j h => by injection h) (fun i j h => by injection h)

/-- **C179.** The script reads the generator only at these keys. -/
theorem C179_draws (G G' : Gen K) (hs : G.split = G'.split) (ss : List ℝ → ℝ → ℕ) (B : Backend) (ell sigma dt R mean0 var0 : ℝ) (n : ℕ) [NeZero n]
    (T : ℕ) (key : K) (h : ∀ k ∈ pfScriptKeys G T key, G.normal k = G'.normal k ∧ G.uniform k = G'.uniform k) :
    pfScript G ss B ell sigma dt R mean0 var0 n T key = pfScript G' ss B ell sigma dt R mean0 var0 n T key := by
  have hk : ∀ k m i, G.key k m i = G'.key k m i := fun k m i => by simp [Gen.key, hs]
  have hf : ∀ k, G.fst k = G'.fst k := fun k => hk _ _ _
  have h0 := (h (G.key key 2 0) (by simp [pfScriptKeys])).1
  have h1 := (h (G.key key 2 1) (by simp [pfScriptKeys])).1
  have h2 := (h (G.fst (G.key key 2 1)) (by simp [pfScriptKeys])).1
  have hd : pfData G B ell sigma dt R T key = pfData G' B ell sigma dt R T key := by
    simp only [pfData, h0, h1, ← hk]
  have hl : (pfData G' B ell sigma dt R T key).length = T := by simp [pfData]
  have hsam : pfSamples G ss (ouF ell dt) (ouSigma ell sigma dt) R mean0 var0 n (pfData G' B ell sigma dt R T key) (G.fst (G.key key 2 1))
      = pfSamples G' ss (ouF ell dt) (ouSigma ell sigma dt) R mean0 var0 n (pfData G' B ell sigma dt R T key) (G.fst (G.key key 2 1)) := by
    simp only [pfSamples, particleFilter, hl]
    have hi : pfInit G mean0 var0 (n := n) (G.fst (G.key key 2 1)) = pfInit G' mean0 var0 (G.fst (G.key key 2 1)) := by
      funext i; simp only [pfInit, h2]
    rw [hi, hs]
    refine congrArg Prod.snd (scan_congr_mem _ _ _ (fun b hb a => ?_) _)
    have hb2 : b.2 ∈ G.split (G.fst (G.key key 2 1)) T := by rw [hs]; exact (List.of_mem_zip hb).2
    have hn := (h b.2 (by
      simp only [pfScriptKeys, List.mem_append, List.mem_flatMap]
      exact Or.inr ⟨b.2, hb2, by simp⟩)).1
    have hu := (h (G.fst b.2) (by
      simp only [pfScriptKeys, List.mem_append, List.mem_flatMap]
      exact Or.inr ⟨b.2, hb2, by simp⟩)).2
    have hp : ∀ y, proposalSampler (ouF ell dt) (ouSigma ell sigma dt) R (fun k (i : Fin n) => G.normal k n i) a y b.2
        = proposalSampler (ouF ell dt) (ouSigma ell sigma dt) R (fun k (i : Fin n) => G'.normal k n i) a y b.2 := fun y => by
      funext i; simp only [proposalSampler, hn]
    have hr : ∀ w : Fin n → ℝ, Prng.systematicOrStratified G ss false w (G.fst b.2) = Prng.systematicOrStratified G' ss false w (G'.fst b.2) := fun w => by
      funext j; simp only [Prng.systematicOrStratified, hu, ← hf]
    simp only [particleBody, hp, hr]
  simp only [pfScript, pfErrors, pf, hd, ← hk, ← hf, hsam]

/-! ## Convergence for given measurements -/

variable [MeasurableSpace K]

omit [MeasurableSpace K] in
/-- `searchsorted` of any kind gives the same particles. -/
theorem pfSamples_ss (G : Gen K) {ss : List ℝ → ℝ → ℕ} (hss : Resampling.SearchSorted ss) (F Sigma R mean0 var0 : ℝ) (n : ℕ) [NeZero n] (ys : List ℝ) (key : K) :
    pfSamples G ss F Sigma R mean0 var0 n ys key = pfSamples G ssCount F Sigma R mean0 var0 n ys key := by
  simp only [pfSamples, particleFilter]
  refine congrArg Prod.snd (scan_congr_mem _ _ _ (fun b hb a => ?_) _)
  have hr : ∀ (w : Fin n → ℝ) (k : K), (∀ i, 0 ≤ w i) → Prng.systematicOrStratified G ss false w k = Prng.systematicOrStratified G ssCount false w k := by
    intro w k hw
    funext j
    simp only [Prng.systematicOrStratified, sos_getD]
    have hmono : (Resampling.cumsum (List.ofFn w)).Pairwise (· ≤ ·) := by
      refine Resampling.cumsum_sorted _ ?_
      intro a ha
      obtain ⟨i, rfl⟩ := List.mem_ofFn.1 ha
      exact hw i
    rw [hss _ hmono]
    rfl
  simp only [particleBody]
  rw [hr]
  intro i
  refine div_nonneg ?_ (Finset.sum_nonneg fun i _ => ?_) <;>
  · refine div_nonneg (mul_nonneg ?_ ?_) ?_ <;> exact (normPdf_pos _ _ _).le

theorem map_affine_gaussian (m : ℝ) {v : ℝ} (hv : 0 ≤ v) : (gaussianReal 0 1).map (fun z => m + √v * z) = gaussianReal m v.toNNReal := by
  have : (fun z => m + √v * z) = (fun z => m + z) ∘ (fun z => √v * z) := rfl
  rw [this, ← Measure.map_map (by fun_prop) (by fun_prop), gaussianReal_map_const_mul, gaussianReal_map_const_add]
  congr 1
  · simp
  · ext
    simp [hv]

/-- the law of normals of given means and variances together with a new key. -/
theorem idealGen_normals {G : Gen K} {ρ : Measure K} (hG : IdealGen G ρ) (num size : ℕ) (m v : Fin size → ℝ) (hv : ∀ i, 0 ≤ v i) :
    ρ.map (fun k => ((fun i : Fin size => m i + √(v i) * G.normal k size i), fun i : Fin num => G.key k num i))
      = (Measure.pi fun i => gaussianReal (m i) (v i).toNNReal).prod (Measure.pi fun _ => ρ) := by
  have := hG.prob
  have hm : Measurable fun (z : Fin size → ℝ) i => m i + √(v i) * z i := by fun_prop
  have h := Measure.map_prod_map (Measure.pi fun _ : Fin size => gaussianReal 0 1) (Measure.pi fun _ : Fin num => ρ) hm measurable_id
  have hpi : (Measure.pi fun _ : Fin size => gaussianReal 0 1).map (fun (z : Fin size → ℝ) i => m i + √(v i) * z i)
      = Measure.pi fun i => gaussianReal (m i) (v i).toNNReal := by
    have h1 : ∀ i, SigmaFinite ((gaussianReal 0 1).map (fun z => m i + √(v i) * z)) := fun i => by
      rw [map_affine_gaussian _ (hv i)]; infer_instance
    have := Measure.pi_map_pi (μ := fun _ : Fin size => gaussianReal 0 1) (f := fun i z => m i + √(v i) * z) (fun i => by fun_prop)
    rw [this]
    congr 1
    funext i
    exact map_affine_gaussian _ (hv i)
  have hk : Measurable fun k => ((fun i : Fin size => G.normal k size i), fun i : Fin num => G.key k num i) :=
    (measurable_pi_lambda _ fun i => hG.measurable_normal _ _).prodMk (measurable_pi_lambda _ fun i => hG.measurable_key _ _)
  rw [hpi, Measure.map_id] at h
  rw [h, ← hG.normals, Measure.map_map (hm.prodMap measurable_id) hk]
  rfl

theorem idealGen_normals_fst {G : Gen K} {ρ : Measure K} (hG : IdealGen G ρ) (size : ℕ) (m v : Fin size → ℝ) (hv : ∀ i, 0 ≤ v i) :
    ρ.map (fun k => ((fun i : Fin size => m i + √(v i) * G.normal k size i), G.fst k))
      = (Measure.pi fun i => gaussianReal (m i) (v i).toNNReal).prod ρ := by
  have := hG.prob
  have h := idealGen_normals hG 2 size m v hv
  have h2 := Measure.map_prod_map (Measure.pi fun i => gaussianReal (m i) (v i).toNNReal) (Measure.pi fun _ : Fin 2 => ρ) measurable_id
    (measurable_pi_apply (0 : Fin 2))
  have h3 : (Measure.pi fun _ : Fin 2 => ρ).map (fun x => x 0) = ρ := by
    have := (measurePreserving_eval (fun _ : Fin 2 => ρ) 0).map_eq
    exact this
  have hk : Measurable fun k => ((fun i : Fin size => m i + √(v i) * G.normal k size i), fun i : Fin 2 => G.key k 2 i) :=
    (measurable_pi_lambda _ fun i => ((hG.measurable_normal _ _).const_mul _).const_add _).prodMk (measurable_pi_lambda _ fun i => hG.measurable_key _ _)
  rw [h3, Measure.map_id] at h2
  rw [h2, ← h, Measure.map_map (measurable_id.prodMap (measurable_pi_apply _)) hk]
  rfl

/-- the stratified scheme with an ideal generator. -/
theorem idealGen_stratified {G : Gen K} {ρ : Measure K} (hG : IdealGen G ρ) (n : ℕ) [NeZero n] :
    Measurable (fun p : (Fin n → ℝ) × K => Prng.systematicOrStratified G ssCount false p.1 p.2) ∧
    (∀ (w : Fin n → ℝ) k j, Prng.systematicOrStratified G ssCount false w k j < n) ∧
    (∀ w : Fin n → ℝ, (∀ i, 0 ≤ w i) → ∑ i, w i = 1 → ∀ i : Fin n,
      ∑ j, ρ {k | Prng.systematicOrStratified G ssCount false w k j = i} = ENNReal.ofReal (n * w i)) ∧
    ∀ w : Fin n → ℝ, (∀ i, 0 ≤ w i) → ∑ i, w i = 1 → ∀ φ : Fin n → ℝ,
      ∫ k, ((∑ j, gather φ (Prng.systematicOrStratified G ssCount false w k) j) / n - ∑ i, w i * φ i) ^ 2 ∂ρ
        ≤ (∑ i, w i * (φ i - ∑ i, w i * φ i) ^ 2) / n := by
  have := hG.prob
  refine C148_schemes ρ (Prng.systematicOrStratified G ssCount false) (Or.inl ⟨fun k i => G.uniform k n i,
    measurable_pi_lambda _ fun i => hG.measurable_uniform _ _, hG.uniforms n, fun w k j => ?_⟩)
  simp only [Prng.systematicOrStratified, Resampling.stratified, sos_getD, Bool.false_eq_true, if_false]
  simp [extend]

/-- the particle averages of an integrable function tend in probability to its expectation under the law that the Kalman filter returns. -/
theorem pf_average {G : Gen K} {ρ : Measure K} (hG : IdealGen G ρ) {F Sigma R mean0 var0 : ℝ} (hS : 0 < Sigma) (hR : 0 < R) (hv0 : 0 < var0) (ys : List ℝ)
    (t : ℕ) (ht : t < ys.length) (f : ℝ → ℝ) (hf : Measurable f)
    (hi : Integrable f (gaussianReal ((kf F Sigma R mean0 var0 ys).1.getD t (0, 0)).1 ((kf F Sigma R mean0 var0 ys).1.getD t (0, 0)).2.toNNReal))
    (ε : ℝ) (hε : 0 < ε) :
    Tendsto (fun n : ℕ => ρ.real {key | ε ≤ |(∑ j, f ((pfSamples G ssCount F Sigma R mean0 var0 (n + 1) ys key).getD t (pfInit G mean0 var0 key) j)) / (n + 1 : ℕ)
      - ∫ x, f x ∂gaussianReal ((kf F Sigma R mean0 var0 ys).1.getD t (0, 0)).1 ((kf F Sigma R mean0 var0 ys).1.getD t (0, 0)).2.toNNReal|}) atTop (𝓝 0) := by
  have := hG.prob
  have hSR : 0 < Sigma + R := by positivity
  have hpv := fun a y => proposal_var_pos (F := F) hS hR a y
  have hn : ∀ v : ℝ, 0 < v → v.toNNReal ≠ 0 := fun v hv => by rw [Ne, Real.toNNReal_eq_zero, not_le]; exact hv
  set c := (scan (kfBody F Sigma R) (mean0, var0, 0) (ys.take (t + 1))).1 with hc
  have hget : (kf F Sigma R mean0 var0 ys).1.getD t (0, 0) = (c.1, c.2.1) := kf_getD F Sigma R ys (mean0, var0, 0) t ht (0, 0)
  rw [hget] at hi ⊢
  have hη : ∀ φ : ℝ → ℝ, Measurable φ → ∀ B, (∀ x, |φ x| ≤ B) →
      ∫ x, markovE (linKernel F Sigma.toNNReal) (fun y z => normPdf y z (√R)) φ (ys.take (t + 1)) x ∂gaussianReal mean0 var0.toNNReal
        = Real.exp (0 - c.2.2) * ∫ x, φ x ∂gaussianReal c.1 c.2.1.toNNReal := fun φ hφ B hB =>
    (kf_markovE F hS hR hφ ⟨B, 0, fun x => by have := hB x; have := abs_nonneg (φ x); simp only [pow_zero]; linarith⟩ (ys.take (t + 1)) mean0 var0 0 hv0).2
  have hmean : ∀ y, Measurable fun a => (proposalMeanVar F Sigma R a y).1 := fun y => by simp only [proposalMeanVar]; fun_prop
  have hvar : ∀ y, Measurable fun a => (proposalMeanVar F Sigma R a y).2.toNNReal := fun y => by simp only [proposalMeanVar]; fun_prop
  rw [Metric.tendsto_atTop]
  intro δ hδ
  obtain ⟨Rc, hRc, hcut, N, hN⟩ := exists_cutoff (gaussianReal c.1 c.2.1.toNNReal) hf hi
    (4 * (2 * (t + 1) + 1) * (normPdf 0 0 (√(Sigma + R)) ^ (t + 1)) ^ 2) (Real.exp (0 - c.2.2)) (ε := ε / 3) (δ := δ / 2) (by positivity) (by positivity)
  refine ⟨N, fun n hn' => ?_⟩
  rw [Real.dist_0_eq_abs, abs_of_nonneg measureReal_nonneg]
  obtain ⟨hrm, hrange, hres, hvr⟩ := idealGen_stratified hG (n + 1)
  have h := C178_particle_prob (n := n + 1) (proposalSampler F Sigma R fun k i => G.normal k (n + 1) i)
    (fun x a y => normPdf x (proposalMeanVar F Sigma R a y).1 (√(proposalMeanVar F Sigma R a y).2)) (fun x a => normPdf x (F * a) (√Sigma))
    (fun y z => normPdf y z (√R)) ys (pfInit G mean0 var0) (Prng.systematicOrStratified G ssCount false) G.fst G.split
    (fun key i => G.key key ys.length i) ρ ρ ρ
    (fun y => normalKernel (fun a => (proposalMeanVar F Sigma R a y).1) (fun a => (proposalMeanVar F Sigma R a y).2.toNNReal) (hmean y) (hvar y))
    (linKernel F Sigma.toNNReal) volume (gaussianReal mean0 var0.toNNReal) (normPdf 0 0 (√(Sigma + R)))
    (fun y => by simp only [normPdf, normLogpdf, proposalMeanVar]; fun_prop) (by simp only [normPdf, normLogpdf]; fun_prop)
    (fun y => (normPdf_continuous y _).measurable) (fun _ _ _ => normPdf_pos _ _ _) (fun _ _ => normPdf_pos _ _ _) (fun _ _ => normPdf_pos _ _ _)
    (fun y x a => by
      rw [bayes_normal hS hR, mul_div_assoc, div_self (normPdf_pos _ _ _).ne', mul_one]
      refine (normPdf_le y _ hSR).trans (le_of_eq ?_)
      simp [normPdf, normLogpdf])
    (fun y a => by
      rw [normalKernel_apply, gaussianReal_of_var_ne_zero _ (hn _ (hpv a y))]
      congr 1; funext x; rw [expNormPdf_eq _ _ (hpv a y)]; rfl)
    (fun a => by
      rw [linKernel, normalKernel_apply, gaussianReal_of_var_ne_zero _ (hn _ hS)]
      congr 1; funext x; rw [expNormPdf_eq _ _ hS]; rfl)
    (fun y => by
      refine measurable_pi_lambda _ fun i => ?_
      have h1 : Measurable fun r : (Fin (n + 1) → ℝ) × K => r.1 i := (measurable_pi_apply i).comp measurable_fst
      have h2 : Measurable fun r : (Fin (n + 1) → ℝ) × K => G.normal r.2 (n + 1) i := (hG.measurable_normal _ _).comp measurable_snd
      simp only [proposalSampler, proposalMeanVar]
      fun_prop)
    hrm (hG.measurable_key 2 0)
    (fun key => by
      refine List.ext_getElem (by rw [hG.length, List.length_ofFn]) fun i h1 h2 => ?_
      simp [Gen.key, List.getD_eq_getElem?_getD, h1])
    (idealGen_normals hG ys.length (n + 1) (fun _ => mean0) (fun _ => var0) fun _ => hv0.le)
    (fun y s => idealGen_normals_fst hG (n + 1) _ _ fun i => (hpv (s i) y).le)
    hrange hres hvr t ht (gaussianReal c.1 c.2.1.toNNReal) (Real.exp (0 - c.2.2)) hη f hf hi (ε / 3) Rc (by positivity) hRc hcut
  simp only [mul_div_cancel₀ ε (three_ne_zero' ℝ)] at h
  refine lt_of_le_of_lt (le_trans h ?_) (half_lt_self hδ)
  have := hN (n + 1) (by omega)
  convert this using 4

/-- the same for the bootstrap filter: a case meeting the hypotheses of `C178_bootstrap_prob`. -/
theorem C178_linear_bootstrap {G : Gen K} {ρ : Measure K} (hG : IdealGen G ρ) {F Sigma R mean0 var0 : ℝ} (hS : 0 < Sigma) (hR : 0 < R) (hv0 : 0 < var0)
    (ys : List ℝ) (t : ℕ) (ht : t < ys.length) (f : ℝ → ℝ) (hf : Measurable f)
    (hi : Integrable f (gaussianReal ((kf F Sigma R mean0 var0 ys).1.getD t (0, 0)).1 ((kf F Sigma R mean0 var0 ys).1.getD t (0, 0)).2.toNNReal))
    (ε : ℝ) (hε : 0 < ε) :
    let out := fun n key => (Prng.bootstrapFilter (n := n + 1) G (scriptTransition G (fun x => F * x) fun _ => Sigma) (fun y s i => normPdf y (s i) (√R)) ys
      (pfInit G mean0 var0) key (resampleIdx (Prng.systematicOrStratified G ssCount false))).1.getD t (pfInit G mean0 var0 key)
    Tendsto (fun n : ℕ => ρ.real {key | ε ≤ |(∑ j, f (out n key j)) / (n + 1 : ℕ)
      - ∫ x, f x ∂gaussianReal ((kf F Sigma R mean0 var0 ys).1.getD t (0, 0)).1 ((kf F Sigma R mean0 var0 ys).1.getD t (0, 0)).2.toNNReal|}) atTop (𝓝 0) := by
  intro out
  have := hG.prob
  set c := (scan (kfBody F Sigma R) (mean0, var0, 0) (ys.take (t + 1))).1 with hc
  have hget : (kf F Sigma R mean0 var0 ys).1.getD t (0, 0) = (c.1, c.2.1) := kf_getD F Sigma R ys (mean0, var0, 0) t ht (0, 0)
  rw [hget] at hi ⊢
  have hη : ∀ φ : ℝ → ℝ, Measurable φ → ∀ B, (∀ x, |φ x| ≤ B) →
      ∫ x, markovE (linKernel F Sigma.toNNReal) (fun y z => normPdf y z (√R)) φ (ys.take (t + 1)) x ∂gaussianReal mean0 var0.toNNReal
        = Real.exp (0 - c.2.2) * ∫ x, φ x ∂gaussianReal c.1 c.2.1.toNNReal := fun φ hφ B hB =>
    (kf_markovE F hS hR hφ ⟨B, 0, fun x => by have := hB x; have := abs_nonneg (φ x); simp only [pow_zero]; linarith⟩ (ys.take (t + 1)) mean0 var0 0 hv0).2
  rw [Metric.tendsto_atTop]
  intro δ hδ
  obtain ⟨Rc, hRc, hcut, N, hN⟩ := exists_cutoff (gaussianReal c.1 c.2.1.toNNReal) hf hi
    (4 * (2 * (t + 1) + 1) * (normPdf 0 0 (√R) ^ (t + 1)) ^ 2) (Real.exp (0 - c.2.2)) (ε := ε / 3) (δ := δ / 2) (by positivity) (by positivity)
  refine ⟨N, fun n hn' => ?_⟩
  rw [Real.dist_0_eq_abs, abs_of_nonneg measureReal_nonneg]
  obtain ⟨hrm, hrange, hres, hvr⟩ := idealGen_stratified hG (n + 1)
  have h := C178_bootstrap_prob (n := n + 1) (scriptTransition G (fun x => F * x) fun _ => Sigma)
    (fun y z => normPdf y z (√R)) ys (pfInit G mean0 var0) (Prng.systematicOrStratified G ssCount false) G.fst G.split
    (fun key i => G.key key ys.length i) ρ ρ ρ
    (linKernel F Sigma.toNNReal) (gaussianReal mean0 var0.toNNReal) (normPdf 0 0 (√R))
    (fun y => (normPdf_continuous y _).measurable) (fun _ _ => normPdf_pos _ _ _)
    (fun y x => by
      refine (normPdf_le y _ hR).trans (le_of_eq ?_)
      simp [normPdf, normLogpdf])
    (by
      refine measurable_pi_lambda _ fun i => ?_
      have h2 : Measurable fun r : (Fin (n + 1) → ℝ) × K => G.normal r.2 (n + 1) i := (hG.measurable_normal _ _).comp measurable_snd
      simp only [scriptTransition]
      fun_prop)
    hrm (hG.measurable_key 2 0)
    (fun key => by
      refine List.ext_getElem (by rw [hG.length, List.length_ofFn]) fun i h1 h2 => ?_
      simp [Gen.key, List.getD_eq_getElem?_getD, h1])
    (idealGen_normals hG ys.length (n + 1) (fun _ => mean0) (fun _ => var0) fun _ => hv0.le)
    (fun s => idealGen_normals_fst hG (n + 1) _ _ fun i => hS.le)
    hrange hres hvr t ht (gaussianReal c.1 c.2.1.toNNReal) (Real.exp (0 - c.2.2)) hη f hf hi (ε / 3) Rc (by positivity) hRc hcut
  simp only [mul_div_cancel₀ ε (three_ne_zero' ℝ)] at h
  refine lt_of_le_of_lt (le_trans h ?_) (half_lt_self hδ)
  have := hN (n + 1) (by omega)
  convert this using 4

theorem errKl_small {trueM trueV : ℝ} (hv : 0 < trueV) {ε : ℝ} (hε : 0 < ε) :
    ∃ δ > 0, ∀ m v, |m - trueM| < δ → |v - trueV| < δ → |errKl m v trueM trueV| < ε := by
  have hc : ContinuousAt (fun p : ℝ × ℝ => errKl p.1 p.2 trueM trueV) (trueM, trueV) := by
    have h1 : ContinuousAt (fun p : ℝ × ℝ => Real.log p.2) (trueM, trueV) := (continuousAt_snd).log hv.ne'
    unfold errKl
    fun_prop
  have h0 : errKl trueM trueV trueM trueV = 0 := by simp [errKl]
  obtain ⟨δ, hδ, h⟩ := Metric.continuousAt_iff.1 hc ε hε
  refine ⟨δ, hδ, fun m v hm hv => ?_⟩
  have := @h (m, v) (by rw [Prod.dist_eq, max_lt_iff]; exact ⟨hm, hv⟩)
  simpa [h0, Real.dist_eq] using this

theorem sampleMeanVar_snd {n : ℕ} [NeZero n] (s : Fin n → ℝ) (c : ℝ) :
    (sampleMeanVar s).2 = (∑ i, (s i - c) ^ 2) / n - ((sampleMeanVar s).1 - c) ^ 2 := by
  have hn : (n : ℝ) ≠ 0 := by exact_mod_cast NeZero.ne n
  simp only [sampleMeanVar]
  set m := (∑ i, s i) / n with hm
  have hs : ∑ i, s i = n * m := by rw [hm]; field_simp
  have e : ∑ i, (s i - c) ^ 2 = ∑ i, (s i - m) ^ 2 + n * (m - c) ^ 2 := by
    have : ∀ i, (s i - c) ^ 2 = (s i - m) ^ 2 + 2 * (m - c) * (s i - m) + (m - c) ^ 2 := fun i => by ring
    simp only [this, Finset.sum_add_distrib, ← Finset.mul_sum, Finset.sum_sub_distrib, hs, Finset.sum_const, Finset.card_univ, Fintype.card_fin, nsmul_eq_mul]
    ring
  rw [e]
  field_simp
  ring

omit [MeasurableSpace K] in
/-- the errors at one time. -/
theorem pfErrors_getD (G : Gen K) (hl : ∀ k num, (G.split k num).length = num) (ss : List ℝ → ℝ → ℕ) (F Sigma R mean0 var0 : ℝ) (n : ℕ) [NeZero n]
    (ys : List ℝ) (key : K) (t : ℕ) (ht : t < ys.length) :
    (pfErrors G ss F Sigma R mean0 var0 n ys key).length = ys.length ∧
    (pfErrors G ss F Sigma R mean0 var0 n ys key).getD t (0, 0, 0)
      = let o := sampleMeanVar ((pfSamples G ss F Sigma R mean0 var0 n ys key).getD t (pfInit G mean0 var0 key))
        let tm := (kf F Sigma R mean0 var0 ys).1.getD t (0, 0)
        (|o.1 - tm.1|, |o.2 - tm.2|, errKl o.1 o.2 tm.1 tm.2) := by
  have h1 : (pfSamples G ss F Sigma R mean0 var0 n ys key).length = ys.length := by
    rw [pfSamples, particleFilter, scan_len, List.length_zip, hl, min_self]
  have h2 : (kf F Sigma R mean0 var0 ys).1.length = ys.length := scan_len _ _ _
  have h3 : (pfErrors G ss F Sigma R mean0 var0 n ys key).length = ys.length := by
    rw [pfErrors, List.length_zipWith, pf, List.length_map, h1, h2, min_self]
  refine ⟨h3, ?_⟩
  rw [List.getD_eq_getElem _ _ (by omega), List.getD_eq_getElem _ _ (by omega), List.getD_eq_getElem _ _ (by omega)]
  simp [pfErrors, pf]

/-- **C179.** For any measurements the errors of the mean and of the variance and the Kullback–Leibler error of the script tend to zero in
probability at every time as the number of particles grows, when the generator is ideal. -/
theorem C179_errors {G : Gen K} {ρ : Measure K} (hG : IdealGen G ρ) {ss : List ℝ → ℝ → ℕ} (hss : Resampling.SearchSorted ss) {F Sigma R mean0 var0 : ℝ}
    (hS : 0 < Sigma) (hR : 0 < R) (hv0 : 0 < var0) (ys : List ℝ) :
    (∀ n key, (pfErrors G ss F Sigma R mean0 var0 (n + 1) ys key).length = ys.length) ∧ ∀ t < ys.length, ∀ ε > 0,
    let e := fun n key => (pfErrors G ss F Sigma R mean0 var0 (n + 1) ys key).getD t (0, 0, 0)
    Tendsto (fun n => ρ.real {key | ε ≤ (e n key).1}) atTop (𝓝 0) ∧ Tendsto (fun n => ρ.real {key | ε ≤ (e n key).2.1}) atTop (𝓝 0) ∧
    Tendsto (fun n => ρ.real {key | ε ≤ |(e n key).2.2|}) atTop (𝓝 0) := by
  have := hG.prob
  refine ⟨fun n key => ?_, fun t ht ε hε => ?_⟩
  · rcases Nat.eq_zero_or_pos ys.length with h0 | h0
    · rw [List.length_eq_zero_iff.1 h0]; rfl
    · exact (pfErrors_getD G hG.length ss F Sigma R mean0 var0 (n + 1) ys key 0 h0).1
  intro e
  set tm := (kf F Sigma R mean0 var0 ys).1.getD t (0, 0) with htm
  have hvt : 0 < tm.2 := by
    have : tm = _ := kf_getD F Sigma R ys (mean0, var0, 0) t ht (0, 0)
    rw [this]
    exact (kf_markovE F hS hR measurable_const (PolyGrowth.const 1) _ mean0 var0 0 hv0).1
  set s := fun (n : ℕ) (key : K) => (pfSamples G ssCount F Sigma R mean0 var0 (n + 1) ys key).getD t (pfInit G mean0 var0 key) with hs
  have he : ∀ n key, e n key = (|(sampleMeanVar (s n key)).1 - tm.1|, |(sampleMeanVar (s n key)).2 - tm.2|,
      errKl (sampleMeanVar (s n key)).1 (sampleMeanVar (s n key)).2 tm.1 tm.2) := fun n key => by
    have := (pfErrors_getD G hG.length ss F Sigma R mean0 var0 (n + 1) ys key t ht).2
    rw [pfSamples_ss G hss] at this
    exact this
  have hsq : ∀ {a b : ℕ → Set K} {c : ℕ → Set K}, (∀ n, c n ⊆ a n ∪ b n) → Tendsto (fun n => ρ.real (a n)) atTop (𝓝 0) →
      Tendsto (fun n => ρ.real (b n)) atTop (𝓝 0) → Tendsto (fun n => ρ.real (c n)) atTop (𝓝 0) := fun {a b c} hsub ha hb => by
    refine squeeze_zero (fun n => measureReal_nonneg) (fun n => (measureReal_mono (hsub n)).trans (measureReal_union_le _ _)) ?_
    simpa using ha.add hb
  have hmean : ∀ ε > 0, Tendsto (fun n => ρ.real {key | ε ≤ |(sampleMeanVar (s n key)).1 - tm.1|}) atTop (𝓝 0) := fun ε hε => by
    have h := pf_average hG (F := F) (mean0 := mean0) hS hR hv0 ys t ht (fun x => x) measurable_id
      (by rw [← htm]; simpa using integrable_pow_gaussianReal tm.1 tm.2.toNNReal 1) ε hε
    rw [← htm, integral_id_gaussianReal] at h
    exact h
  have hvar : ∀ ε > 0, Tendsto (fun n => ρ.real {key | ε ≤ |(sampleMeanVar (s n key)).2 - tm.2|}) atTop (𝓝 0) := fun ε hε => by
    have h := pf_average hG (F := F) (mean0 := mean0) hS hR hv0 ys t ht (fun x => (x - tm.1) ^ 2) (by fun_prop) (by
      have h0 := integrable_pow_gaussianReal tm.1 tm.2.toNNReal
      have : (fun x : ℝ => (x - tm.1) ^ 2) = fun x => x ^ 2 - 2 * tm.1 * x ^ 1 + tm.1 ^ 2 := by funext x; ring
      rw [← htm, this]
      exact ((h0 2).sub ((h0 1).const_mul _)).add (integrable_const _)) (ε / 2) (by positivity)
    rw [← htm, integral_sub_sq_gaussian _ _ hvt.le, sub_self, zero_pow two_ne_zero, add_zero] at h
    refine hsq (fun n key hk => ?_) h (hmean (√(ε / 2)) (by positivity))
    simp only [Set.mem_ofPred_eq, Set.mem_union] at hk ⊢
    by_contra hcon
    rw [not_or, not_le, not_le] at hcon
    have h2 : ((sampleMeanVar (s n key)).1 - tm.1) ^ 2 < ε / 2 := by
      rw [← sq_abs]
      calc _ < √(ε / 2) ^ 2 := by gcongr; exact hcon.2
        _ = ε / 2 := Real.sq_sqrt (by positivity)
    rw [sampleMeanVar_snd (s n key) tm.1] at hk
    have h3 := hcon.1
    rw [abs_lt] at h3
    have h4 := sq_nonneg ((sampleMeanVar (s n key)).1 - tm.1)
    rcases le_abs.1 hk with h5 | h5 <;> linarith
  simp only [he]
  refine ⟨hmean ε hε, hvar ε hε, ?_⟩
  obtain ⟨δ, hδ, hd⟩ := errKl_small (trueM := tm.1) hvt hε
  refine hsq (fun n key hk => ?_) (hmean δ hδ) (hvar δ hδ)
  simp only [Set.mem_ofPred_eq, Set.mem_union] at hk ⊢
  by_contra hcon
  rw [not_or, not_le, not_le] at hcon
  exact absurd (hd _ _ hcon.1 hcon.2) (not_lt.2 hk)

/-! ## Convergence of the whole script -/

/-- the entries of a scan depend measurably on the carry and on the elements. -/
theorem measurable_scan {Ω C E O : Type} [MeasurableSpace Ω] [MeasurableSpace C] [MeasurableSpace E] [MeasurableSpace O] {f : C → E → C × O}
    (hf : Measurable fun p : C × E => f p.1 p.2) (l : List (Ω → E)) (hl : ∀ e ∈ l, Measurable e) {c : Ω → C} (hc : Measurable c) {d : Ω → O}
    (hd : Measurable d) (t : ℕ) : Measurable fun ω => (scan f (c ω) (l.map fun e => e ω)).2.getD t (d ω) := by
  induction l generalizing c t with
  | nil => simpa [scan] using hd
  | cons e l ih =>
    have h1 : Measurable fun ω => f (c ω) (e ω) := hf.comp (hc.prodMk (hl e (by simp)))
    cases t with
    | zero => simpa [scan] using h1.snd
    | succ t => simpa [scan] using ih (fun e he => hl e (by simp [he])) h1.fst t

/-- the particles depend measurably on measurements and key. -/
theorem measurable_pfSamples {G : Gen K} {ρ : Measure K} (hG : IdealGen G ρ) (F Sigma R mean0 var0 : ℝ) (n : ℕ) [NeZero n] (T t : ℕ) :
    Measurable fun p : (Fin T → ℝ) × K => (pfSamples G ssCount F Sigma R mean0 var0 n (List.ofFn p.1) p.2).getD t (pfInit G mean0 var0 p.2) := by
  have hinit : Measurable fun k => pfInit G mean0 var0 (n := n) k :=
    measurable_pi_lambda _ fun i => ((hG.measurable_normal n i).const_mul _).const_add _
  have hbody : Measurable fun p : (Fin n → ℝ) × ℝ × K => particleBody (proposalSampler F Sigma R fun k i => G.normal k n i) (proposalDensity F Sigma R)
      (transitionDensity F Sigma) (measurementPdf R) (Prng.systematicOrStratified G ssCount false) G.fst p.1 p.2 := by
    have hprop : Measurable fun p : (Fin n → ℝ) × ℝ × K => proposalSampler F Sigma R (fun k i => G.normal k n i) p.1 p.2.1 p.2.2 := by
      refine measurable_pi_lambda _ fun i => ?_
      have h2 : Measurable fun p : (Fin n → ℝ) × ℝ × K => G.normal p.2.2 n i := (hG.measurable_normal n i).comp (measurable_snd.comp measurable_snd)
      simp only [proposalSampler, proposalMeanVar]
      fun_prop
    have hw : Measurable fun (p : (Fin n → ℝ) × (Fin n → ℝ) × ℝ) (i : Fin n) =>
        measurementPdf R p.2.2 p.1 i * transitionDensity F Sigma p.1 p.2.1 i / proposalDensity F Sigma R p.1 p.2.1 p.2.2 i := by
      refine measurable_pi_lambda _ fun i => ?_
      simp only [measurementPdf, transitionDensity, proposalDensity, normPdf, normLogpdf, proposalMeanVar]
      fun_prop
    have hwn : Measurable fun (w : Fin n → ℝ) i => w i / ∑ i, w i := by fun_prop
    have hw2 := hwn.comp (hw.comp (hprop.prodMk (measurable_fst.prodMk (measurable_fst.comp measurable_snd))))
    have hidx := (idealGen_stratified hG n).1.comp (hw2.prodMk ((hG.measurable_key 2 0).comp (measurable_snd.comp measurable_snd)))
    have hs := measurable_gather.comp (hprop.prodMk hidx)
    exact hs.prodMk hs
  have h := measurable_scan hbody (Ω := (Fin T → ℝ) × K) (List.ofFn fun (i : Fin T) (p : (Fin T → ℝ) × K) => (p.1 i, G.key p.2 T i))
    (fun e he => by
      obtain ⟨i, rfl⟩ := List.mem_ofFn.1 he
      exact ((measurable_pi_apply i).comp measurable_fst).prodMk ((hG.measurable_key T i).comp measurable_snd))
    (hinit.comp measurable_snd) (hinit.comp measurable_snd) t
  have e : ∀ p : (Fin T → ℝ) × K, ((List.ofFn fun (i : Fin T) (p : (Fin T → ℝ) × K) => (p.1 i, G.key p.2 T i)).map fun e => e p)
      = (List.ofFn p.1).zip (G.split p.2 (List.ofFn p.1).length) := fun p => by
    refine List.ext_getElem (by simp [hG.length]) fun i h1 h2 => ?_
    simp [Gen.key, List.getD_eq_getElem?_getD, hG.length]
  simp only [e] at h
  exact h

/-- the errors are measurable in measurements and key together. -/
theorem measurable_pfErrors {G : Gen K} {ρ : Measure K} (hG : IdealGen G ρ) {ss : List ℝ → ℝ → ℕ} (hss : Resampling.SearchSorted ss) (F Sigma R mean0 var0 : ℝ)
    (n : ℕ) [NeZero n] (T t : ℕ) (ht : t < T) :
    Measurable fun p : (Fin T → ℝ) × K => (pfErrors G ss F Sigma R mean0 var0 n (List.ofFn p.1) p.2).getD t (0, 0, 0) := by
  have h1 := measurable_pfSamples hG F Sigma R mean0 var0 n T t
  have h2 : Measurable fun s : Fin n → ℝ => sampleMeanVar s := by
    simp only [sampleMeanVar]
    fun_prop
  have h3 : Measurable fun y : Fin T → ℝ => (kf F Sigma R mean0 var0 (List.ofFn y)).1.getD t (0, 0) := by
    have hb : Measurable fun p : (ℝ × ℝ × ℝ) × ℝ => kfBody F Sigma R p.1 p.2 := by
      simp only [kfBody, normLogpdf]
      fun_prop
    have := measurable_scan hb (Ω := Fin T → ℝ) (List.ofFn fun (i : Fin T) (y : Fin T → ℝ) => y i)
      (fun e he => by obtain ⟨i, rfl⟩ := List.mem_ofFn.1 he; exact measurable_pi_apply i)
      (measurable_const (a := (mean0, var0, (0 : ℝ)))) (measurable_const (a := ((0 : ℝ), (0 : ℝ)))) t
    simp only [List.map_ofFn] at this
    exact this
  have h4 : Measurable fun p : (ℝ × ℝ) × (ℝ × ℝ) => (|p.1.1 - p.2.1|, |p.1.2 - p.2.2|, errKl p.1.1 p.1.2 p.2.1 p.2.2) := by
    simp only [errKl]
    fun_prop
  have h5 := h4.comp ((h2.comp h1).prodMk (h3.comp measurable_fst))
  refine Eq.mp (congrArg Measurable (funext fun p => ?_)) h5
  have := (pfErrors_getD G hG.length ss F Sigma R mean0 var0 n (List.ofFn p.1) p.2 t (by simpa using ht)).2
  rw [pfSamples_ss G hss] at this
  exact this.symm

theorem tendsto_prod_real {A : Type} [MeasurableSpace A] (μ : Measure A) [IsProbabilityMeasure μ] (ρ : Measure K) [IsProbabilityMeasure ρ]
    (S : ℕ → Set (A × K)) (hS : ∀ n, MeasurableSet (S n)) (h : ∀ a, Tendsto (fun n => ρ.real (Prod.mk a ⁻¹' S n)) atTop (𝓝 0)) :
    Tendsto (fun n => (μ.prod ρ).real (S n)) atTop (𝓝 0) := by
  have h1 : Tendsto (fun n => ∫⁻ a, ρ (Prod.mk a ⁻¹' S n) ∂μ) atTop (𝓝 (∫⁻ _, 0 ∂μ)) := by
    refine tendsto_lintegral_of_dominated_convergence (fun _ => 1) (fun n => measurable_measure_prodMk_left (hS n)) (fun n => ae_of_all _ fun a => prob_le_one)
      (by simp) (ae_of_all _ fun a => ?_)
    have := (ENNReal.tendsto_ofReal (h a))
    simpa [measureReal_def] using this
  rw [lintegral_zero] at h1
  have h2 := (ENNReal.tendsto_toReal ENNReal.zero_ne_top).comp h1
  simp only [ENNReal.toReal_zero] at h2
  refine h2.congr fun n => ?_
  rw [Function.comp, measureReal_def, Measure.prod_apply (hS n)]

/-- the law of the draws of the script: standard normals for the states and for the measurements, and an independent key for the filter. -/
theorem pfScript_law {G : Gen K} {ρ : Measure K} (hG : IdealGen G ρ) (T : ℕ) :
    ρ.map (fun key => (((fun i : Fin T => G.normal (G.key key 2 0) T i), fun i : Fin T => G.normal (G.key key 2 1) T i), G.fst (G.key key 2 1)))
      = ((Measure.pi fun _ => gaussianReal 0 1).prod (Measure.pi fun _ => gaussianReal 0 1)).prod ρ := by
  have := hG.prob
  have hmn : ∀ num, Measurable fun k => ((fun i : Fin T => G.normal k T i), fun i : Fin num => G.key k num i) := fun num =>
    (measurable_pi_lambda _ fun i => hG.measurable_normal _ _).prodMk (measurable_pi_lambda _ fun i => hG.measurable_key _ _)
  have h1 : ρ.map (fun k => (G.key k 2 0, G.key k 2 1)) = ρ.prod ρ := by
    have h := congrArg (fun m => (m.map Prod.snd).map (MeasurableEquiv.finTwoArrow (α := K))) (hG.normals 2 T)
    simp only [Measure.map_snd_prod, measure_univ, one_smul] at h
    rw [(measurePreserving_finTwoArrow ρ).map_eq, Measure.map_map measurable_snd (hmn 2), Measure.map_map (MeasurableEquiv.measurable _) (measurable_snd.comp (hmn 2))] at h
    exact h
  have h2 : ρ.map (fun k (i : Fin T) => G.normal k T i) = Measure.pi fun _ => gaussianReal 0 1 := by
    have h := congrArg (fun m => m.map Prod.fst) (hG.normals 2 T)
    simp only [Measure.map_fst_prod, measure_univ, one_smul] at h
    rw [Measure.map_map measurable_fst (hmn 2)] at h
    exact h
  have h3 : ρ.map (fun k => ((fun i : Fin T => G.normal k T i), G.fst k)) = (Measure.pi fun _ => gaussianReal 0 1).prod ρ := by
    have h := idealGen_normals_fst hG T (fun _ => 0) (fun _ => 1) fun _ => zero_le_one
    simpa using h
  have hm2 : Measurable fun k (i : Fin T) => G.normal k T i := measurable_pi_lambda _ fun i => hG.measurable_normal _ _
  have hm3 : Measurable fun k => ((fun i : Fin T => G.normal k T i), G.fst k) := hm2.prodMk (hG.measurable_key 2 0)
  have h4 := Measure.map_prod_map ρ ρ hm2 hm3
  rw [h2, h3] at h4
  have hm1 : Measurable fun k => (G.key k 2 0, G.key k 2 1) := (hG.measurable_key 2 0).prodMk (hG.measurable_key 2 1)
  rw [← h1, Measure.map_map (hm2.prodMap hm3) hm1] at h4
  have h5 := congrArg (fun m => m.map MeasurableEquiv.prodAssoc.symm) h4
  simp only at h5
  rw [Measure.map_map (MeasurableEquiv.measurable _) ((hm2.prodMap hm3).comp hm1), ← Measure.prodAssoc_prod,
    Measure.map_map (MeasurableEquiv.measurable _) (MeasurableEquiv.measurable _)] at h5
  rw [show (MeasurableEquiv.prodAssoc.symm ∘ MeasurableEquiv.prodAssoc : ((Fin T → ℝ) × (Fin T → ℝ)) × K → _) = id from funext fun _ => rfl, Measure.map_id] at h5
  exact h5.symm

/-- **C179.** The three errors that the script computes from one random key (simulating states and measurements, running the Kalman filter and
the particle filter) tend to zero in probability, at every time, as the number of particles grows. -/
theorem C179_script {G : Gen K} {ρ : Measure K} (hG : IdealGen G ρ) {ss : List ℝ → ℝ → ℕ} (hss : Resampling.SearchSorted ss) (B : Backend)
    {ell sigma dt R mean0 var0 : ℝ} (hell : 0 < ell) (hsigma : sigma ≠ 0) (hdt : 0 < dt) (hR : 0 < R) (hv0 : 0 < var0) (T : ℕ) :
    (∀ n key, (pfScript G ss B ell sigma dt R mean0 var0 (n + 1) T key).length = T) ∧ ∀ t < T, ∀ ε > 0,
    let e := fun n key => (pfScript G ss B ell sigma dt R mean0 var0 (n + 1) T key).getD t (0, 0, 0)
    Tendsto (fun n => ρ.real {key | ε ≤ (e n key).1}) atTop (𝓝 0) ∧ Tendsto (fun n => ρ.real {key | ε ≤ (e n key).2.1}) atTop (𝓝 0) ∧
    Tendsto (fun n => ρ.real {key | ε ≤ |(e n key).2.2|}) atTop (𝓝 0) := by
  have := hG.prob
  have hS : 0 < ouSigma ell sigma dt := by
    have : Real.exp (-2 * dt / ell) < 1 := by
      rw [Real.exp_lt_one_iff]
      have : 0 < 2 * dt / ell := by positivity
      have e : -2 * dt / ell = -(2 * dt / ell) := by ring
      linarith
    rw [ouSigma]
    exact mul_pos (by positivity) (by linarith)
  have hlen : ∀ key, (pfData G B ell sigma dt R T key).length = T := fun key => by simp [pfData]
  refine ⟨fun n key => ?_, fun t ht ε hε => ?_⟩
  · have h := (C179_errors hG hss (F := ouF ell dt) (mean0 := mean0) hS hR hv0 (pfData G B ell sigma dt R T key)).1 n (G.fst (G.key key 2 1))
    rw [hlen] at h
    exact h
  intro e
  -- the measurements as a function of the draws
  set yf : (Fin T → ℝ) × (Fin T → ℝ) → Fin T → ℝ := fun z i => ouSimulate B ell sigma dt z.1 i + √R * z.2 i with hyf
  have hym : Measurable yf := by
    refine measurable_pi_lambda _ fun i => ?_
    simp only [hyf, ouSimulate, Matrix.mulVec, dotProduct]
    fun_prop
  set E := fun (n : ℕ) (p : ((Fin T → ℝ) × (Fin T → ℝ)) × K) =>
    (pfErrors G ss (ouF ell dt) (ouSigma ell sigma dt) R mean0 var0 (n + 1) (List.ofFn (yf p.1)) p.2).getD t (0, 0, 0) with hE
  have hEm : ∀ n, Measurable (E n) := fun n =>
    (measurable_pfErrors hG hss (ouF ell dt) (ouSigma ell sigma dt) R mean0 var0 (n + 1) T t ht).comp ((hym.comp measurable_fst).prodMk measurable_snd)
  have hlaw := pfScript_law hG T
  set D := fun key => (((fun i : Fin T => G.normal (G.key key 2 0) T i), fun i : Fin T => G.normal (G.key key 2 1) T i), G.fst (G.key key 2 1)) with hD
  have hDm : Measurable D :=
    ((measurable_pi_lambda _ fun i : Fin T => (hG.measurable_normal T i).comp (hG.measurable_key 2 0)).prodMk
      (measurable_pi_lambda _ fun i : Fin T => (hG.measurable_normal T i).comp (hG.measurable_key 2 1))).prodMk ((hG.measurable_key 2 0).comp (hG.measurable_key 2 1))
  have main : ∀ φ : ℝ × ℝ × ℝ → ℝ, Measurable φ →
      (∀ ys : List ℝ, ys.length = T → Tendsto (fun n => ρ.real {key | ε ≤ φ ((pfErrors G ss (ouF ell dt) (ouSigma ell sigma dt) R mean0 var0 (n + 1) ys key).getD t (0, 0, 0))})
        atTop (𝓝 0)) → Tendsto (fun n => ρ.real {key | ε ≤ φ (e n key)}) atTop (𝓝 0) := by
    intro φ hφ h
    have hm : ∀ n, MeasurableSet {p | ε ≤ φ (E n p)} := fun n => measurableSet_le measurable_const (hφ.comp (hEm n))
    have h1 := tendsto_prod_real ((Measure.pi fun _ : Fin T => gaussianReal 0 1).prod (Measure.pi fun _ : Fin T => gaussianReal 0 1)) ρ
      (fun n => {p | ε ≤ φ (E n p)}) hm (fun a => h (List.ofFn (yf a)) (by simp))
    refine h1.congr fun n => ?_
    rw [← hlaw, measureReal_def, measureReal_def, Measure.map_apply hDm (hm n)]
    rfl
  have hfix := fun (ys : List ℝ) (hy : ys.length = T) =>
    (C179_errors hG hss (F := ouF ell dt) (mean0 := mean0) hS hR hv0 ys).2 t (by omega) ε hε
  exact ⟨main (fun x => x.1) measurable_fst fun ys hy => (hfix ys hy).1,
    main (fun x => x.2.1) (measurable_fst.comp measurable_snd) fun ys hy => (hfix ys hy).2.1,
    main (fun x => |x.2.2|) (measurable_snd.comp measurable_snd).abs fun ys hy => (hfix ys hy).2.2⟩

/-! ## The hypotheses can be met -/

/-- the script as it stands, with trees of draws as keys. -/
example (B : Backend) (T t : ℕ) (ht : t < T) (ε : ℝ) (hε : 0 < ε) :
    Tendsto (fun n => treeLaw.real {key | ε ≤ ((pfScript treeGen ssCount B 1 0.5 1e-1 1 0 (0.5 ^ 2) (n + 1) T key).getD t (0, 0, 0)).1}) atTop (𝓝 0) :=
  ((C179_script treeGen_ideal (fun _ _ _ => rfl) B one_pos (by norm_num) (by norm_num) one_pos (by norm_num) T).2 t ht ε hε).1

example : (pfScriptKeys freeGen 100 (.seed 666)).Nodup ∧ (pfScriptKeys prefixGen 100 (.seed 666)).Nodup :=
  ⟨(C179_keys 100).1 _ (fun _ _ => rfl) _, (C179_keys 100).2 _ (fun _ _ => rfl) _⟩

end Mfs.Props

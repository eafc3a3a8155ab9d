import Verif.Lemmas.PathLaw
import Verif.Lemmas.GaussDensity
import Verif.Lemmas.Backend
import Verif.Props.Lti
import Verif.Props.Utils
import Verif.Props.Tracking
import Verif.Props.SimulateKeys
import Mathlib.MeasureTheory.Measure.CharacteristicFunction.Basic

/-!
# C207: on linear equations `simulate_sde` is exact for every number of integration steps
-/

namespace Mfs.Props

open Mfs.Spec Mfs.Utils Mfs.PathLaw Mfs.Lemmas MeasureTheory ProbabilityTheory Matrix WithLp

variable {d w : ℕ}

/-- the normal law on plain vectors. -/
noncomputable def normalLaw (m : Fin d → ℝ) (S : Matrix (Fin d) (Fin d) ℝ) : Measure (Fin d → ℝ) := (multivariateGaussian (toLp 2 m) S).map ofLp

instance (m : Fin d → ℝ) (S : Matrix (Fin d) (Fin d) ℝ) : IsProbabilityMeasure (normalLaw m S) :=
  Measure.isProbabilityMeasure_map (by fun_prop)

theorem measurable_mulVec (F : Matrix (Fin d) (Fin d) ℝ) : Measurable fun x : Fin d → ℝ => F *ᵥ x := by
  have : Continuous (toLin' F) := LinearMap.continuous_on_pi _
  exact this.measurable

/-- standard normal draws give the normal law. -/
theorem stdNormal_map (m : Fin d → ℝ) (L : Matrix (Fin d) (Fin d) ℝ) :
    (Measure.pi fun _ : Fin d => gaussianReal 0 1).map (fun z => m + L *ᵥ z) = normalLaw m (L * Lᵀ) := by
  have hL := measurable_mulVec L
  rw [normalLaw, ← Lemmas.map_stdGaussian, Measure.map_map (by fun_prop) (by fun_prop)]
  rfl

theorem normalLaw_add (m a : Fin d → ℝ) (Q : Matrix (Fin d) (Fin d) ℝ) : (normalLaw a Q).map (fun y => m + y) = normalLaw (m + a) Q := by
  rw [normalLaw, normalLaw, multivariateGaussian, multivariateGaussian, Measure.map_map (by fun_prop) (by fun_prop), Measure.map_map (by fun_prop) (by fun_prop),
    Measure.map_map (by fun_prop) (by fun_prop)]
  congr 1
  funext x
  simp [add_assoc]

/-- sums of independent normal vectors. -/
theorem normal_conv (a b : EuclideanSpace ℝ (Fin d)) {S Q : Matrix (Fin d) (Fin d) ℝ} (hS : S.PosSemidef) (hQ : Q.PosSemidef) :
    (multivariateGaussian a S).conv (multivariateGaussian b Q) = multivariateGaussian (a + b) (S + Q) := by
  apply Measure.ext_of_charFun (E := EuclideanSpace ℝ (Fin d))
  funext t
  rw [charFun_conv, charFun_multivariateGaussian hS, charFun_multivariateGaussian hQ, charFun_multivariateGaussian (hS.add hQ), ← Complex.exp_add, inner_add_right, add_mulVec,
    dotProduct_add]
  congr 1
  push_cast
  ring

/-- the transition of a linear model. -/
noncomputable def linTransition (F Q : Matrix (Fin d) (Fin d) ℝ) : Kernel (Fin d → ℝ) (Fin d → ℝ) := drawKernel (fun x y => F *ᵥ x + y) (normalLaw 0 Q)

theorem linTransition_apply (F Q : Matrix (Fin d) (Fin d) ℝ) (x : Fin d → ℝ) : linTransition F Q x = normalLaw (F *ᵥ x) Q := by
  have hF := measurable_mulVec F
  rw [linTransition, drawKernel_apply (by fun_prop), normalLaw_add, add_zero]

instance (F Q : Matrix (Fin d) (Fin d) ℝ) : IsMarkovKernel (linTransition F Q) := ⟨fun x => by rw [linTransition_apply]; infer_instance⟩

/-- one linear transition of a normal law. -/
theorem normalLaw_bind (F Q L : Matrix (Fin d) (Fin d) ℝ) (m : Fin d → ℝ) (hQ : Q.PosSemidef) :
    (normalLaw m (L * Lᵀ)).bind (linTransition F Q) = normalLaw (F *ᵥ m) (F * (L * Lᵀ) * Fᵀ + Q) := by
  have hps : ((F * L) * (F * L)ᵀ).PosSemidef := by
    rw [← Matrix.conjTranspose_eq_transpose_of_trivial]; exact Matrix.posSemidef_self_mul_conjTranspose _
  have hL := measurable_mulVec L
  have hFL := measurable_mulVec (F * L)
  have hF := measurable_mulVec F
  have e1 : F * (L * Lᵀ) * Fᵀ = (F * L) * (F * L)ᵀ := by rw [transpose_mul]; simp only [Matrix.mul_assoc]
  have e2 : toLp 2 (F *ᵥ m) = toLp 2 (F *ᵥ m) + toLp 2 (0 : Fin d → ℝ) := by simp
  refine Measure.ext_of_lintegral _ fun f hf => ?_
  rw [Measure.lintegral_bind (Kernel.aemeasurable _) hf.aemeasurable, e1, normalLaw, normalLaw, lintegral_map hf (by fun_prop), e2, ← normal_conv _ _ hps hQ,
    Measure.lintegral_conv (by fun_prop), lintegral_map (by fun_prop) (by fun_prop), ← Lemmas.map_stdGaussian, ← Lemmas.map_stdGaussian, lintegral_map (by fun_prop) (by fun_prop),
    lintegral_map (by fun_prop) (by fun_prop)]
  refine lintegral_congr fun z => ?_
  rw [linTransition_apply, show F *ᵥ ofLp (toLp 2 (m + L *ᵥ z)) = (F *ᵥ m + (F * L) *ᵥ z) + 0 by simp [mulVec_add], ← normalLaw_add, normalLaw, lintegral_map hf (by fun_prop),
    lintegral_map (by fun_prop) (by fun_prop)]
  rfl

theorem normalLaw_zero (m : Fin d → ℝ) : normalLaw m 0 = Measure.dirac m := by
  rw [show (0 : Matrix (Fin d) (Fin d) ℝ) = 0 * 0ᵀ by simp, ← stdNormal_map]
  simp

theorem discretise_zero (A : Matrix (Fin d) (Fin d) ℝ) (Bm : Matrix (Fin d) (Fin w) ℝ) : discretiseLtiSde A Bm 0 = (1, 0) := by
  have h := C54_discretise A Bm
  refine Prod.ext ?_ ?_
  · rw [h.1]; simp
  · ext i j
    rw [h.2.1]; simp

/-- `m_and_cov` of a linear equation. -/
noncomputable def linMAndCov (A : Matrix (Fin d) (Fin d) ℝ) (Bm : Matrix (Fin d) (Fin w) ℝ) (x : Fin d → ℝ) (h : ℝ) : (Fin d → ℝ) × Matrix (Fin d) (Fin d) ℝ :=
  ((discretiseLtiSde A Bm h).1 *ᵥ x, (discretiseLtiSde A Bm h).2)

theorem integrationBody_linear (B : Backend) (hB : B.Valid) (A : Matrix (Fin d) (Fin d) ℝ) (Bm : Matrix (Fin d) (Fin w) ℝ) {h : ℝ} (hQ : (discretiseLtiSde A Bm h).2.PosDef) :
    ∃ L : Matrix (Fin d) (Fin d) ℝ, L * Lᵀ = (discretiseLtiSde A Bm h).2 ∧
      ∀ x z, integrationBody B (linMAndCov A Bm) h false x z = (discretiseLtiSde A Bm h).1 *ᵥ x + L *ᵥ z := by
  have hs : symmetrize (discretiseLtiSde A Bm h).2 = (discretiseLtiSde A Bm h).2 := Classical.symmetrize_psd hQ.posSemidef
  refine ⟨B.chol (discretiseLtiSde A Bm h).2, (hB.chol _ hQ).mul_transpose, fun x z => ?_⟩
  simp only [integrationBody, linMAndCov, hs, Bool.false_eq_true, if_false]

/-- the law after `n` draws of step `h` is the transition over `n h`. -/
theorem map_last_linear (B : Backend) (hB : B.Valid) (A : Matrix (Fin d) (Fin d) ℝ) (Bm : Matrix (Fin d) (Fin w) ℝ) {h : ℝ} (hh : 0 ≤ h)
    (hQ : (discretiseLtiSde A Bm h).2.PosDef) (n : ℕ) (x : Fin d → ℝ) :
    (Measure.pi fun _ : Fin n => Measure.pi fun _ : Fin d => gaussianReal 0 1).map (last (integrationBody B (linMAndCov A Bm) h false) n x)
      = linTransition (discretiseLtiSde A Bm (n * h)).1 (discretiseLtiSde A Bm (n * h)).2 x := by
  obtain ⟨L, hL, hg⟩ := integrationBody_linear B hB A Bm hQ
  have hLm := measurable_mulVec L
  have hFm := measurable_mulVec (discretiseLtiSde A Bm h).1
  have hgm : Measurable fun p : (Fin d → ℝ) × (Fin d → ℝ) => integrationBody B (linMAndCov A Bm) h false p.1 p.2 := by
    simp only [hg]
    fun_prop
  have C := C54_discretise A Bm
  induction n generalizing x with
  | zero =>
    have e : last (integrationBody B (linMAndCov A Bm) h false) 0 x = fun _ => x := rfl
    rw [e, linTransition_apply, Nat.cast_zero, zero_mul, discretise_zero, normalLaw_zero, one_mulVec]
    simp
  | succ n ih =>
    rw [map_last_succ hgm _ n _ ih x, show integrationBody B (linMAndCov A Bm) h false x = fun z => (discretiseLtiSde A Bm h).1 *ᵥ x + L *ᵥ z from funext (hg x), stdNormal_map,
      normalLaw_bind _ _ _ _ (C.2.2.2.2 _ (by positivity)), linTransition_apply, show ((n + 1 : ℕ) : ℝ) * h = h + n * h by push_cast; ring, C.2.2.1, C.2.2.2.1, hL, mulVec_mulVec]

theorem traj_eq_path {X Z : Type} (g : X → Z → X) (n T : ℕ) (x : X) (z : Fin T → Fin n → Z) :
    traj (fun x (inc : List Z) => inc.foldl g x) x (List.ofFn fun t => List.ofFn (z t)) = List.ofFn (path (last g n) T x z) := by
  induction T generalizing x with
  | zero => simp [traj]
  | succ T ih =>
    rw [List.ofFn_succ, traj, foldl_eq_last, ih, List.ofFn_succ (f := path (last g n) (T + 1) x z)]
    rfl

theorem simulateSde_linear (B : Backend) (A : Matrix (Fin d) (Fin d) ℝ) (Bm : Matrix (Fin d) (Fin w) ℝ) (dt : ℝ) (n T : ℕ) (x0 : Fin d → ℝ) :
    (fun (z : Fin T → Fin n → Fin d → ℝ) (t : Fin T) =>
        (simulateSde B (fun x h => ((discretiseLtiSde A Bm h).1 *ᵥ x, (discretiseLtiSde A Bm h).2)) x0 dt (List.ofFn fun t => List.ofFn (z t)) false n).getD t 0)
      = path (last (integrationBody B (linMAndCov A Bm) (dt / n) false) n) T x0 := by
  funext z t
  have := simulateSde_eq B (linMAndCov A Bm) x0 dt (List.ofFn fun t => List.ofFn (z t)) false n
  rw [traj_eq_path] at this
  rw [show (fun (x : Fin d → ℝ) (h : ℝ) => ((discretiseLtiSde A Bm h).1 *ᵥ x, (discretiseLtiSde A Bm h).2)) = linMAndCov A Bm from rfl, this]
  simp

theorem measurable_integrationBody_linear (B : Backend) (hB : B.Valid) (A : Matrix (Fin d) (Fin d) ℝ) (Bm : Matrix (Fin d) (Fin w) ℝ) {h : ℝ}
    (hQ : (discretiseLtiSde A Bm h).2.PosDef) : Measurable fun p : (Fin d → ℝ) × (Fin d → ℝ) => integrationBody B (linMAndCov A Bm) h false p.1 p.2 := by
  obtain ⟨L, hL, hg⟩ := integrationBody_linear B hB A Bm hQ
  have hLm := measurable_mulVec L
  have hFm := measurable_mulVec (discretiseLtiSde A Bm h).1
  simp only [hg]
  fun_prop

/-- **C207** On a linear equation `dX = A X dt + B dW` the trajectories of `simulate_sde` with the transition of `discretise_lti_sde` have, whatever the number of integration steps, exactly the
law of the Markov chain whose transition over `dt` is `N(F x, Q)` with `(F, Q) = discretise_lti_sde(A, B, dt)`. -/
theorem C207_exact (B : Backend) (hB : B.Valid) (A : Matrix (Fin d) (Fin d) ℝ) (Bm : Matrix (Fin d) (Fin w) ℝ) {dt : ℝ} (hdt : 0 ≤ dt) {n : ℕ} (hn : 0 < n)
    (hQ : (discretiseLtiSde A Bm (dt / n)).2.PosDef) (T : ℕ) (x0 : Fin d → ℝ) :
    (∀ F Q : Matrix (Fin d) (Fin d) ℝ, ∀ x, linTransition F Q x = (multivariateGaussian (toLp 2 (F *ᵥ x)) Q).map ofLp) ∧
    (Measure.pi fun _ : Fin T => Measure.pi fun _ : Fin n => Measure.pi fun _ : Fin d => gaussianReal 0 1).map (fun z (t : Fin T) =>
        (simulateSde B (fun x h => ((discretiseLtiSde A Bm h).1 *ᵥ x, (discretiseLtiSde A Bm h).2)) x0 dt (List.ofFn fun t => List.ofFn (z t)) false n).getD t 0)
      = pathKernel (linTransition (discretiseLtiSde A Bm dt).1 (discretiseLtiSde A Bm dt).2) T x0 := by
  refine ⟨fun F Q x => linTransition_apply F Q x, ?_⟩
  have hn0 : (n : ℝ) ≠ 0 := by positivity
  have hgm := measurable_integrationBody_linear B hB A Bm hQ
  have key := map_path (measurable_last hgm n) (Measure.pi fun _ : Fin n => Measure.pi fun _ : Fin d => gaussianReal 0 1)
    (linTransition (discretiseLtiSde A Bm dt).1 (discretiseLtiSde A Bm dt).2)
    (fun x => by rw [map_last_linear B hB A Bm (by positivity) hQ n x, mul_div_cancel₀ _ hn0]) T x0
  rw [← key, simulateSde_linear]

/-- **C207** The number of integration steps does not change the law. -/
theorem C207_steps (B : Backend) (hB : B.Valid) (A : Matrix (Fin d) (Fin d) ℝ) (Bm : Matrix (Fin d) (Fin w) ℝ) {dt : ℝ} (hdt : 0 ≤ dt) {n k : ℕ} (hn : 0 < n) (hk : 0 < k)
    (hQ : (discretiseLtiSde A Bm (dt / n)).2.PosDef) (hQ' : (discretiseLtiSde A Bm (dt / k)).2.PosDef) (T : ℕ) (x0 : Fin d → ℝ) :
    (Measure.pi fun _ : Fin T => Measure.pi fun _ : Fin n => Measure.pi fun _ : Fin d => gaussianReal 0 1).map (fun z (t : Fin T) =>
        (simulateSde B (fun x h => ((discretiseLtiSde A Bm h).1 *ᵥ x, (discretiseLtiSde A Bm h).2)) x0 dt (List.ofFn fun t => List.ofFn (z t)) false n).getD t 0)
      = (Measure.pi fun _ : Fin T => Measure.pi fun _ : Fin k => Measure.pi fun _ : Fin d => gaussianReal 0 1).map (fun z (t : Fin T) =>
        (simulateSde B (fun x h => ((discretiseLtiSde A Bm h).1 *ᵥ x, (discretiseLtiSde A Bm h).2)) x0 dt (List.ofFn fun t => List.ofFn (z t)) false k).getD t 0) := by
  rw [(C207_exact B hB A Bm hdt hn hQ T x0).2, (C207_exact B hB A Bm hdt hk hQ' T x0).2]

open scoped MatrixOrder Matrix.Norms.L2Operator in
/-- **C207** The transitions over consecutive times compose: observing a trajectory half as often gives the chain of the doubled time step. -/
theorem C207_semigroup (A : Matrix (Fin d) (Fin d) ℝ) (Bm : Matrix (Fin d) (Fin w) ℝ) {s t : ℝ} (ht : 0 ≤ t) (hQ : (discretiseLtiSde A Bm s).2.PosSemidef) :
    linTransition (discretiseLtiSde A Bm t).1 (discretiseLtiSde A Bm t).2 ∘ₖ linTransition (discretiseLtiSde A Bm s).1 (discretiseLtiSde A Bm s).2
      = linTransition (discretiseLtiSde A Bm (s + t)).1 (discretiseLtiSde A Bm (s + t)).2 := by
  have C := C54_discretise A Bm
  obtain ⟨M, hM⟩ := CStarAlgebra.nonneg_iff_eq_star_mul_self.1 (Matrix.nonneg_iff_posSemidef.2 hQ)
  have hM' : (discretiseLtiSde A Bm s).2 = Mᵀ * Mᵀᵀ := by rw [hM, transpose_transpose, star_eq_conjTranspose, conjTranspose_eq_transpose_of_trivial]
  ext1 x
  rw [Kernel.comp_apply, linTransition_apply, linTransition_apply, hM', normalLaw_bind _ _ _ _ (C.2.2.2.2 _ ht), C.2.2.1, C.2.2.2.1, ← hM', mulVec_mulVec]

example (T : ℕ) : (Measure.pi fun _ : Fin T => Measure.pi fun _ : Fin 10 => Measure.pi fun _ : Fin 2 => gaussianReal 0 1).map (fun z (t : Fin T) =>
        (simulateSde theBackend (fun x h => ((discretiseLtiSde Tracking.trackA Tracking.trackB h).1 *ᵥ x, (discretiseLtiSde Tracking.trackA Tracking.trackB h).2)) ![1, 2] (1 / 10)
          (List.ofFn fun t => List.ofFn (z t)) false 10).getD t 0)
      = (Measure.pi fun _ : Fin T => Measure.pi fun _ : Fin 1 => Measure.pi fun _ : Fin 2 => gaussianReal 0 1).map (fun z (t : Fin T) =>
        (simulateSde theBackend (fun x h => ((discretiseLtiSde Tracking.trackA Tracking.trackB h).1 *ᵥ x, (discretiseLtiSde Tracking.trackA Tracking.trackB h).2)) ![1, 2] (1 / 10)
          (List.ofFn fun t => List.ofFn (z t)) false 1).getD t 0) :=
  C207_steps theBackend theBackend_valid _ _ (by norm_num) (by norm_num) (by norm_num) ((C194_discretisation _).2 (by norm_num)) ((C194_discretisation _).2 (by norm_num)) T _

variable {K : Type} [MeasurableSpace K]

/-- the increments of `simulate_sde` are independent standard normal numbers. -/
theorem ideal_increments_nd {G : Prng.Gen K} {κ : Measure K} (hG : IdealGen G κ) (T n d : ℕ) :
    κ.map (fun k (t : Fin T) (s : Fin n) (j : Fin d) => G.normal (G.fst k) (T * n * d) ((t * n + s) * d + j))
      = Measure.pi fun _ : Fin T => Measure.pi fun _ : Fin n => Measure.pi fun _ : Fin d => gaussianReal 0 1 := by
  have hp := hG.prob
  have hpair2 : ∀ {a b : ℕ} (x : Fin a) (y : Fin b), (x : ℕ) * b + y < a * b := fun {a b} x y =>
    (show (x : ℕ) * b + y < (x + 1) * b by rw [add_mul, one_mul]; exact Nat.add_lt_add_left y.2 _).trans_le (Nat.mul_le_mul_right _ x.2)
  have hinj2 : ∀ {b : ℕ} (x x' : ℕ) (y y' : Fin b), x * b + y = x' * b + y' → x = x' ∧ y = y' := fun {b} x x' y y' h => by
    have hs : (y : ℕ) = y' := by
      have := congrArg (· % b) h
      simpa [Nat.mod_eq_of_lt y.2, Nat.mod_eq_of_lt y'.2, Nat.add_mod] using this
    have hb : 0 < b := lt_of_le_of_lt (Nat.zero_le _) y.2
    exact ⟨Nat.eq_of_mul_eq_mul_right hb (by omega), Fin.ext hs⟩
  let f : (Fin T × Fin n) × Fin d → Fin (T * n * d) := fun p =>
    ⟨(p.1.1 * n + p.1.2) * d + p.2, hpair2 (⟨p.1.1 * n + p.1.2, hpair2 p.1.1 p.1.2⟩ : Fin (T * n)) p.2⟩
  have hf : Function.Injective f := by
    rintro ⟨⟨t, s⟩, j⟩ ⟨⟨t', s'⟩, j'⟩ h
    have h' : ((t : ℕ) * n + s) * d + j = (t' * n + s') * d + j' := by simpa [f] using h
    obtain ⟨h1, h2⟩ := hinj2 _ _ j j' h'
    obtain ⟨h3, h4⟩ := hinj2 _ _ s s' h1
    exact Prod.ext (Prod.ext (Fin.ext h3) h4) h2
  have hm1 : Measurable fun k (i : Fin (T * n * d)) => G.normal k (T * n * d) i := measurable_pi_lambda _ fun i => hG.measurable_normal _ _
  have hm2 : Measurable G.fst := hG.measurable_key 2 0
  have hdraw : κ.map (fun k (i : Fin (T * n * d)) => G.normal k (T * n * d) i) = Measure.pi fun _ => gaussianReal 0 1 := by
    have h := congrArg (fun μ => μ.map Prod.fst) (hG.normals 0 (T * n * d))
    rw [Measure.map_map measurable_fst (hm1.prodMk (measurable_pi_lambda _ fun i => hG.measurable_key _ _)), Measure.map_fst_prod, measure_univ, one_smul] at h
    exact h
  have hpair := Measure.map_infinitePi_infinitePi_of_inj (P := fun _ : Fin (T * n * d) => gaussianReal 0 1) hf
  have hcurry := Measure.infinitePi_map_curry (fun (_ : Fin T × Fin n) (_ : Fin d) => gaussianReal 0 1)
  have hcurry2 := Measure.infinitePi_map_curry (fun (_ : Fin T) (_ : Fin n) => Measure.infinitePi fun _ : Fin d => gaussianReal 0 1)
  rw [← hpair, Measure.infinitePi_eq_pi (ι := Fin (T * n * d)), ← hdraw] at hcurry
  nth_rewrite 1 [← ideal_fst hG] at hcurry
  have hm3 : Measurable ((fun (ω : Fin (T * n * d) → ℝ) (i : (Fin T × Fin n) × Fin d) => ω (f i)) ∘ (fun k (i : Fin (T * n * d)) => G.normal k (T * n * d) i) ∘ G.fst) :=
    measurable_pi_lambda _ fun p => (measurable_pi_apply (f p)).comp (hm1.comp hm2)
  rw [Measure.map_map hm1 hm2, Measure.map_map (by fun_prop) (hm1.comp hm2), Measure.map_map (MeasurableEquiv.measurable _) hm3] at hcurry
  rw [← hcurry, Measure.map_map (MeasurableEquiv.measurable _) ((MeasurableEquiv.measurable _).comp hm3)] at hcurry2
  simp only [Measure.infinitePi_eq_pi] at hcurry2
  exact hcurry2

omit [MeasurableSpace K] in
theorem simulateSde_keys (G : Prng.Gen K) (B : Backend) (mAndCov : (Fin d → ℝ) → ℝ → (Fin d → ℝ) × Matrix (Fin d) (Fin d) ℝ) (x0 : Fin d → ℝ) (dt : ℝ) (T : ℕ) (key : K)
    (diag : Bool) (n : ℕ) : Prng.simulateSde G B mAndCov x0 dt T key diag n = simulateSde B mAndCov x0 dt
      (List.ofFn fun t : Fin T => List.ofFn fun (s : Fin n) (j : Fin d) => G.normal (G.fst key) (T * n * d) ((t * n + s) * d + j)) diag n := by
  have hr : ∀ {A : Type} (N : ℕ) (g : ℕ → A), (List.range N).map g = List.ofFn fun i : Fin N => g i := fun N g => by
    refine List.ext_getElem (by simp) fun i h1 h2 => by simp
  rw [Prng.simulateSde, hr]
  simp only [hr]

/-- **C207 (with keys)** The trajectory drawn from a random key of an ideal generator has the exact law. -/
theorem C207_keys {G : Prng.Gen K} {κ : Measure K} (hG : IdealGen G κ) (B : Backend) (hB : B.Valid) (A : Matrix (Fin d) (Fin d) ℝ) (Bm : Matrix (Fin d) (Fin w) ℝ) {dt : ℝ}
    (hdt : 0 ≤ dt) {n : ℕ} (hn : 0 < n) (hQ : (discretiseLtiSde A Bm (dt / n)).2.PosDef) (T : ℕ) (x0 : Fin d → ℝ) :
    κ.map (fun key (t : Fin T) => (Prng.simulateSde G B (fun x h => ((discretiseLtiSde A Bm h).1 *ᵥ x, (discretiseLtiSde A Bm h).2)) x0 dt T key false n).getD t 0)
      = pathKernel (linTransition (discretiseLtiSde A Bm dt).1 (discretiseLtiSde A Bm dt).2) T x0 := by
  have hm : Measurable fun k (t : Fin T) (s : Fin n) (j : Fin d) => G.normal (G.fst k) (T * n * d) ((t * n + s) * d + j) :=
    measurable_pi_lambda _ fun t => measurable_pi_lambda _ fun s => measurable_pi_lambda _ fun j => (hG.measurable_normal _ _).comp (hG.measurable_key 2 0)
  rw [← (C207_exact B hB A Bm hdt hn hQ T x0).2, ← ideal_increments_nd hG T n d, Measure.map_map (by
    rw [simulateSde_linear]
    exact measurable_path_of (measurable_last (measurable_integrationBody_linear B hB A Bm hQ) n) T x0) hm]
  simp only [simulateSde_keys]
  rfl

/-- an ideal generator. -/
example (T : ℕ) := C207_keys Mfs.Lemmas.treeGen_ideal theBackend theBackend_valid Tracking.trackA Tracking.trackB (dt := 1 / 10) (by norm_num) (n := 10) (by norm_num)
  ((C194_discretisation _).2 (by norm_num)) T ![1, 2]

end Mfs.Props

import Verif.Props.SimulateBenes
import Verif.Lemmas.IdealGen

/-!
# C206 with the keys of the generator
-/

namespace Mfs.Props

open Mfs.Spec Mfs.Benes Mfs.SsModels Mfs.Utils Mfs.Prng MeasureTheory Measure ProbabilityTheory Filter Topology

variable {K : Type} [MeasurableSpace K]

theorem ideal_fst {G : Gen K} {κ : Measure K} (hG : IdealGen G κ) : κ.map G.fst = κ := by
  have hp := hG.prob
  have h := congrArg (fun μ => μ.map fun p => p.2 (0 : Fin 2)) (hG.normals 2 0)
  rw [Measure.map_map (by fun_prop) (by
    exact (measurable_pi_lambda _ fun i => hG.measurable_normal _ _).prodMk (measurable_pi_lambda _ fun i => hG.measurable_key _ _))] at h
  have e : (Measure.prod (Measure.pi fun _ : Fin 0 => gaussianReal 0 1) (Measure.pi fun _ : Fin 2 => κ)).map (fun p => p.2 (0 : Fin 2)) = κ := by
    have h1 : (fun p : (Fin 0 → ℝ) × (Fin 2 → K) => p.2 (0 : Fin 2)) = Function.eval 0 ∘ Prod.snd := rfl
    rw [h1, ← Measure.map_map (measurable_pi_apply 0) measurable_snd, Measure.map_snd_prod, measure_univ, one_smul,
      (measurePreserving_eval (fun _ : Fin 2 => κ) 0).map_eq]
  rw [e] at h
  exact h

/-- the increments of `simulate_sde` in one dimension are independent standard normal numbers. -/
theorem ideal_increments {G : Gen K} {κ : Measure K} (hG : IdealGen G κ) (T n : ℕ) :
    κ.map (fun k (t : Fin T) (s : Fin n) => G.normal (G.fst k) (T * n * 1) ((t * n + s) * 1 + (0 : Fin 1)))
      = Measure.pi fun _ : Fin T => Measure.pi fun _ : Fin n => gaussianReal 0 1 := by
  have hp := hG.prob
  have hlt : ∀ (t : Fin T) (s : Fin n), ((t : ℕ) * n + s) * 1 + ((0 : Fin 1) : ℕ) < T * n * 1 := fun t s => by
    have h1 : (t : ℕ) * n + s < (t + 1) * n := by rw [add_mul, one_mul]; exact Nat.add_lt_add_left s.2 _
    have h2 : ((t : ℕ) + 1) * n ≤ T * n := Nat.mul_le_mul_right _ t.2
    simpa using h1.trans_le h2
  let f : Fin T × Fin n → Fin (T * n * 1) := fun p => ⟨(p.1 * n + p.2) * 1 + (0 : Fin 1), hlt p.1 p.2⟩
  have hf : Function.Injective f := by
    rintro ⟨t, s⟩ ⟨t', s'⟩ h
    have h' : (t : ℕ) * n + s = t' * n + s' := by simpa [f] using h
    have hs : (s : ℕ) = s' := by
      have := congrArg (· % n) h'
      simpa [Nat.mul_add_mod_of_lt, Nat.mod_eq_of_lt s.2, Nat.mod_eq_of_lt s'.2, Nat.add_mod] using this
    have hn : 0 < n := lt_of_le_of_lt (Nat.zero_le _) s.2
    have ht : (t : ℕ) = t' := by
      rw [hs] at h'
      exact Nat.eq_of_mul_eq_mul_right hn (by omega)
    exact Prod.ext (Fin.ext ht) (Fin.ext hs)
  have hm1 : Measurable fun k (i : Fin (T * n * 1)) => G.normal k (T * n * 1) i := measurable_pi_lambda _ fun i => hG.measurable_normal _ _
  have hm2 : Measurable G.fst := hG.measurable_key 2 0
  -- the draws at the new key
  have hdraw : κ.map (fun k (i : Fin (T * n * 1)) => G.normal k (T * n * 1) i) = Measure.pi fun _ => gaussianReal 0 1 := by
    have h := congrArg (fun μ => μ.map Prod.fst) (hG.normals 0 (T * n * 1))
    rw [Measure.map_map measurable_fst (hm1.prodMk (measurable_pi_lambda _ fun i => hG.measurable_key _ _)), Measure.map_fst_prod, measure_univ, one_smul] at h
    exact h
  have hpair := map_infinitePi_infinitePi_of_inj (P := fun _ : Fin (T * n * 1) => gaussianReal 0 1) hf
  have hcurry := infinitePi_map_curry (fun (_ : Fin T) (_ : Fin n) => gaussianReal 0 1)
  rw [← hpair, infinitePi_eq_pi (ι := Fin (T * n * 1)), ← hdraw] at hcurry
  nth_rewrite 1 [← ideal_fst hG] at hcurry
  rw [Measure.map_map hm1 hm2, Measure.map_map (by fun_prop) (hm1.comp hm2), Measure.map_map (MeasurableEquiv.measurable _) (by
    exact measurable_pi_lambda _ fun p => (measurable_pi_apply _).comp (hm1.comp hm2))] at hcurry
  simp only [infinitePi_eq_pi] at hcurry
  exact hcurry

omit [MeasurableSpace K] in
theorem benesTrajectoryKey_eq (G : Gen K) (B : Backend) (x0 dt : ℝ) (order T : ℕ) (key : K) (n : ℕ) :
    benesTrajectoryKey G B x0 dt order T key n = benesTrajectory B x0 dt order
      (List.ofFn fun t : Fin T => List.ofFn fun s : Fin n => G.normal (G.fst key) (T * n * 1) ((t * n + s) * 1 + (0 : Fin 1))) n := by
  rw [benesTrajectoryKey, benesTrajectory, trajectory1, Prng.simulateSde]
  congr 2
  have hr : ∀ {A : Type} (N : ℕ) (g : ℕ → A), (List.range N).map g = List.ofFn fun i : Fin N => g i := fun N g => by
    refine List.ext_getElem (by simp) fun i h1 h2 => by simp
  rw [hr, List.map_ofFn]
  congr 1
  funext t
  simp only [Function.comp]
  rw [hr, List.map_ofFn]
  congr 1
  funext s
  simp only [Function.comp]
  funext j
  rw [Subsingleton.elim j 0]

/-- **C206 (with keys).** With an ideal generator and a random key independent of the initial state, the law of the trajectory that `simulate_trajectory` returns converges
weakly to that of the solution of the equation at the observed times, as the number of integration steps grows. -/
theorem C206_keys {G : Gen K} {κ : Measure K} (hG : IdealGen G κ) (B : Backend) (hB : B.Valid) (order : ℕ) (ho : 1 ≤ order) {dt : ℝ} (hdt : 0 < dt) (T : ℕ)
    (ρ : Measure ℝ) [IsProbabilityMeasure ρ] {F : (Fin T → ℝ) → ℝ} (hF : Continuous F) (hb : ∃ b, ∀ x, |F x| ≤ b) :
    Tendsto (fun n : ℕ => ∫ p, F (fun t => (benesTrajectoryKey G B p.1 dt order T p.2 n).getD t 0) ∂(ρ.prod κ))
      atTop (𝓝 (∫ x, F x ∂(ρ.bind (pathKernel (benesKernel dt) T)))) := by
  have hp := hG.prob
  refine (tendsto_congr' ?_).1 (C206_benes B hB order ho hdt T ρ hF hb)
  filter_upwards [eventually_ge_atTop 1] with n hn
  have hn0 : (0 : ℝ) < n := by exact_mod_cast hn
  let inc : K → Fin T → Fin n → ℝ := fun k t s => G.normal (G.fst k) (T * n * 1) ((t * n + s) * 1 + (0 : Fin 1))
  have hinc : Measurable inc := measurable_pi_lambda _ fun t => measurable_pi_lambda _ fun s => (hG.measurable_normal _ _).comp (hG.measurable_key 2 0)
  have hlaw : ρ.prod (Measure.pi fun _ : Fin T => Measure.pi fun _ : Fin n => gaussianReal 0 1) = (ρ.prod κ).map (Prod.map id inc) := by
    rw [← ideal_increments hG T n, ← Measure.map_prod_map _ _ measurable_id hinc, Measure.map_id]
  have e : ∀ (x0 : ℝ) (z : Fin T → Fin n → ℝ), (fun t : Fin T => (benesTrajectory B x0 dt order (List.ofFn fun t => List.ofFn (z t)) n).getD t 0)
      = simPath (fun x => bMean x (dt / n)) (fun x => bVar order x (dt / n)) n T x0 z := fun x0 z => by
    rw [benesTrajectory_eq B hB x0 hdt ho hn, trajectory1_eq B hB _ _ x0 dt fun x => bVar_pos order x (by positivity)]
    funext t
    simp
  simp only [benesTrajectoryKey_eq, e, hlaw]
  have hm : Measurable fun p : ℝ × (Fin T → Fin n → ℝ) => F (simPath (fun x => bMean x (dt / n)) (fun x => bVar order x (dt / n)) n T p.1 p.2) :=
    hF.measurable.comp (measurable_simPath (measurable_bMean _) (measurable_bVar order _) n T)
  exact integral_map (measurable_id.prodMap hinc).aemeasurable hm.aestronglyMeasurable

/-- an ideal generator. -/
example := C206_keys Mfs.Lemmas.treeGen_ideal theBackend theBackend_valid 3 (by norm_num) (dt := 0.01) (by norm_num) 2 (gaussianReal 0 1)
  (F := fun x => Real.cos (x 0 * x 1)) (by fun_prop) ⟨1, fun _ => Real.abs_cos_le_one _⟩

end Mfs.Props

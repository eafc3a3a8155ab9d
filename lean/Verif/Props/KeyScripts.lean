import Verif.Lemmas.GaussDensity
import Mathlib.MeasureTheory.Measure.Lebesgue.Basic
import Verif.Props.Keys
import Verif.Lemmas.Backend

/-!
# The random keys of the experiment scripts (C161)
-/

namespace Mfs.Props

open Mfs.Prng

variable {K : Type}

/-- the keys at which `prey_predator(...).simulate(key)` draws. -/
def preyKeys (G : Gen K) (key : K) : List K := [G.key key 3 0, G.fst (G.key key 3 0), G.key key 3 1, G.key key 3 2]

/-- the keys at which the trajectory and the measurements of `benes_bernoulli/pf.py` are drawn. -/
def benesKeys (G : Gen K) (key : K) : List K := [G.key key 3 0, G.fst (G.key key 3 0), G.fst (G.key key 3 1), G.key key 3 2]

/-- **C161, refuted.** With keys and draws that do not depend on how many are asked for, the first initial particle of
`prey_predator/pf.py` is the true initial state. -/
theorem C161_prey_refuted {n : ℕ} [NeZero n] (G : Gen K) (hG : PrefixStable G) (ss : List ℝ → ℝ → ℕ) (B : Backend)
    (comps : List (MomentsND.Component 2)) (alp beta delta gamma sigma dt : ℝ) (m : (Fin 2 → ℝ) → Fin 2 → ℝ)
    (cov : (Fin 2 → ℝ) → Matrix (Fin 2) (Fin 2) ℝ) (T : ℕ) (key : K) :
    let r := preyRun (n := n) G ss B comps alp beta delta gamma sigma dt m cov T key
    r.2.1 0 = r.1.1 := by
  have hn : 0 < n := Nat.pos_of_ne_zero (NeZero.ne n)
  have hk : G.fst key = G.key key 3 0 := hG.1 key 2 3 0 (by omega) (by omega)
  have hu : ∀ k, G.uniform k n 0 = G.uniform k 1 0 := fun k => (hG.2 k n 1 0 hn (by omega)).1
  have hz : ∀ k (j : Fin 2), G.normal k (n * 2) j = G.normal k (1 * 2) j := fun k j => (hG.2 k _ _ j (by omega) (by omega)).2
  simp only [preyRun, preySimulate, samplerND, choice, hk, hu, hz, Fin.val_zero, zero_mul, zero_add]

/-- **C161.** With keys that never coincide the simulation and the filter of both scripts share no key, for any number of measurements. -/
theorem C161_free (G : Gen FreeKey) (hG : ∀ k n, G.split k n = (List.range n).map (FreeKey.child k n)) (T : ℕ) (key : FreeKey) :
    (preyKeys G key).Nodup ∧ (benesKeys G key).Nodup ∧ (∀ k ∈ preyKeys G key, k ∉ drawKeys G T (G.fst key)) ∧
      ∀ k ∈ benesKeys G key, k ∉ drawKeys G T (G.fst (G.key key 3 2)) := by
  have hf : ∀ k, G.fst k = .child k 2 0 := fun k => by simp [Gen.fst, Gen.key, hG]
  have hk : ∀ k i, i < 3 → G.key k 3 i = .child k 3 i := fun k i hi => by
    simp [Gen.key, hG, List.getD_eq_getElem?_getD, hi]
  have hc : ∀ (k : FreeKey) n i, k ≠ .child k n i := fun k n i e => by
    have := congrArg FreeKey.depth e; simp [FreeKey.depth] at this
  have hcc : ∀ (k : FreeKey) a b c d, k ≠ .child (.child k a b) c d := fun k a b c d e => by
    have := congrArg FreeKey.depth e; simp only [FreeKey.depth] at this; omega
  simp only [preyKeys, benesKeys, drawKeys, hf, hk _ 0 (by omega), hk _ 1 (by omega), hk _ 2 (by omega), hG]
  refine ⟨?_, ?_, ?_, ?_⟩
  · simp
  · simp
  · intro k hk
    simp only [List.mem_cons, List.not_mem_nil, or_false] at hk
    rcases hk with rfl | rfl | rfl | rfl <;> simp [hc, (hc _ _ _).symm]
  · intro k hk
    simp only [List.mem_cons, List.not_mem_nil, or_false] at hk
    rcases hk with rfl | rfl | rfl | rfl <;> simp [hc, hcc, (hcc _ _ _ _ _).symm]

/-- **C161.** The filter of `benes_bernoulli/pf.py` shares no key with its simulation even when keys do not depend on how many are asked
for. -/
theorem C161_benes_prefix (G : Gen PrefixKey) (hG : ∀ k n, G.split k n = (List.range n).map (PrefixKey.child k)) (T : ℕ) (key : PrefixKey) :
    (benesKeys G key).Nodup ∧ ∀ k ∈ benesKeys G key, k ∉ drawKeys G T (G.fst (G.key key 3 2)) := by
  have hf : ∀ k, G.fst k = .child k 0 := fun k => by simp [Gen.fst, Gen.key, hG]
  have hk : ∀ k i, i < 3 → G.key k 3 i = .child k i := fun k i hi => by
    simp [Gen.key, hG, List.getD_eq_getElem?_getD, hi]
  have hc : ∀ (k : PrefixKey) i, k ≠ .child k i := fun k i e => by
    have := congrArg PrefixKey.depth e; simp [PrefixKey.depth] at this
  have hcc : ∀ (k : PrefixKey) i j, k ≠ .child (.child k i) j := fun k i j e => by
    have := congrArg PrefixKey.depth e; simp only [PrefixKey.depth] at this; omega
  have hccc : ∀ (k : PrefixKey) a b c, k ≠ .child (.child (.child k a) b) c := fun k a b c e => by
    have := congrArg PrefixKey.depth e; simp only [PrefixKey.depth] at this; omega
  simp only [benesKeys, drawKeys, hf, hk _ 0 (by omega), hk _ 1 (by omega), hk _ 2 (by omega), hG]
  refine ⟨by simp [hc, (hc _ _).symm], ?_⟩
  intro k hk
  simp only [List.mem_cons, List.not_mem_nil, or_false] at hk
  rcases hk with rfl | rfl | rfl | rfl <;> simp [hc, hcc, hccc, (hcc _ _ _).symm]

/-- **C161.** The simulation of the prey--predator model depends on the generator only through the splits and the draws at its keys. -/
theorem C161_prey_draws (G G' : Gen K) (hs : G.split = G'.split) (ss : List ℝ → ℝ → ℕ) (B : Backend)
    (comps : List (MomentsND.Component 2)) (alp beta delta gamma sigma dt : ℝ) (T : ℕ) (key : K) (steps : ℕ)
    (h : ∀ k ∈ preyKeys G key, G.uniform k = G'.uniform k ∧ G.normal k = G'.normal k) :
    preySimulate G ss B comps alp beta delta gamma sigma dt T key steps = preySimulate G' ss B comps alp beta delta gamma sigma dt T key steps := by
  have hkey : G.key = G'.key := by funext k n i; simp [Gen.key, hs]
  have hf : G.fst = G'.fst := by funext k; simp [Gen.fst, hkey]
  simp only [preyKeys, List.forall_mem_cons] at h
  obtain ⟨h0, h1, h2, h3, -⟩ := h
  rw [hf] at h1
  rw [hkey] at h0 h1 h2 h3
  have hx : samplerND G ss B comps (n := 1) (G'.key key 3 0) = samplerND G' ss B comps (G'.key key 3 0) := by
    funext i; simp only [samplerND, choice, hf, h0.1, h1.2]
  have hb : bernoulli G (G'.key key 3 2) = bernoulli G' (G'.key key 3 2) := by
    funext n p i; unfold bernoulli; rw [h3.1]
  simp only [preySimulate, hkey, hx, hb, h2.2]

/-- **C161.** The whole prey--predator script (data and filter) depends on the generator only through the splits and the draws at the keys of
the simulation and at those of the filter. -/
theorem C161_prey_run_draws {n : ℕ} [NeZero n] (G G' : Gen K) (hs : G.split = G'.split) (ss : List ℝ → ℝ → ℕ) (B : Backend)
    (comps : List (MomentsND.Component 2)) (alp beta delta gamma sigma dt : ℝ) (m : (Fin 2 → ℝ) → Fin 2 → ℝ)
    (cov : (Fin 2 → ℝ) → Matrix (Fin 2) (Fin 2) ℝ) (T : ℕ) (key : K)
    (h : ∀ k, k ∈ preyKeys G key ∨ k ∈ drawKeys G T (G.fst key) → G.uniform k = G'.uniform k ∧ G.normal k = G'.normal k) :
    preyRun (n := n) G ss B comps alp beta delta gamma sigma dt m cov T key =
      preyRun G' ss B comps alp beta delta gamma sigma dt m cov T key := by
  have hf : G.fst = G'.fst := by funext k; simp [Gen.fst, Gen.key, hs]
  have hsim := C161_prey_draws G G' hs ss B comps alp beta delta gamma sigma dt T key 100 fun k hk => h k (.inl hk)
  have h1 := h (G.fst key) (.inr (by simp [drawKeys]))
  have h2 := h (G.fst (G.fst key)) (.inr (by simp [drawKeys]))
  have h3 : ∀ k ∈ G.split (G.fst key) T, G.normal k = G'.normal k ∧ G.uniform (G.fst k) = G'.uniform (G.fst k) := fun k hk =>
    ⟨(h k (.inr (by simp only [drawKeys, List.mem_append, List.mem_flatMap]; exact .inr ⟨k, hk, by simp⟩))).2,
      (h (G.fst k) (.inr (by simp only [drawKeys, List.mem_append, List.mem_flatMap]; exact .inr ⟨k, hk, by simp⟩))).1⟩
  have hlen : (preySimulate G ss B comps alp beta delta gamma sigma dt T key).2.2.length = T := by simp [preySimulate]
  have hfil := C159_draws_nd (n := n) G G' ss B comps m cov (fun (y : Bool) s i => SsModels.preyPmf (if y then 1 else 0) (s i))
    (preySimulate G ss B comps alp beta delta gamma sigma dt T key).2.2 (G.fst key) .stratified hs h1.1 h2.2 (by rw [hlen]; exact h3)
  have hini : samplerND G ss B comps (n := n) (G.fst key) = samplerND G' ss B comps (G.fst key) := by
    funext i; simp only [samplerND, choice, h1.1, h2.2, ← hf]
  simp only [Scheme.run] at hfil
  rw [hsim] at hfil
  simp only [preyRun, hini, hfil, hsim, ← hf]

/-- **C161.** The same for the whole Beneš script. -/
theorem C161_benes_run_draws {n : ℕ} [NeZero n] (G G' : Gen K) (hs : G.split = G'.split) (ss : List ℝ → ℝ → ℕ) (B : Backend)
    (comps : List Moments1.Component) (mAndCov : (Fin 1 → ℝ) → ℝ → (Fin 1 → ℝ) × Matrix (Fin 1) (Fin 1) ℝ) (m v : ℝ → ℝ) (dt : ℝ)
    (T : ℕ) (key : K)
    (h : ∀ k, k ∈ benesKeys G key ∨ k ∈ drawKeys G T (G.fst (G.key key 3 2)) → G.uniform k = G'.uniform k ∧ G.normal k = G'.normal k) :
    benesRun (n := n) G ss B comps mAndCov m v dt T key = benesRun G' ss B comps mAndCov m v dt T key := by
  have hkey : G.key = G'.key := by funext k n i; simp [Gen.key, hs]
  have hf : G.fst = G'.fst := by funext k; simp [Gen.fst, hkey]
  have g0 := h (G.key key 3 0) (.inl (by simp [benesKeys]))
  have g1 := h (G.fst (G.key key 3 0)) (.inl (by simp [benesKeys]))
  have g2 := h (G.fst (G.key key 3 1)) (.inl (by simp [benesKeys]))
  have g3 := h (G.key key 3 2) (.inl (by simp [benesKeys]))
  have h1 := h (G.fst (G.key key 3 2)) (.inr (by simp [drawKeys]))
  have h2 := h (G.fst (G.fst (G.key key 3 2))) (.inr (by simp [drawKeys]))
  have h3 : ∀ k ∈ G.split (G.fst (G.key key 3 2)) T, G.normal k = G'.normal k ∧ G.uniform (G.fst k) = G'.uniform (G.fst k) := fun k hk =>
    ⟨(h k (.inr (by simp only [drawKeys, List.mem_append, List.mem_flatMap]; exact .inr ⟨k, hk, by simp⟩))).2,
      (h (G.fst k) (.inr (by simp only [drawKeys, List.mem_append, List.mem_flatMap]; exact .inr ⟨k, hk, by simp⟩))).1⟩
  have hx0 : sampler1 G ss comps (n := 1) (G.key key 3 0) = sampler1 G' ss comps (G.key key 3 0) := by
    funext i; simp only [sampler1, choice, g0.1, g1.2, ← hf]
  have hxs : ∀ x0, simulateSde G B mAndCov x0 dt T (G.key key 3 1) false 100 = simulateSde G' B mAndCov x0 dt T (G.key key 3 1) false 100 := by
    intro x0; simp only [simulateSde, g2.2, ← hf]
  have hys : bernoulli G (G.key key 3 2) = bernoulli G' (G.key key 3 2) := by
    funext n p i; unfold bernoulli; rw [g3.1]
  have hini : sampler1 G ss comps (n := n) (G.fst (G.key key 3 2)) = sampler1 G' ss comps (G.fst (G.key key 3 2)) := by
    funext i; simp only [sampler1, choice, h1.1, h2.2, ← hf]
  have hfil : ∀ ys : List Bool, ys.length = T → _ := fun ys hy => C159_draws (n := n) G G' ss comps m v
    (fun (y : Bool) s i => SsModels.benesPmf (if y then 1 else 0) (s i)) ys (G.fst (G.key key 3 2)) .stratified hs h1.1 h2.2
    (by rw [hy]; exact h3)
  simp only [Scheme.run] at hfil
  simp only [benesRun, ← hkey, ← hf, hx0, hxs, hys, hini]
  rw [hfil _ (by simp)]

-- the hypotheses are met
example := C161_prey_refuted (n := 5) prefixGen prefixGen_stable (fun _ _ => 0) theBackend [⟨fun _ => 1, 1, 1⟩] 4 4 4 4 (1 / 10) (1 / 1000)
  (fun x => x) (fun _ => 1) 3 (.seed 7)
example := C161_free freeGen (fun _ _ => rfl) 5 (.seed 7)
example := C161_benes_prefix prefixGen (fun _ _ => rfl) 5 (.seed 7)

/-- **C161 (measurements).** With a uniform draw a simulated measurement is a success with the given probability. -/
theorem C161_measurement (G : ℝ → Gen K) (key : K) (n i : ℕ) (hG : ∀ u, (G u).uniform key n i = u) (p : ℕ → ℝ) (h0 : 0 ≤ p i) (h1 : p i ≤ 1) :
    (MeasureTheory.volume.restrict (Set.Ico (0 : ℝ) 1)) {u | bernoulli (G u) key n p i = true} = ENNReal.ofReal (p i) ∧
      (MeasureTheory.volume.restrict (Set.Ico (0 : ℝ) 1)) {u | bernoulli (G u) key n p i = false} = ENNReal.ofReal (1 - p i) := by
  have e1 : {u | bernoulli (G u) key n p i = true} = Set.Iio (p i) := by ext u; simp [bernoulli, hG]
  have e2 : {u | bernoulli (G u) key n p i = false} = Set.Ici (p i) := by ext u; simp [bernoulli, hG]
  rw [e1, e2, MeasureTheory.Measure.restrict_apply measurableSet_Iio, MeasureTheory.Measure.restrict_apply measurableSet_Ici]
  have s1 : Set.Iio (p i) ∩ Set.Ico 0 1 = Set.Ico 0 (p i) := by
    ext u; simp only [Set.mem_inter_iff, Set.mem_Iio, Set.mem_Ico]
    exact ⟨fun h => ⟨h.2.1, h.1⟩, fun h => ⟨h.2, h.1, h.2.trans_le h1⟩⟩
  have s2 : Set.Ici (p i) ∩ Set.Ico 0 1 = Set.Ico (p i) 1 := by
    ext u; simp only [Set.mem_inter_iff, Set.mem_Ici, Set.mem_Ico]
    exact ⟨fun h => ⟨h.1, h.2.2⟩, fun h => ⟨h.1, h0.trans h.1, h.2⟩⟩
  rw [s1, s2, Real.volume_Ico, Real.volume_Ico, sub_zero]
  exact ⟨rfl, rfl⟩

open MeasureTheory ProbabilityTheory in
/-- **C161 (transition).** With independent standard normal draws the particles move independently, each with its own mean and covariance. -/
theorem C161_cloud {d n : ℕ} (B : Backend) (hB : B.Valid) (m : (Fin d → ℝ) → Fin d → ℝ) (cov : (Fin d → ℝ) → Matrix (Fin d) (Fin d) ℝ) (x : Fin n → Fin d → ℝ)
    (hc : ∀ i, (cov (x i)).PosDef) (key : K) (G : (Fin n → Fin d → ℝ) → Gen K) (hG : ∀ z i j, (G z).normal key (n * d) ((i : Fin n) * d + (j : Fin d)) = z i j) :
    (Measure.pi fun _ : Fin n => Measure.pi fun _ : Fin d => gaussianReal 0 1).map (fun z i => WithLp.toLp 2 (scriptTransitionND (G z) B m cov x key i))
      = Measure.pi fun i => multivariateGaussian (WithLp.toLp 2 (m (x i))) (cov (x i)) := by
  have hsym : ∀ i, symmetrize (cov (x i)) = cov (x i) := fun i => by
    have ht : (cov (x i)).transpose = cov (x i) := (show (cov (x i)).IsSymm by simpa using (hc i).1)
    ext a b
    have := congrFun (congrFun ht a) b
    simp only [Matrix.transpose_apply] at this
    simp only [symmetrize, Matrix.smul_apply, Matrix.add_apply, Matrix.transpose_apply, smul_eq_mul, this]
    ring
  have e : ∀ z i, scriptTransitionND (G z) B m cov x key i = m (x i) + Matrix.mulVec (B.chol (symmetrize (cov (x i)))) (z i) := fun z i => by
    simp only [scriptTransitionND, hG]
  have hm : ∀ i, Measurable fun z : Fin d → ℝ => WithLp.toLp 2 (m (x i) + Matrix.mulVec (B.chol (symmetrize (cov (x i)))) z) := fun i => by
    have hc : Continuous fun z : Fin d → ℝ => Matrix.mulVec (B.chol (symmetrize (cov (x i)))) z := by fun_prop
    exact (WithLp.measurable_toLp 2 _).comp (hc.measurable.const_add _)
  simp only [e]
  have := Measure.pi_map_pi (μ := fun _ : Fin n => Measure.pi fun _ : Fin d => gaussianReal 0 1)
    (f := fun i z => WithLp.toLp 2 (m (x i) + Matrix.mulVec (B.chol (symmetrize (cov (x i)))) z)) fun i => (hm i).aemeasurable
  rw [this]
  congr 1
  funext i
  rw [Lemmas.map_stdGaussian, hsym, (hB.chol _ (hc i)).mul_transpose]

-- a generator that returns the given draws
example := C161_cloud (K := Unit) (d := 2) (n := 3) theBackend theBackend_valid (fun x => x) (fun _ => 1) (fun _ _ => 0) (fun _ => Matrix.PosDef.one) ()
  (fun z => ⟨fun _ _ => [], fun _ _ _ => 0, fun _ _ k => z (Fin.ofNat 3 (k / 2)) (Fin.ofNat 2 k)⟩)
  (fun z i j => by fin_cases i <;> fin_cases j <;> rfl)
example := C161_measurement (K := Unit) (fun u => ⟨fun _ _ => [], fun _ _ _ => u, fun _ _ _ => 0⟩) () 1 0 (fun _ => rfl) (fun _ => 1 / 3) (by norm_num) (by norm_num)

end Mfs.Props

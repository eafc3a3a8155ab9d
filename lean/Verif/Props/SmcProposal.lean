import Verif.Props.SmcConverge
import Mathlib.Probability.Kernel.Composition.Prod

/-!
# C149: the particle filter converges to the filtering mean whatever the proposal; C148 at every step
-/

namespace Mfs.Props

open Mfs.Smc Mfs.Spec Mfs.OrderStat MeasureTheory ProbabilityTheory

variable {X Y K : Type} {n : ℕ} [NeZero n] [MeasurableSpace X] [MeasurableSpace K]

theorem scan_take {C E O : Type} (f : C → E → C × O) (c : C) (xs : List E) (m : ℕ) : (scan f c (xs.take m)).2 = (scan f c xs).2.take m := by
  induction xs generalizing c m with
  | nil => simp [scan]
  | cons x xs ih =>
    cases m with
    | zero => simp [scan]
    | succ m => simp [scan, ih]

theorem scan_len {C E O : Type} (f : C → E → C × O) (c : C) (xs : List E) : (scan f c xs).2.length = xs.length := by
  induction xs generalizing c with
  | nil => rfl
  | cons x xs ih => simp [scan, ih]

theorem take_zip' {A B : Type} (as : List A) (bs : List B) (m : ℕ) : (as.zip bs).take m = (as.take m).zip (bs.take m) := by
  simp only [List.zip, List.take_zipWith]

theorem pi_castLE (ν : Measure K) [IsProbabilityMeasure ν] {m T : ℕ} (h : m ≤ T) :
    (Measure.pi fun _ : Fin T => ν).map (fun x (i : Fin m) => x (Fin.castLE h i)) = Measure.pi fun _ : Fin m => ν := by
  refine (Measure.pi_eq fun t ht => ?_).symm
  have hm : Measurable fun (x : Fin T → K) (i : Fin m) => x (Fin.castLE h i) := measurable_pi_lambda _ fun i => measurable_pi_apply _
  rw [Measure.map_apply hm (MeasurableSet.univ_pi ht)]
  have e : (fun (x : Fin T → K) (i : Fin m) => x (Fin.castLE h i)) ⁻¹' Set.univ.pi t
      = Set.univ.pi fun j : Fin T => if hj : (j : ℕ) < m then t ⟨j, hj⟩ else Set.univ := by
    ext x
    simp only [Set.mem_preimage, Set.mem_univ_pi]
    constructor
    · intro hx j
      split_ifs with hj
      · exact hx ⟨j, hj⟩
      · trivial
    · intro hx i
      have := hx (Fin.castLE h i)
      simpa using this
  rw [e, Measure.pi_pi]
  obtain ⟨d, rfl⟩ := Nat.exists_eq_add_of_le h
  rw [Fin.prod_univ_add]
  have h1 : ∀ i : Fin d, ν (if hj : (Fin.natAdd m i : ℕ) < m then t ⟨Fin.natAdd m i, hj⟩ else Set.univ) = 1 := fun i => by simp
  simp only [h1, Finset.prod_const_one, mul_one]
  refine Finset.prod_congr rfl fun i _ => ?_
  simp

omit [NeZero n] in
/-- the law of the initial cloud and the first keys. -/
theorem ideal_take {ρ ν : Measure K} [IsProbabilityMeasure ν] {μ0 : Measure X} [IsProbabilityMeasure μ0] {T m : ℕ} (h : m ≤ T)
    {init : K → Fin n → X} {keysOf : K → Fin T → K}
    (hideal : ρ.map (fun key => (init key, keysOf key)) = (Measure.pi fun _ => μ0).prod (Measure.pi fun _ => ν)) :
    ρ.map (fun key => (init key, fun i : Fin m => keysOf key (Fin.castLE h i))) = (Measure.pi fun _ => μ0).prod (Measure.pi fun _ => ν) := by
  have hae : AEMeasurable (fun key => (init key, keysOf key)) ρ := by
    by_contra hc
    have := Measure.map_of_not_aemeasurable hc
    rw [hideal] at this
    exact IsProbabilityMeasure.ne_zero _ this
  have hm : Measurable fun (x : Fin T → K) (i : Fin m) => x (Fin.castLE h i) := measurable_pi_lambda _ fun i => measurable_pi_apply _
  have h1 := Measure.map_prod_map (Measure.pi fun _ : Fin n => μ0) (Measure.pi fun _ : Fin T => ν) measurable_id hm
  rw [Measure.map_id, pi_castLE] at h1
  rw [h1, ← hideal, AEMeasurable.map_map_of_aemeasurable (measurable_id.prodMap hm).aemeasurable hae]
  rfl

/-- **C148 (every step).** The same for each of the returned clouds, not only the last one. -/
theorem C148_every_step (transition : (Fin n → X) → K → Fin n → X) (g : Y → X → ℝ) (ys : List Y) (init : K → Fin n → X)
    (resampling : (Fin n → ℝ) → K → Fin n → ℕ) (splitFst : K → K) (splitN : K → ℕ → List K) (keysOf : K → Fin ys.length → K)
    (ρ ν ν' : Measure K) [IsProbabilityMeasure ν] [IsProbabilityMeasure ν'] (P : Kernel X X) [IsMarkovKernel P]
    (μ0 : Measure X) [IsProbabilityMeasure μ0] (G : ℝ)
    (hgm : ∀ y, Measurable (g y)) (hg : ∀ y x, 0 < g y x) (hgG : ∀ y x, g y x ≤ G)
    (htm : Measurable fun p : (Fin n → X) × K => transition p.1 p.2) (hrm : Measurable fun p : (Fin n → ℝ) × K => resampling p.1 p.2)
    (hsm : Measurable splitFst) (hsplit : ∀ key, splitN key ys.length = List.ofFn (keysOf key))
    (hideal : ρ.map (fun key => (init key, keysOf key)) = (Measure.pi fun _ => μ0).prod (Measure.pi fun _ => ν))
    (hind : ∀ s, ν.map (fun k => (transition s k, splitFst k)) = (Measure.pi fun j => P (s j)).prod ν')
    (hrange : ∀ w k j, resampling w k j < n)
    (hres : ∀ w : Fin n → ℝ, (∀ i, 0 ≤ w i) → ∑ i, w i = 1 → ∀ i : Fin n, ∑ j, ν' {k | resampling w k j = i} = ENNReal.ofReal (n * w i))
    (hvar : ∀ w : Fin n → ℝ, (∀ i, 0 ≤ w i) → ∑ i, w i = 1 → ∀ φ : Fin n → ℝ,
      ∫ k, ((∑ j, gather φ (resampling w k) j) / n - ∑ i, w i * φ i) ^ 2 ∂ν' ≤ (∑ i, w i * (φ i - ∑ i, w i * φ i) ^ 2) / n)
    (f : X → ℝ) (hf : Measurable f) (F : ℝ) (hfF : ∀ x, |f x| ≤ F) (t : ℕ) (ht : t < ys.length) :
    let out := fun key => bootstrapFilter transition (fun y s i => g y (s i)) ys init key (resampleIdx resampling) splitFst splitN
    let z := ∫ x, markovE P g (fun _ => 1) (ys.take (t + 1)) x ∂μ0
    ∫ key, ((∑ j, f ((out key).1.getD t (init key) j)) / n - (∫ x, markovE P g f (ys.take (t + 1)) x ∂μ0) / z) ^ 2 ∂ρ
      ≤ 4 * (2 * (t + 1) + 1) * (G ^ (t + 1) * F) ^ 2 / (n * z ^ 2) := by
  intro out z
  have hl : (ys.take (t + 1)).length = t + 1 := by rw [List.length_take, min_eq_left ht]
  have hle : (ys.take (t + 1)).length ≤ ys.length := by rw [hl]; exact ht
  have h := (C148_bootstrap_mse transition g (ys.take (t + 1)) init resampling splitFst (fun key _ => (splitN key ys.length).take (t + 1))
    (fun key i => keysOf key (Fin.castLE hle i)) ρ ν ν' P μ0 G hgm hg hgG htm hrm hsm ?_ (ideal_take hle hideal) hind hrange hres hvar f hf F hfF).2
  · have e : ∀ key, (bootstrapFilter transition (fun y s i => g y (s i)) (ys.take (t + 1)) init key (resampleIdx resampling) splitFst
        (fun key _ => (splitN key ys.length).take (t + 1))).1.getLastD (init key) = (out key).1.getD t (init key) := by
      intro key
      have hlen : t < (out key).1.length := by
        show t < (scan _ _ _).2.length
        rw [scan_len, List.length_zip, hsplit, List.length_ofFn, min_self]
        exact ht
      have h1 : (bootstrapFilter transition (fun y s i => g y (s i)) (ys.take (t + 1)) init key (resampleIdx resampling) splitFst
        (fun key _ => (splitN key ys.length).take (t + 1))).1 = (out key).1.take (t + 1) := by
        show (scan _ _ _).2 = (scan _ _ _).2.take (t + 1)
        rw [← scan_take, take_zip']
      rw [h1, List.getLastD_eq_getLast?, List.getLast?_take, List.getD_eq_getElem _ _ hlen]
      simp [List.getElem?_eq_getElem hlen]
    simp only [e] at h
    rw [hl] at h
    push_cast at h
    exact h
  · intro key
    show (splitN key ys.length).take (t + 1) = _
    rw [hsplit]
    refine List.ext_getElem (by simp [hl, ht]) fun i h1 h2 => ?_
    simp

section
variable (proposal : (Fin n → X) → Y → K → Fin n → X) (q : X → X → Y → ℝ) (p : X → X → ℝ) (lik : Y → X → ℝ)

/-- clouds of pairs (ancestor, particle). -/
def pairTransition (y : Y) (s : Fin n → X × X) (k : K) : Fin n → X × X := fun i => ((s i).2, proposal (fun i => (s i).2) y k i)

/-- the importance weight of a pair. -/
noncomputable def pairWeight (y : Y) (ab : X × X) : ℝ := lik y ab.2 * p ab.2 ab.1 / q ab.2 ab.1 y

variable {proposal q p lik}

omit [MeasurableSpace X] [MeasurableSpace K] in
theorem particle_lastCloud (resampling : (Fin n → ℝ) → K → Fin n → ℕ) (splitFst : K → K) (ys : List Y) (keys : Fin ys.length → K) (s : Fin n → X × X)
    (d : Fin n → X) (hd : d = fun i => (s i).2) :
    (scan (particleBody proposal (fun x a y i => q (x i) (a i) y) (fun x a i => p (x i) (a i)) (fun y x i => lik y (x i)) resampling splitFst) d
        (ys.zip (List.ofFn keys))).2.getLastD d
      = fun j => (lastCloud (pairWeight q p lik) (pairTransition proposal) resampling splitFst ys s keys j).2 := by
  induction ys generalizing s d with
  | nil => simpa [scan, lastCloud] using hd
  | cons y ys ih =>
    have hz : (y :: ys).zip (List.ofFn keys) = (y, keys 0) :: ys.zip (List.ofFn (Fin.tail keys)) := by
      have : List.ofFn keys = keys 0 :: List.ofFn (Fin.tail keys) := List.ofFn_succ
      rw [this, List.zip_cons_cons]
    rw [hz, lastCloud]
    simp only [scan, particleBody, List.getLastD_cons]
    exact ih (Fin.tail keys) (cloudStep (pairWeight q p lik) (pairTransition proposal y) resampling splitFst s y (keys 0)) _ (by subst hd; rfl)

/-- the kernel of the pairs. -/
noncomputable def pairKernel (Q : Y → Kernel X X) (y : Y) : Kernel (X × X) (X × X) :=
  Kernel.deterministic Prod.snd measurable_snd ×ₖ (Q y).comap Prod.snd measurable_snd

instance (Q : Y → Kernel X X) [∀ y, IsMarkovKernel (Q y)] (y : Y) : IsMarkovKernel (pairKernel Q y) := by
  unfold pairKernel; infer_instance

theorem pairKernel_apply (Q : Y → Kernel X X) [∀ y, IsMarkovKernel (Q y)] (y : Y) (ab : X × X) :
    pairKernel Q y ab = (Q y ab.2).map (Prod.mk ab.2) := by
  rw [pairKernel, Kernel.prod_apply, Kernel.deterministic_apply, Kernel.comap_apply, Measure.dirac_prod]

theorem markovEY_pair (Q : Y → Kernel X X) [∀ y, IsMarkovKernel (Q y)] (M : Kernel X X) [IsMarkovKernel M] (lam : Measure X)
    (hqm : ∀ y, Measurable fun ab : X × X => q ab.2 ab.1 y) (hpm : Measurable fun ab : X × X => p ab.2 ab.1) (hlm : ∀ y, Measurable (lik y))
    (hq : ∀ x a y, 0 < q x a y) (hp : ∀ x a, 0 ≤ p x a)
    (hQ : ∀ y a, Q y a = lam.withDensity fun x => ENNReal.ofReal (q x a y)) (hM : ∀ a, M a = lam.withDensity fun x => ENNReal.ofReal (p x a))
    (f : X → ℝ) (hf : Measurable f) (ys : List Y) (ab : X × X) :
    markovEY (pairKernel Q) (pairWeight q p lik) (fun ab => f ab.2) ys ab = markovE M lik f ys ab.2 := by
  have hwm : ∀ y, Measurable (pairWeight q p lik y) := fun y => (((hlm y).comp measurable_snd).mul hpm).div (hqm y)
  induction ys generalizing ab with
  | nil => rfl
  | cons y ys ih =>
    have hmE : Measurable (markovE M lik f ys) := by
      rw [← markovEY_const]; exact measurable_markovEY (fun _ => M) hlm hf ys
    rw [markovEY, markovE, pairKernel_apply]
    simp only [ih]
    rw [integral_map (f := fun x' : X × X => pairWeight q p lik y x' * markovE M lik f ys x'.2) measurable_prodMk_left.aemeasurable
      ((hwm y).mul (hmE.comp measurable_snd)).aestronglyMeasurable, hQ, hM,
      integral_withDensity_eq_integral_toReal_smul, integral_withDensity_eq_integral_toReal_smul]
    · refine integral_congr_ae (Filter.Eventually.of_forall fun x => ?_)
      have h1 := hq x ab.2 y
      simp only [pairWeight, ENNReal.toReal_ofReal h1.le, ENNReal.toReal_ofReal (hp x ab.2), smul_eq_mul]
      field_simp
    · exact (hpm.comp measurable_prodMk_left).ennreal_ofReal
    · exact Filter.Eventually.of_forall fun x => ENNReal.ofReal_lt_top
    · exact ((hqm y).comp measurable_prodMk_left).ennreal_ofReal
    · exact Filter.Eventually.of_forall fun x => ENNReal.ofReal_lt_top

end

/-- **C149.** With idealised random keys, particles proposed independently of each other from kernels `Q y` with positive densities `q`, a transition kernel `M` with
density `p`, importance weights `p(y | x) p(x | a) / q(x | a, y)` bounded by `W`, and a resampling scheme as in C148: for every number of particles, every step
and every bounded measurable `f`, the average of `f` over the cloud returned by `particle_filter` estimates the filtering mean
`E[f(x_t) | y_{1:t}]` of the model `(M, lik)` with a mean square error of at most a constant over `n`. The limit does not depend on the proposal. -/
theorem C149_particle_mse (proposal : (Fin n → X) → Y → K → Fin n → X) (q : X → X → Y → ℝ) (p : X → X → ℝ) (lik : Y → X → ℝ)
    (ys : List Y) (init : K → Fin n → X)
    (resampling : (Fin n → ℝ) → K → Fin n → ℕ) (splitFst : K → K) (splitN : K → ℕ → List K) (keysOf : K → Fin ys.length → K)
    (ρ ν ν' : Measure K) [IsProbabilityMeasure ν] [IsProbabilityMeasure ν'] (Q : Y → Kernel X X) [∀ y, IsMarkovKernel (Q y)]
    (M : Kernel X X) [IsMarkovKernel M] (lam : Measure X) (μ0 : Measure X) [IsProbabilityMeasure μ0] (W : ℝ)
    (hqm : ∀ y, Measurable fun ab : X × X => q ab.2 ab.1 y) (hpm : Measurable fun ab : X × X => p ab.2 ab.1) (hlm : ∀ y, Measurable (lik y))
    (hq : ∀ x a y, 0 < q x a y) (hp : ∀ x a, 0 < p x a) (hlik : ∀ y x, 0 < lik y x) (hW : ∀ y x a, lik y x * p x a / q x a y ≤ W)
    (hQ : ∀ y a, Q y a = lam.withDensity fun x => ENNReal.ofReal (q x a y)) (hM : ∀ a, M a = lam.withDensity fun x => ENNReal.ofReal (p x a))
    (htm : ∀ y, Measurable fun r : (Fin n → X) × K => proposal r.1 y r.2) (hrm : Measurable fun p : (Fin n → ℝ) × K => resampling p.1 p.2)
    (hsm : Measurable splitFst) (hsplit : ∀ key, splitN key ys.length = List.ofFn (keysOf key))
    (hideal : ρ.map (fun key => (init key, keysOf key)) = (Measure.pi fun _ => μ0).prod (Measure.pi fun _ => ν))
    (hind : ∀ y s, ν.map (fun k => (proposal s y k, splitFst k)) = (Measure.pi fun j => Q y (s j)).prod ν')
    (hrange : ∀ w k j, resampling w k j < n)
    (hres : ∀ w : Fin n → ℝ, (∀ i, 0 ≤ w i) → ∑ i, w i = 1 → ∀ i : Fin n, ∑ j, ν' {k | resampling w k j = i} = ENNReal.ofReal (n * w i))
    (hvar : ∀ w : Fin n → ℝ, (∀ i, 0 ≤ w i) → ∑ i, w i = 1 → ∀ φ : Fin n → ℝ,
      ∫ k, ((∑ j, gather φ (resampling w k) j) / n - ∑ i, w i * φ i) ^ 2 ∂ν' ≤ (∑ i, w i * (φ i - ∑ i, w i * φ i) ^ 2) / n)
    (f : X → ℝ) (hf : Measurable f) (F : ℝ) (hfF : ∀ x, |f x| ≤ F) (t : ℕ) (ht : t < ys.length) :
    let out := fun key => particleFilter proposal (fun x a y i => q (x i) (a i) y) (fun x a i => p (x i) (a i)) (fun y x i => lik y (x i)) ys init key
      resampling splitFst splitN
    let z := ∫ x, markovE M lik (fun _ => 1) (ys.take (t + 1)) x ∂μ0
    ∫ key, ((∑ j, f ((out key).getD t (init key) j)) / n - (∫ x, markovE M lik f (ys.take (t + 1)) x ∂μ0) / z) ^ 2 ∂ρ
      ≤ 4 * (2 * (t + 1) + 1) * (W ^ (t + 1) * F) ^ 2 / (n * z ^ 2) := by
  intro out z
  have hl : (ys.take (t + 1)).length = t + 1 := by rw [List.length_take, min_eq_left ht]
  have hle : (ys.take (t + 1)).length ≤ ys.length := by rw [hl]; exact ht
  have hwm : ∀ y, Measurable (pairWeight q p lik y) := fun y => (((hlm y).comp measurable_snd).mul hpm).div (hqm y)
  have hdiag : Measurable fun x : X => (x, x) := measurable_id.prodMk measurable_id
  have hμ : IsProbabilityMeasure (μ0.map fun x => (x, x)) := Measure.isProbabilityMeasure_map hdiag.aemeasurable
  have hmE : ∀ f : X → ℝ, Measurable f → Measurable (markovE M lik f (ys.take (t + 1))) := fun f hf => by
    rw [← markovEY_const]; exact measurable_markovEY (fun _ => M) hlm hf _
  have hsnd : Measurable fun (s : Fin n → X × X) i => (s i).2 := measurable_pi_lambda _ fun i => measurable_snd.comp (measurable_pi_apply i)
  have hdc : Measurable fun (s : Fin n → X) i => (s i, s i) := measurable_pi_lambda _ fun i => hdiag.comp (measurable_pi_apply i)
  have h := (runR_mse (pairTransition proposal) (pairWeight q p lik) (ys.take (t + 1)) (fun key i => (init key i, init key i)) resampling splitFst
    (fun key i => keysOf key (Fin.castLE hle i)) ρ ν ν' (pairKernel Q) (μ0.map fun x => (x, x)) W hwm
    (fun y ab => div_pos (mul_pos (hlik _ _) (hp _ _)) (hq _ _ _)) (fun y ab => hW y ab.2 ab.1) ?_ hrm hsm ?_ ?_ hrange hres hvar
    (fun ab => f ab.2) (hf.comp measurable_snd) F fun ab => hfF ab.2).2
  · simp only [markovEY_pair Q M lam hqm hpm hlm hq (fun x a => (hp x a).le) hQ hM f hf] at h
    have h1 : ∀ x, markovEY (pairKernel Q) (pairWeight q p lik) (fun _ => 1) (ys.take (t + 1)) x = markovE M lik (fun _ => 1) (ys.take (t + 1)) x.2 :=
      markovEY_pair Q M lam hqm hpm hlm hq (fun x a => (hp x a).le) hQ hM (fun _ => 1) measurable_const _
    simp only [h1] at h
    rw [integral_map (f := fun x : X × X => markovE M lik f (ys.take (t + 1)) x.2) hdiag.aemeasurable ((hmE f hf).comp measurable_snd).aestronglyMeasurable,
      integral_map (f := fun x : X × X => markovE M lik (fun _ => 1) (ys.take (t + 1)) x.2) hdiag.aemeasurable ((hmE _ measurable_const).comp measurable_snd).aestronglyMeasurable] at h
    have e : ∀ key, (fun j => (lastCloud (pairWeight q p lik) (pairTransition proposal) resampling splitFst (ys.take (t + 1))
        (fun i => (init key i, init key i)) (fun i => keysOf key (Fin.castLE hle i)) j).2) = (out key).getD t (init key) := by
      intro key
      rw [← particle_lastCloud (q := q) (p := p) (lik := lik) (proposal := proposal) resampling splitFst (ys.take (t + 1)) _ _ (init key) rfl]
      have hlen : t < (out key).length := by
        show t < (scan _ _ _).2.length
        rw [scan_len, List.length_zip, hsplit, List.length_ofFn, min_self]
        exact ht
      have h2 : (List.ofFn fun i : Fin (ys.take (t + 1)).length => keysOf key (Fin.castLE hle i)) = (splitN key ys.length).take (t + 1) := by
        rw [hsplit]
        refine List.ext_getElem (by simp [hl, ht]) fun i h1 h2 => ?_
        simp
      rw [h2, ← take_zip', scan_take, List.getLastD_eq_getLast?, List.getLast?_take]
      show ((out key)[t + 1 - 1]?.or _).getD _ = _
      rw [List.getD_eq_getElem _ _ hlen]
      simp [List.getElem?_eq_getElem hlen]
    have e' : ∀ key j, f (lastCloud (pairWeight q p lik) (pairTransition proposal) resampling splitFst (ys.take (t + 1))
        (fun i => (init key i, init key i)) (fun i => keysOf key (Fin.castLE hle i)) j).2 = f ((out key).getD t (init key) j) := fun key j =>
      congrArg f (congrFun (e key) j)
    simp only [e'] at h
    rw [hl] at h
    push_cast at h
    exact h
  · intro y
    refine measurable_pi_lambda _ fun i => ?_
    refine Measurable.prodMk (measurable_snd.comp ((measurable_pi_apply i).comp measurable_fst)) ?_
    exact (measurable_pi_apply i).comp ((htm y).comp ((hsnd.comp measurable_fst).prodMk measurable_snd))
  · have h1 := ideal_take hle hideal
    have hae : AEMeasurable (fun key => (init key, fun i : Fin (ys.take (t + 1)).length => keysOf key (Fin.castLE hle i))) ρ := by
      by_contra hc
      have := Measure.map_of_not_aemeasurable hc
      rw [h1] at this
      exact IsProbabilityMeasure.ne_zero _ this
    have h2 := Measure.map_prod_map (Measure.pi fun _ : Fin n => μ0) (Measure.pi fun _ : Fin (ys.take (t + 1)).length => ν) hdc measurable_id
    rw [Measure.map_id, Measure.pi_map_pi (fun _ => hdiag.aemeasurable)] at h2
    rw [h2, ← h1, AEMeasurable.map_map_of_aemeasurable (hdc.prodMap measurable_id).aemeasurable hae]
    rfl
  · intro y s
    have hpr : Measurable fun k => proposal (fun i => (s i).2) y k := (htm y).comp (measurable_const.prodMk measurable_id)
    have hmk : Measurable fun (z : Fin n → X) i => ((s i).2, z i) :=
      measurable_pi_lambda _ fun i => measurable_const.prodMk (measurable_pi_apply i)
    have h2 := Measure.map_prod_map (Measure.pi fun j => Q y (s j).2) ν' hmk measurable_id
    rw [Measure.map_id, Measure.pi_map_pi (f := fun (i : Fin n) (x : X) => ((s i).2, x)) (fun i => measurable_prodMk_left.aemeasurable)] at h2
    simp only [pairKernel_apply]
    rw [h2, ← hind y fun i => (s i).2, Measure.map_map (hmk.prodMap measurable_id) (hpr.prodMk hsm)]
    rfl

/-- the hypotheses of C149 on the model and the proposal, with a proposal that looks at the measurement. -/
example : let K := (Fin 2 → ℝ) × (Fin 2 → ℝ)
    let γ : Measure (Fin 2 → ℝ) := Measure.pi fun _ => gaussianReal 0 1
    let U : Measure (Fin 2 → ℝ) := Measure.pi fun _ => (volume : Measure ℝ).restrict (Set.Ico 0 1)
    let ν : Measure K := γ.prod U
    let ν' : Measure K := (Measure.dirac 0).prod U
    let proposal : (Fin 2 → ℝ) → ℝ → K → Fin 2 → ℝ := fun _ y k j => y / 2 + k.1 j
    let q : ℝ → ℝ → ℝ → ℝ := fun x _ y => gaussianPDFReal (y / 2) 1 x
    let p : ℝ → ℝ → ℝ := fun x _ => gaussianPDFReal 0 1 x
    let lik : ℝ → ℝ → ℝ := fun y x => Real.exp (-(y - x) ^ 2 / 2)
    let splitFst : K → K := fun k => (0, k.2)
    let Q : ℝ → Kernel ℝ ℝ := fun y => Kernel.const ℝ (gaussianReal (y / 2) 1)
    let M : Kernel ℝ ℝ := Kernel.const ℝ (gaussianReal 0 1)
    (∀ x a y, 0 < q x a y) ∧ (∀ x a, 0 < p x a) ∧ (∀ y x, 0 < lik y x) ∧ (∀ y x a, lik y x * p x a / q x a y ≤ 1) ∧
    (∀ y a, Q y a = volume.withDensity fun x => ENNReal.ofReal (q x a y)) ∧ (∀ a, M a = volume.withDensity fun x => ENNReal.ofReal (p x a)) ∧
    (∀ y, Measurable fun r : (Fin 2 → ℝ) × K => proposal r.1 y r.2) ∧
    (∀ y s, ν.map (fun k => (proposal s y k, splitFst k)) = (Measure.pi fun j => Q y (s j)).prod ν') := by
  intro K γ U ν ν' proposal q p lik splitFst Q M
  have hu : IsProbabilityMeasure ((volume : Measure ℝ).restrict (Set.Ico 0 1)) := ⟨by simp⟩
  have hU : IsProbabilityMeasure U := inferInstance
  have hpos : ∀ m x, 0 < gaussianPDFReal m 1 x := fun m x => gaussianPDFReal_pos m 1 x one_ne_zero
  refine ⟨fun x a y => hpos _ x, fun x a => hpos 0 x, fun y x => Real.exp_pos _, fun y x a => ?_, fun y a => ?_, fun a => ?_, fun y => ?_, fun y s => ?_⟩
  · rw [div_le_one (hpos _ x)]
    simp only [lik, p, gaussianPDFReal, NNReal.coe_one, mul_one]
    rw [mul_left_comm, ← Real.exp_add]
    refine mul_le_mul_of_nonneg_left (Real.exp_le_exp.2 ?_) (by positivity)
    nlinarith [sq_nonneg (x - y / 2), sq_nonneg y]
  · rw [Kernel.const_apply, gaussianReal_of_var_ne_zero _ one_ne_zero]
    rfl
  · rw [Kernel.const_apply, gaussianReal_of_var_ne_zero _ one_ne_zero]
    rfl
  · exact measurable_pi_lambda _ fun j => ((measurable_pi_apply j).comp (measurable_fst.comp measurable_snd)).const_add _
  · show (γ.prod U).map (fun k => ((fun j => y / 2 + k.1 j), ((0 : Fin 2 → ℝ), k.2))) = _
    have hm : Measurable fun (z : Fin 2 → ℝ) j => y / 2 + z j := measurable_pi_lambda _ fun j => (measurable_pi_apply j).const_add _
    have h := Measure.map_prod_map γ U hm (measurable_prodMk_left (x := (0 : Fin 2 → ℝ)) (β := Fin 2 → ℝ))
    have h1 : γ.map (fun (z : Fin 2 → ℝ) j => y / 2 + z j) = Measure.pi fun j => Q y (s j) := by
      rw [Measure.pi_map_pi (f := fun (_ : Fin 2) (x : ℝ) => y / 2 + x) (fun _ => (measurable_const_add _).aemeasurable)]
      simp only [gaussianReal_map_const_add, zero_add]
      rfl
    rw [h1] at h
    show _ = (Measure.pi fun j => Q y (s j)).prod ((Measure.dirac 0).prod U)
    rw [Measure.dirac_prod, h]
    rfl

end Mfs.Props

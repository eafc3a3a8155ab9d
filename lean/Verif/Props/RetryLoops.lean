import Verif.Model.RetryLoops
import Verif.Lemmas.Rejection
import Verif.Props.KeyScripts
import Mathlib.Data.Nat.Nth

/-!
# C195: the Monte Carlo loops that repeat a simulation

The prey-predator scripts simulate again while the simulated states contain a NaN; the timing script of the moment filter takes other data while the filter returns
a NaN.
-/

namespace Mfs.Props

open MeasureTheory ProbabilityTheory Measure Mfs.Lemmas Mfs.Retry Mfs.Prng

variable {K D : Type}

/-- **C195 (loop).** The loop of the prey-predator scripts ends if and only if some simulation of the chain of keys is free of NaNs, and then returns the first. -/
theorem C195_loop (G : Gen K) (simulate : K → D) (bad : D → Prop) (key : K) :
    (∀ j, ¬ bad (simulate (G.fst^[j] key)) → (∀ i < j, bad (simulate (G.fst^[i] key))) →
      simulateUntil G simulate bad key = some (G.fst^[j] key, simulate (G.fst^[j] key))) ∧
    ((∀ j, bad (simulate (G.fst^[j] key))) → simulateUntil G simulate bad key = none) := by
  constructor
  · intro j
    induction j generalizing key with
    | zero => intro h _; rw [simulateUntil.eq_1, if_neg (show ¬ bad (simulate key) from h)]; rfl
    | succ j ih =>
      intro h hl
      rw [simulateUntil.eq_1, if_pos (show bad (simulate key) from hl 0 (Nat.succ_pos _))]
      exact ih _ h fun i hi => hl (i + 1) (Nat.succ_lt_succ hi)
  · intro h
    rw [Option.eq_none_iff_forall_ne_some]
    intro r hr
    have := simulateUntil.partial_correctness G simulate bad (fun key _ => ∃ j, ¬ bad (simulate (G.fst^[j] key))) (fun f hf key r hb => by
      by_cases hk : bad (simulate key)
      · rw [if_pos hk] at hb
        obtain ⟨j, hj⟩ := hf _ _ hb
        exact ⟨j + 1, hj⟩
      · exact ⟨0, hk⟩) key r hr
    obtain ⟨j, hj⟩ := this
    exact hj (h j)

theorem simulateUntil_eq (G : Gen K) (simulate : K → D) (bad : D → Prop) (key : K) (h : ∃ j, ¬ bad (simulate (G.fst^[j] key))) :
    simulateUntil G simulate bad key = some (G.fst^[first {d | ¬ bad d} fun j => simulate (G.fst^[j] key)] key,
      (accept {d | ¬ bad d} fun j => simulate (G.fst^[j] key)).1) :=
  (C195_loop G simulate bad key).1 _ (first_mem (g := {d | ¬ bad d}) h) fun i hi => by
    have := notMem_of_lt_first hi
    simpa using this

theorem hasNan_absDiff (xs means : List (Fin 2 → Option ℝ)) (hx : ¬ hasNan xs) (hl : means.length = xs.length) : hasNan (absDiff xs means) ↔ hasNan means := by
  have hx' : ∀ x ∈ xs, ∀ i, ∃ a, x i = some a := fun x hxm i => by
    cases h : x i with
    | none => exact absurd ⟨x, hxm, i, h⟩ hx
    | some a => exact ⟨a, rfl⟩
  clear hx
  induction xs generalizing means with
  | nil =>
    obtain rfl : means = [] := by simpa using hl
    simp [absDiff, hasNan]
  | cons x xs ih =>
    cases means with
    | nil => simp at hl
    | cons m means =>
      have h1 := ih means (by simpa using hl) fun y hy => hx' y (List.mem_cons_of_mem _ hy)
      have h2 : (∃ i, ((x i).bind fun a => (m i).map fun b => |a - b|) = none) ↔ ∃ i, m i = none := by
        refine exists_congr fun i => ?_
        obtain ⟨a, ha⟩ := hx' x (by simp) i
        simp [ha]
      have e1 : hasNan (absDiff (x :: xs) (m :: means)) ↔ (∃ i, ((x i).bind fun a => (m i).map fun b => |a - b|) = none) ∨ hasNan (absDiff xs means) := by
        simp [hasNan, absDiff]
      have e2 : hasNan (m :: means) ↔ (∃ i, m i = none) ∨ hasNan means := by simp [hasNan]
      exact e1.trans ((or_congr h2 h1).trans e2.symm)

/-- **C195 (same data).** In every run the moment filter, the particle filter and the two Gaussian filters of the prey-predator scripts are given the same data,
free of NaNs, or no script finishes the run; the saved errors of a filter contain a NaN exactly if its means do,
and are else the distances of the means from the states. -/
theorem C195_same_data (G : Gen K) (simulate : K → Data) (momentFilter ghf ekf : List Bool → List (Fin 2 → Option ℝ))
    (bf : List Bool → K → List (Fin 2 → Option ℝ)) (rngKeys : List K) (k : ℕ) (hk : k < rngKeys.length) :
    (∃ j, ¬ hasNan (simulate (G.fst^[j] rngKeys[k])).1 ∧ (∀ i < j, hasNan (simulate (G.fst^[i] rngKeys[k])).1) ∧
      let d := simulate (G.fst^[j] rngKeys[k])
      preyMfRun G simulate momentFilter rngKeys k = some (absDiff d.1 (momentFilter d.2)) ∧
      preyPfRun G simulate bf rngKeys k = some (absDiff d.1 (bf d.2 (G.fst^[j + 1] rngKeys[k]))) ∧
      preyGaussRun G simulate ghf ekf rngKeys k = some (absDiff d.1 (ghf d.2), absDiff d.1 (ekf d.2)) ∧
      ∀ means : List (Fin 2 → Option ℝ), means.length = d.1.length → (hasNan (absDiff d.1 means) ↔ hasNan means) ∧ (absDiff d.1 means).length = d.1.length ∧
        ∀ (t : ℕ) (x m : Fin 2 → Option ℝ), d.1[t]? = some x → means[t]? = some m →
          ∃ e, (absDiff d.1 means)[t]? = some e ∧ ∀ i, ∃ a, x i = some a ∧ e i = (m i).map fun b => |a - b|) ∨
    (∀ j, hasNan (simulate (G.fst^[j] rngKeys[k])).1) ∧ preyMfRun G simulate momentFilter rngKeys k = none ∧
      preyPfRun G simulate bf rngKeys k = none ∧ preyGaussRun G simulate ghf ekf rngKeys k = none := by
  have hkk : rngKeys[k]? = some rngKeys[k] := List.getElem?_eq_getElem hk
  obtain ⟨h1, h2⟩ := C195_loop G simulate (fun d => hasNan d.1) rngKeys[k]
  by_cases h : ∃ j, ¬ hasNan (simulate (G.fst^[j] rngKeys[k])).1
  · left
    classical
    have hs := Nat.find_spec h
    have hm : ∀ i < Nat.find h, hasNan (simulate (G.fst^[i] rngKeys[k])).1 := fun i hi => not_not.1 (Nat.find_min h hi)
    have e := h1 _ hs hm
    refine ⟨Nat.find h, hs, hm, ?_, ?_, ?_, fun means hl => ⟨hasNan_absDiff _ _ hs hl, by simp [absDiff, hl], ?_⟩⟩
    · simp only [preyMfRun, hkk, Option.bind_some, e, Option.map_some]
    · simp only [preyPfRun, hkk, Option.bind_some, e, Option.map_some, Function.iterate_succ_apply']
    · simp only [preyGaussRun, hkk, Option.bind_some, e, Option.map_some]
    · intro t x m hx hm
      refine ⟨fun i => (x i).bind fun a => (m i).map fun b => |a - b|, by simp only [absDiff, List.getElem?_zipWith, hx, hm], fun i => ?_⟩
      cases hxi : x i with
      | none => exact absurd ⟨x, List.mem_of_getElem? hx, i, hxi⟩ hs
      | some a => exact ⟨a, rfl, by simp [hxi]⟩
  · right
    push Not at h
    have e := h2 h
    exact ⟨h, by simp [preyMfRun, hkk, e], by simp [preyPfRun, hkk, e], by simp [preyGaussRun, hkk, e]⟩

/-- **C195 (law of the data).** If the simulations with the keys of all chains are independent with law `π`, then almost surely all loops end, and the accepted data
of the runs are independent with law `π` conditioned on the absence of NaNs. -/
theorem C195_law {Ω : Type} [MeasurableSpace Ω] [MeasurableSpace D] (P : Measure Ω) [IsProbabilityMeasure P] (G : Gen K) (simulate : Ω → K → D) (bad : D → Prop)
    (hbad : MeasurableSet {d | ¬ bad d}) (π : Measure D) [IsProbabilityMeasure π] (hpos : π {d | ¬ bad d} ≠ 0) {m : ℕ} (keys : Fin m → K)
    (hmeas : ∀ k j, Measurable fun ω => simulate ω (G.fst^[j] (keys k))) (hlaw : ∀ k j, P.map (fun ω => simulate ω (G.fst^[j] (keys k))) = π)
    (hind : iIndepFun (fun (p : Fin m × ℕ) ω => simulate ω (G.fst^[p.2] (keys p.1))) P) :
    ∃ data : Ω → Fin m → D, Measurable data ∧ (∀ᵐ ω ∂P, ∀ k, ∃ key, simulateUntil G (simulate ω) bad (keys k) = some (key, data ω k)) ∧
      P.map data = Measure.pi fun _ => π[|{d | ¬ bad d}] := by
  have hc := cond_isProbabilityMeasure hpos
  have h1 := hind.map_fun_eq_infinitePi_map fun p : Fin m × ℕ => hmeas p.1 p.2
  simp only [hlaw] at h1
  have hm1 : Measurable fun ω (p : Fin m × ℕ) => simulate ω (G.fst^[p.2] (keys p.1)) := measurable_pi_lambda _ fun p => hmeas _ _
  have h2 : P.map (fun ω k (j : ℕ) => simulate ω (G.fst^[j] (keys k))) = infinitePi fun _ : Fin m => infinitePi fun _ : ℕ => π := by
    rw [← infinitePi_map_curry (fun (_ : Fin m) (_ : ℕ) => π), ← h1, Measure.map_map (MeasurableEquiv.measurable _) hm1]
    rfl
  have hm2 : Measurable fun ω k (j : ℕ) => simulate ω (G.fst^[j] (keys k)) := measurable_pi_lambda _ fun k => measurable_pi_lambda _ fun j => hmeas _ _
  have hE : ∀ k, P.map (fun ω (j : ℕ) => simulate ω (G.fst^[j] (keys k))) = infinitePi fun _ : ℕ => π := fun k => by
    rw [← infinitePi_map_eval (fun _ : Fin m => infinitePi fun _ : ℕ => π) k, ← h2, Measure.map_map (measurable_pi_apply k) hm2]
    rfl
  refine ⟨fun ω k => (accept {d | ¬ bad d} fun j => simulate ω (G.fst^[j] (keys k))).1, ?_, ?_, ?_⟩
  · exact measurable_pi_lambda _ fun k => ((measurable_accept hbad).comp (measurable_pi_lambda _ fun j => hmeas k j)).fst
  · rw [ae_all_iff]
    intro k
    have h3 := ae_exists π hbad hpos
    rw [← hE k] at h3
    filter_upwards [ae_of_ae_map (measurable_pi_lambda _ fun j => hmeas k j).aemeasurable h3] with ω hω
    exact ⟨_, simulateUntil_eq G (simulate ω) bad (keys k) hω⟩
  · have h4 := infinitePi_map_pi (fun _ : Fin m => infinitePi fun _ : ℕ => π) (f := fun _ E => (accept {d | ¬ bad d} E).1)
      fun _ => (measurable_accept hbad).fst
    have h5 : (infinitePi fun _ : ℕ => π).map (fun E => (accept {d | ¬ bad d} E).1) = π[|{d | ¬ bad d}] := by
      have := congrArg (fun μ => μ.map Prod.fst) (accept_map π hbad hpos)
      simp only [Measure.map_map measurable_fst (measurable_accept hbad), Measure.map_fst_prod, measure_univ, one_smul] at this
      exact this
    simp only [h5] at h4
    have hm3 : Measurable fun (x : Fin m → ℕ → D) i => (accept {d | ¬ bad d} (x i)).1 :=
      measurable_pi_lambda _ fun k => (measurable_accept hbad).fst.comp (measurable_pi_apply k)
    rw [← h2, Measure.map_map hm3 hm2, infinitePi_eq_pi] at h4
    exact h4

/-- a generator whose keys are pairs: the number of the run and the number of the attempt. -/
def attemptGen : Gen (ℕ × ℕ) := ⟨fun k n => (List.range n).map fun i => (k.1, k.2 + 1 + i), fun _ _ _ => 0, fun _ _ _ => 0⟩

theorem attemptGen_iterate (k : ℕ × ℕ) (j : ℕ) : attemptGen.fst^[j] k = (k.1, k.2 + j) := by
  induction j generalizing k with
  | zero => rfl
  | succ j ih =>
    rw [Function.iterate_succ_apply, ih]
    simp [Gen.fst, Gen.key, attemptGen]
    omega

/-- three runs with normal data, of which the negative are rejected. -/
example : ∃ data : (ℕ × ℕ → ℝ) → Fin 3 → ℝ, Measurable data ∧
    (∀ᵐ ω ∂(infinitePi fun _ : ℕ × ℕ => gaussianReal 0 1), ∀ k : Fin 3, ∃ key, simulateUntil attemptGen ω (· < 0) ((k : ℕ), 0) = some (key, data ω k)) ∧
    (infinitePi fun _ : ℕ × ℕ => gaussianReal 0 1).map data = Measure.pi fun _ => (gaussianReal 0 1)[|{d | ¬ d < 0}] := by
  refine C195_law (D := ℝ) (infinitePi fun _ : ℕ × ℕ => gaussianReal 0 1) attemptGen (fun ω => ω) (· < 0) measurableSet_Iio.compl (gaussianReal 0 1) ?_
    (fun k : Fin 3 => ((k : ℕ), 0)) (fun k j => measurable_pi_apply _) (fun k j => infinitePi_map_eval _ _) ?_
  · have h : volume ≪ gaussianReal 0 1 := gaussianReal_absolutelyContinuous' 0 one_ne_zero
    intro h0
    have := h h0
    have e : {d : ℝ | ¬ d < 0} = Set.Ici 0 := by ext; simp
    rw [e] at this
    simp at this
  · simp only [attemptGen_iterate, zero_add]
    refine iIndepFun.precomp (g := fun p : Fin 3 × ℕ => ((p.1 : ℕ), p.2)) ?_ (iIndepFun_infinitePi (X := fun _ ω => ω) fun _ => measurable_id)
    rintro ⟨a, b⟩ ⟨c, e⟩ h
    simp only [Prod.mk.injEq] at h
    exact Prod.ext (Fin.ext h.1) h.2

/-! ### The timing script -/

theorem timedLoop_good (G : Gen K) (simulator : K → D) (bad : D → Prop) (cost : D → ℝ) (key : K) (ys : D) (h : ¬ bad ys) :
    timedLoop G simulator bad cost key ys = some (key, cost ys) := by
  rw [timedLoop.eq_1, if_neg h]

theorem timedLoop_bad (G : Gen K) (simulator : K → D) (bad : D → Prop) (cost : D → ℝ) (key : K) (ys : D) (h : bad ys)
    (hex : ∃ j, ¬ bad (simulator (G.fst^[j + 1] key))) :
    timedLoop G simulator bad cost key ys = some (G.fst^[first {d | ¬ bad d} (fun j => simulator (G.fst^[j + 1] key)) + 1] key,
      cost (accept {d | ¬ bad d} fun j => simulator (G.fst^[j + 1] key)).1) := by
  have h1 : ∀ j (key : K) (ys : D), bad ys → ¬ bad (simulator (G.fst^[j + 1] key)) → (∀ i < j, bad (simulator (G.fst^[i + 1] key))) →
      timedLoop G simulator bad cost key ys = some (G.fst^[j + 1] key, cost (simulator (G.fst^[j + 1] key))) := by
    intro j
    induction j with
    | zero =>
      intro key ys hb h _
      rw [timedLoop.eq_1, if_pos hb]
      exact timedLoop_good G simulator bad cost _ _ h
    | succ j ih =>
      intro key ys hb h hl
      rw [timedLoop.eq_1, if_pos hb]
      exact ih _ _ (hl 0 (Nat.succ_pos _)) h fun i hi => hl (i + 1) (Nat.succ_lt_succ hi)
  exact h1 _ _ _ h (first_mem (g := {d | ¬ bad d}) hex) fun i hi => by
    have := notMem_of_lt_first hi
    simpa using this

theorem timedLoop_none (G : Gen K) (simulator : K → D) (bad : D → Prop) (cost : D → ℝ) (key : K) (ys : D) (h : bad ys)
    (hall : ∀ j, bad (simulator (G.fst^[j + 1] key))) : timedLoop G simulator bad cost key ys = none := by
  rw [Option.eq_none_iff_forall_ne_some]
  intro r hr
  have := timedLoop.partial_correctness G simulator bad cost (fun key ys _ => ¬ bad ys ∨ ∃ j, ¬ bad (simulator (G.fst^[j + 1] key))) (fun f hf key ys r hb => by
    by_cases hk : bad ys
    · rw [if_pos hk] at hb
      rcases hf _ _ _ hb with h | ⟨j, hj⟩
      · exact Or.inr ⟨0, h⟩
      · exact Or.inr ⟨j + 1, hj⟩
    · exact Or.inl hk) key ys r hr
  rcases this with h1 | ⟨j, hj⟩
  · exact h1 h
  · exact hj (hall j)

/-- the loop over the runs. -/
noncomputable def timeFold (G : Gen K) (simulator : K → D) (bad : D → Prop) (cost : D → ℝ) (rngKeys : List K) (keyNan : K) (m : ℕ) : Option (K × List ℝ) :=
  (List.range m).foldlM (fun (s : K × List ℝ) k =>
      rngKeys[k]?.bind fun key => (timedLoop G simulator bad cost s.1 (simulator key)).map fun r => (r.1, s.2 ++ [r.2])) (keyNan, [])

theorem timeFold_succ (G : Gen K) (simulator : K → D) (bad : D → Prop) (cost : D → ℝ) (rngKeys : List K) (keyNan : K) (m : ℕ) (hm : m < rngKeys.length) :
    timeFold G simulator bad cost rngKeys keyNan (m + 1) = (timeFold G simulator bad cost rngKeys keyNan m).bind fun s =>
      (timedLoop G simulator bad cost s.1 (simulator rngKeys[m])).map fun r => (r.1, s.2 ++ [r.2]) := by
  simp only [timeFold, List.range_succ, List.foldlM_append, List.foldlM_cons, List.foldlM_nil, List.getElem?_eq_getElem hm, Option.bind_some, bind_pure]
  rfl

/-- the accepted data of run `k`, from the data of the runs and those of the reserve. -/
noncomputable def accepted (g : Set D) (s : (ℕ → D) × (ℕ → D)) (k : ℕ) : D := (runStep g ((fun z => (runStep g z).2)^[k] s)).1

/-- the state after `k` runs. -/
theorem timeFold_eq (G : Gen K) (simulator : K → D) (bad : D → Prop) (cost : D → ℝ) (rngKeys : List K) (keyNan : K) (F : ℕ → D)
    (hF : ∀ k (hk : k < rngKeys.length), F k = simulator rngKeys[k]) (hex : ∀ n, ∃ j, ¬ bad (simulator (G.fst^[n + j + 1] keyNan))) (m : ℕ) (hm : m ≤ rngKeys.length) :
    ∃ n, timeFold G simulator bad cost rngKeys keyNan m = some (G.fst^[n] keyNan,
        (List.range m).map fun k => cost (accepted {d | ¬ bad d} (F, fun j => simulator (G.fst^[j + 1] keyNan)) k)) ∧
      (fun z => (runStep {d | ¬ bad d} z).2)^[m] (F, fun j => simulator (G.fst^[j + 1] keyNan)) = (fun j => F (m + j), fun j => simulator (G.fst^[n + j + 1] keyNan)) := by
  induction m with
  | zero => exact ⟨0, rfl, by simp⟩
  | succ m ih =>
    obtain ⟨n, h1, h2⟩ := ih (by omega)
    have hacc : accepted {d | ¬ bad d} (F, fun j => simulator (G.fst^[j + 1] keyNan)) m
        = (runStep {d | ¬ bad d} (fun j => F (m + j), fun j => simulator (G.fst^[n + j + 1] keyNan))).1 := by
      rw [accepted, h2]
    have hit : ∀ j, G.fst^[j + 1] (G.fst^[n] keyNan) = G.fst^[n + j + 1] keyNan := fun j => by
      rw [← Function.iterate_add_apply]; congr 1; omega
    rw [timeFold_succ _ _ _ _ _ _ _ (by omega), h1, Option.bind_some, Function.iterate_succ_apply', h2, List.range_succ, List.map_append, List.map_singleton, hacc]
    by_cases hb : bad (F m)
    · have e : runStep {d | ¬ bad d} (fun j => F (m + j), fun j => simulator (G.fst^[n + j + 1] keyNan))
          = ((accept {d | ¬ bad d} fun j => simulator (G.fst^[n + j + 1] keyNan)).1,
            (fun j => F (m + (j + 1)), (accept {d | ¬ bad d} fun j => simulator (G.fst^[n + j + 1] keyNan)).2)) := by
        simp [runStep, hb]
      have ht := timedLoop_bad G simulator bad cost (G.fst^[n] keyNan) (simulator rngKeys[m]) (by rw [← hF]; exact hb)
        (by simp only [hit]; exact hex n)
      simp only [hit] at ht
      refine ⟨n + first {d | ¬ bad d} (fun j => simulator (G.fst^[n + j + 1] keyNan)) + 1, ?_, ?_⟩
      · rw [ht, Option.map_some, e]
      · rw [e]
        refine Prod.ext (funext fun j => congrArg F (by omega)) (funext fun j => ?_)
        simp only [accept]
        congr 2
        omega
    · have e : runStep {d | ¬ bad d} (fun j => F (m + j), fun j => simulator (G.fst^[n + j + 1] keyNan))
          = (F m, (fun j => F (m + (j + 1)), fun j => simulator (G.fst^[n + j + 1] keyNan))) := by
        simp [runStep, hb]
      have ht := timedLoop_good G simulator bad cost (G.fst^[n] keyNan) (simulator rngKeys[m]) (by rw [← hF]; exact hb)
      refine ⟨n, ?_, ?_⟩
      · rw [ht, Option.map_some, e, hF m (by omega)]
      · rw [e]
        exact Prod.ext (funext fun j => congrArg F (by omega)) rfl

/-- the accepted data in closed form: run `k` takes its own data if these are good, else the next good data of the reserve. -/
theorem accepted_eq (g : Set D) (F E : ℕ → D) (hinf : {j | E j ∈ g}.Infinite) (k : ℕ) [DecidablePred fun i => F i ∉ g] [DecidablePred fun i => E i ∈ g] :
    accepted g (F, E) k = if F k ∉ g then E (Nat.nth (fun j => E j ∈ g) (Nat.count (fun i => F i ∉ g) k)) else F k := by
  have key : ∀ k, ∃ n, (fun z => (runStep g z).2)^[k] (F, E) = (fun j => F (k + j), fun j => E (n + j)) ∧
      n ≤ Nat.nth (fun j => E j ∈ g) (Nat.count (fun i => F i ∉ g) k) ∧
      ∀ i, n ≤ i → i < Nat.nth (fun j => E j ∈ g) (Nat.count (fun i => F i ∉ g) k) → E i ∉ g := by
    intro k
    induction k with
    | zero =>
      refine ⟨0, by simp, Nat.zero_le _, fun i _ hi hm => ?_⟩
      have h1 : Nat.nth (fun j => E j ∈ g) (Nat.count (fun j => E j ∈ g) i) = i := Nat.nth_count hm
      rw [← h1, Nat.count_zero, Nat.nth_lt_nth hinf] at hi
      exact Nat.not_lt_zero _ hi
    | succ k ih =>
      obtain ⟨n, h1, h2, h3⟩ := ih
      have hmem : E (Nat.nth (fun j => E j ∈ g) (Nat.count (fun i => F i ∉ g) k)) ∈ g := Nat.nth_mem_of_infinite hinf _
      rw [Function.iterate_succ_apply', h1]
      by_cases hk : F k ∈ g
      · refine ⟨n, ?_, ?_, ?_⟩
        · simp only [runStep, add_zero, hk, if_true]
          exact Prod.ext (funext fun j => congrArg F (by omega)) rfl
        · rwa [Nat.count_succ, if_neg (not_not.2 hk)]
        · rwa [Nat.count_succ, if_neg (not_not.2 hk)]
      · have hf : first g (fun j => E (n + j)) = Nat.nth (fun j => E j ∈ g) (Nat.count (fun i => F i ∉ g) k) - n := by
          refine first_eq ?_ fun i hi => h3 _ (by omega) (by omega)
          rwa [Nat.add_sub_cancel' h2]
        refine ⟨Nat.nth (fun j => E j ∈ g) (Nat.count (fun i => F i ∉ g) k) + 1, ?_, ?_, ?_⟩
        · simp only [runStep, add_zero, hk, if_false, accept, hf]
          exact Prod.ext (funext fun j => congrArg F (by omega)) (funext fun j => congrArg E (by omega))
        · rw [Nat.count_succ, if_pos hk]
          exact (Nat.nth_lt_nth hinf).2 (Nat.lt_succ_self _)
        · intro i hi1 hi2 hm
          have h1 : Nat.nth (fun j => E j ∈ g) (Nat.count (fun j => E j ∈ g) i) = i := Nat.nth_count hm
          rw [Nat.count_succ, if_pos hk, ← h1, Nat.nth_lt_nth hinf] at hi2
          have hi1 : Nat.nth (fun j => E j ∈ g) (Nat.count (fun i => F i ∉ g) k) < i := hi1
          rw [← h1, Nat.nth_lt_nth hinf] at hi1
          omega
  obtain ⟨n, h1, h2, h3⟩ := key k
  have hmem : E (Nat.nth (fun j => E j ∈ g) (Nat.count (fun i => F i ∉ g) k)) ∈ g := Nat.nth_mem_of_infinite hinf _
  rw [accepted, h1]
  by_cases hk : F k ∈ g
  · simp [runStep, hk]
  · have hf : first g (fun j => E (n + j)) = Nat.nth (fun j => E j ∈ g) (Nat.count (fun i => F i ∉ g) k) - n := by
      refine first_eq ?_ fun i hi => h3 _ (by omega) (by omega)
      rwa [Nat.add_sub_cancel' h2]
    simp only [runStep, add_zero, hk, if_false, accept, hf, Nat.add_sub_cancel' h2, not_false_eq_true, if_true]

theorem elapsedTimes_eq_fold (G : Gen K) (simulator : K → D) (bad : D → Prop) (cost : D → ℝ) (rngKeys : List K) (keyNan : K) (hl : rngKeys.getLast? = some keyNan)
    (m : ℕ) : elapsedTimes G simulator bad cost rngKeys m = (timeFold G simulator bad cost rngKeys keyNan m).map (·.2) := by
  simp only [elapsedTimes, hl, Option.bind_some, timeFold]

open _root_.Classical in
/-- **C195 (times).** The times that `time_profile/mf.py` saves: run `k` contributes the time for its own data if the filter returns no NaN for these, and else the
time for the next data of the reserve (the chain of keys that starts after the last key of the file) for which it returns none. No run uses data of the reserve
twice. If the filter returns no NaN for the data of the runs, the times are those for these data, as for the other filters; if it returns one in some run and for
the whole reserve, the script does not end. -/
theorem C195_times (G : Gen K) (simulator : K → D) (bad : D → Prop) (cost : D → ℝ) (rngKeys : List K) (keyNan : K) (hl : rngKeys.getLast? = some keyNan)
    (maxmc : ℕ) (hm : maxmc ≤ rngKeys.length) :
    let E := fun j => simulator (G.fst^[j + 1] keyNan)
    let F := fun k => simulator (rngKeys.getD k keyNan)
    ({j | ¬ bad (E j)}.Infinite → elapsedTimes G simulator bad cost rngKeys maxmc = some ((List.range maxmc).map fun k =>
      if bad (F k) then cost (E (Nat.nth (fun j => ¬ bad (E j)) (Nat.count (fun i => bad (F i)) k))) else cost (F k))) ∧
    ((∀ k < maxmc, ¬ bad (F k)) → elapsedTimes G simulator bad cost rngKeys maxmc = elapsedTimesPlain simulator cost rngKeys maxmc) ∧
    ((∃ k < maxmc, bad (F k)) → (∀ j, bad (E j)) → elapsedTimes G simulator bad cost rngKeys maxmc = none) ∧
    elapsedTimesPlain simulator cost rngKeys maxmc = some ((List.range maxmc).map fun k => cost (F k)) := by
  intro E F
  have hF : ∀ k (hk : k < rngKeys.length), F k = simulator rngKeys[k] := fun k hk => by
    simp [F, List.getD_eq_getElem?_getD, hk]
  have hplain : elapsedTimesPlain simulator cost rngKeys maxmc = some ((List.range maxmc).map fun k => cost (F k)) := by
    have h : ∀ l : List ℕ, (∀ k ∈ l, k < rngKeys.length) → l.mapM (fun k => rngKeys[k]?.map fun key => cost (simulator key)) = some (l.map fun k => cost (F k)) := by
      intro l
      induction l with
      | nil => intro _; rfl
      | cons a l ih =>
        intro h
        rw [List.mapM_cons, ih fun k hk => h k (List.mem_cons_of_mem _ hk), List.getElem?_eq_getElem (h a (by simp)), Option.map_some, List.map_cons,
          hF a (h a (by simp))]
        rfl
    exact h _ fun k hk => lt_of_lt_of_le (List.mem_range.1 hk) hm
  have hgood : ∀ m ≤ maxmc, (∀ k < m, ¬ bad (F k)) → timeFold G simulator bad cost rngKeys keyNan m = some (keyNan, (List.range m).map fun k => cost (F k)) := by
    intro m
    induction m with
    | zero => intro _ _; rfl
    | succ m ih =>
      intro h1 h2
      rw [timeFold_succ _ _ _ _ _ _ _ (by omega), ih (by omega) fun k hk => h2 k (by omega), Option.bind_some,
        timedLoop_good _ _ _ _ _ _ (by rw [← hF]; exact h2 m (Nat.lt_succ_self _)), Option.map_some, List.range_succ, List.map_append, List.map_singleton,
        hF m (by omega)]
  refine ⟨fun hinf => ?_, fun h => ?_, fun ⟨k, hk, hb⟩ hE => ?_, hplain⟩
  · have hex : ∀ n, ∃ j, ¬ bad (simulator (G.fst^[n + j + 1] keyNan)) := fun n => by
      obtain ⟨j, hj, hn⟩ := hinf.exists_gt n
      exact ⟨j - n, by rw [show n + (j - n) = j by omega]; exact hj⟩
    obtain ⟨n, h1, -⟩ := timeFold_eq G simulator bad cost rngKeys keyNan F hF hex maxmc hm
    rw [elapsedTimes_eq_fold _ _ _ _ _ _ hl, h1, Option.map_some]
    congr 1
    refine List.map_congr_left fun k _ => ?_
    have := accepted_eq {d | ¬ bad d} F E hinf k
    rw [this]
    simp only [Set.mem_ofPred_eq, not_not]
    split_ifs <;> rfl
  · rw [elapsedTimes_eq_fold _ _ _ _ _ _ hl, hgood _ le_rfl h, Option.map_some, hplain]
  · have hx : ∃ m, bad (F m) := ⟨k, hb⟩
    have hfirst : ∃ m < maxmc, bad (F m) ∧ ∀ i < m, ¬ bad (F i) :=
      ⟨Nat.find hx, lt_of_le_of_lt (Nat.find_min' hx hb) hk, Nat.find_spec hx, fun i hi => Nat.find_min hx hi⟩
    obtain ⟨m, hm1, hm2, hm3⟩ := hfirst
    have hnone : ∀ j, m + 1 + j ≤ maxmc → timeFold G simulator bad cost rngKeys keyNan (m + 1 + j) = none := by
      intro j
      induction j with
      | zero =>
        intro h
        rw [add_zero, timeFold_succ _ _ _ _ _ _ _ (by omega), hgood m (by omega) hm3, Option.bind_some,
          timedLoop_none _ _ _ _ _ _ (by rw [← hF]; exact hm2) hE, Option.map_none]
      | succ j ih =>
        intro h
        rw [← add_assoc, timeFold_succ _ _ _ _ _ _ _ (by omega), ih (by omega), Option.bind_none]
    have := hnone (maxmc - (m + 1)) (by omega)
    rw [show m + 1 + (maxmc - (m + 1)) = maxmc by omega] at this
    rw [elapsedTimes_eq_fold _ _ _ _ _ _ hl, this, Option.map_none]

theorem accepted_congr (g : Set D) (F F' E : ℕ → D) (k : ℕ) (h : ∀ i ≤ k, F i = F' i) : accepted g (F, E) k = accepted g (F', E) k := by
  have key : ∀ k, (∀ i < k, F i = F' i) → ∃ E', (fun z => (runStep g z).2)^[k] (F, E) = (fun j => F (k + j), E') ∧
      (fun z => (runStep g z).2)^[k] (F', E) = (fun j => F' (k + j), E') := by
    intro k
    induction k with
    | zero => exact fun _ => ⟨E, by simp, by simp⟩
    | succ k ih =>
      intro h
      obtain ⟨E', h1, h2⟩ := ih fun i hi => h i (by omega)
      have hk := h k (Nat.lt_succ_self _)
      simp only [Function.iterate_succ_apply', h1, h2]
      by_cases hg : F k ∈ g
      · refine ⟨E', ?_, ?_⟩
        · simp only [runStep, add_zero, hg, if_true]
          exact Prod.ext (funext fun j => congrArg F (by omega)) rfl
        · simp only [runStep, add_zero, ← hk, hg, if_true]
          exact Prod.ext (funext fun j => congrArg F' (by omega)) rfl
      · refine ⟨(accept g E').2, ?_, ?_⟩
        · simp only [runStep, add_zero, hg, if_false]
          exact Prod.ext (funext fun j => congrArg F (by omega)) rfl
        · simp only [runStep, add_zero, ← hk, hg, if_false]
          exact Prod.ext (funext fun j => congrArg F' (by omega)) rfl
  obtain ⟨E', h1, h2⟩ := key k fun i hi => h i hi.le
  rw [accepted, accepted, h1, h2]
  by_cases hg : F k ∈ g
  · simp only [runStep, add_zero, ← h k le_rfl, hg, if_true]
  · simp only [runStep, add_zero, ← h k le_rfl, hg, if_false]

section
variable [MeasurableSpace D]

theorem measurable_accepted {g : Set D} (hg : MeasurableSet g) (k : ℕ) : Measurable fun s => accepted g s k :=
  ((measurable_runStep hg).comp ((measurable_runStep hg).snd.iterate k)).fst

theorem infinitePi_sum (π : Measure D) [IsProbabilityMeasure π] {A B : Type} :
    ((infinitePi fun _ : A => π).prod (infinitePi fun _ : B => π)).map (fun s => Sum.elim s.1 s.2) = infinitePi fun _ : A ⊕ B => π := by
  classical
  refine eq_infinitePi _ fun s t ht => ?_
  have hm : Measurable fun s : (A → D) × (B → D) => (Sum.elim s.1 s.2 : A ⊕ B → D) := by
    refine measurable_pi_lambda _ fun i => ?_
    cases i with
    | inl a => exact (measurable_pi_apply a).comp measurable_fst
    | inr b => exact (measurable_pi_apply b).comp measurable_snd
  rw [Measure.map_apply hm (.pi s.countable_toSet fun _ _ => ht _)]
  have e : (fun s : (A → D) × (B → D) => (Sum.elim s.1 s.2 : A ⊕ B → D)) ⁻¹' Set.pi s t
      = Set.pi (s.toLeft : Finset A) (fun a => t (Sum.inl a)) ×ˢ Set.pi (s.toRight : Finset B) (fun b => t (Sum.inr b)) := by
    ext ⟨u, v⟩
    simp only [Set.mem_preimage, Set.mem_pi, Finset.mem_coe, Set.mem_prod, Finset.mem_toLeft, Finset.mem_toRight]
    constructor
    · exact fun h => ⟨fun a ha => h _ ha, fun b hb => h _ hb⟩
    · rintro ⟨h1, h2⟩ (a | b) hi
      · exact h1 a hi
      · exact h2 b hi
  rw [e, prod_prod, infinitePi_pi _ fun _ _ => ht _, infinitePi_pi _ fun _ _ => ht _]
  conv_rhs => rw [← Finset.toLeft_disjSum_toRight (u := s), Finset.prod_disjSum]

/-- **C195 (law of the times).** If the data simulated with the first `maxmc` keys and with the keys of the reserve are independent with law `π`, then almost surely
the script ends and the saved times are independent, each distributed as the time for data of law `π` conditioned on the filter returning no NaN. -/
theorem C195_times_law {Ω : Type} [MeasurableSpace Ω] (P : Measure Ω) [IsProbabilityMeasure P] (G : Gen K) (simulator : Ω → K → D) (bad : D → Prop)
    (hbad : MeasurableSet {d | ¬ bad d}) (cost : D → ℝ) (hcost : Measurable cost) (π : Measure D) [IsProbabilityMeasure π] (hpos : π {d | ¬ bad d} ≠ 0)
    (rngKeys : List K) (keyNan : K) (hl : rngKeys.getLast? = some keyNan) (maxmc : ℕ) (hm : maxmc ≤ rngKeys.length) (keys : Fin maxmc ⊕ ℕ → K)
    (hkeys : ∀ k : Fin maxmc, rngKeys[k]? = some (keys (.inl k))) (hreserve : ∀ j, keys (.inr j) = G.fst^[j + 1] keyNan)
    (hmeas : ∀ i, Measurable fun ω => simulator ω (keys i)) (hlaw : ∀ i, P.map (fun ω => simulator ω (keys i)) = π)
    (hind : iIndepFun (fun i ω => simulator ω (keys i)) P) :
    ∃ times : Ω → Fin maxmc → ℝ, Measurable times ∧ (∀ᵐ ω ∂P, elapsedTimes G (simulator ω) bad cost rngKeys maxmc = some (List.ofFn (times ω))) ∧
      P.map times = Measure.pi fun _ => (π[|{d | ¬ bad d}]).map cost := by
  have hc := cond_isProbabilityMeasure hpos
  obtain ⟨g, hg⟩ : ∃ g, g = {d | ¬ bad d} := ⟨_, rfl⟩
  rw [← hg] at hbad hpos hc ⊢
  have h1 := hind.map_fun_eq_infinitePi_map hmeas
  simp only [hlaw] at h1
  have hm1 : Measurable fun ω i => simulator ω (keys i) := measurable_pi_lambda _ hmeas
  -- the accepted data as a function of all data
  obtain ⟨ext, hext⟩ : ∃ ext : (Fin maxmc ⊕ ℕ → D) → ℕ → D, ext = fun x k => if h : k < maxmc then x (.inl ⟨k, h⟩) else x (.inr 0) := ⟨_, rfl⟩
  have hextm : Measurable ext := by
    rw [hext]
    refine measurable_pi_lambda _ fun k => ?_
    by_cases h : k < maxmc
    · simp only [h, dif_pos]; exact measurable_pi_apply _
    · simp only [h, dif_neg, not_false_eq_true]; exact measurable_pi_apply _
  obtain ⟨Φ, hΦ⟩ : ∃ Φ : (Fin maxmc ⊕ ℕ → D) → Fin maxmc → ℝ, Φ = fun x (k : Fin maxmc) => cost (accepted g (ext x, fun j => x (.inr j)) k) := ⟨_, rfl⟩
  have hΦm : Measurable Φ := by
    rw [hΦ]
    exact measurable_pi_lambda _ fun k => hcost.comp ((measurable_accepted hbad k).comp (hextm.prodMk (measurable_pi_lambda _ fun j => measurable_pi_apply _)))
  refine ⟨fun ω => Φ fun i => simulator ω (keys i), hΦm.comp hm1, ?_, ?_⟩
  · -- infinitely many good data in the reserve
    have hE : ∀ n, P.map (fun ω j => simulator ω (keys (.inr (n + j)))) = infinitePi fun _ : ℕ => π := fun n => by
      have := map_infinitePi_infinitePi_of_inj (P := fun _ : Fin maxmc ⊕ ℕ => π) (f := fun j : ℕ => (Sum.inr (n + j) : Fin maxmc ⊕ ℕ)) (fun a b h => by simpa using h)
      rw [← this, ← h1, Measure.map_map (measurable_pi_lambda _ fun j => measurable_pi_apply _) hm1]
      rfl
    have hae : ∀ᵐ ω ∂P, ∀ n, ∃ j, simulator ω (keys (.inr (n + j))) ∈ g := by
      rw [ae_all_iff]
      intro n
      have h3 := ae_exists π hbad hpos
      rw [← hE n] at h3
      exact ae_of_ae_map (measurable_pi_lambda _ fun j => hmeas _).aemeasurable h3
    filter_upwards [hae] with ω hω
    have hF : ∀ k (hk : k < maxmc), ext (fun i => simulator ω (keys i)) k = simulator ω (rngKeys[k]'(by omega)) := fun k hk => by
      have h2 := hkeys ⟨k, hk⟩
      rw [Fin.getElem?_fin, List.getElem?_eq_getElem (by omega)] at h2
      simp only [hext, hk, dif_pos]
      rw [← Option.some.inj h2]
    obtain ⟨F, hF1⟩ : ∃ F : ℕ → D, F = fun k => simulator ω (rngKeys.getD k keyNan) := ⟨_, rfl⟩
    have hF2 : ∀ k (hk : k < rngKeys.length), F k = simulator ω rngKeys[k] := fun k hk => by
      simp [hF1, List.getD_eq_getElem?_getD, hk]
    obtain ⟨n, h2, -⟩ := timeFold_eq G (simulator ω) bad cost rngKeys keyNan F hF2
      (fun n => by
        obtain ⟨j, hj⟩ := hω n
        rw [hreserve, hg] at hj
        exact ⟨j, hj⟩) maxmc hm
    rw [elapsedTimes_eq_fold _ _ _ _ _ _ hl, h2, Option.map_some, ← hg]
    congr 1
    apply List.ext_getElem
    · simp
    · intro k hk1 hk2
      have hk : k < maxmc := by simpa using hk1
      simp only [List.getElem_map, List.getElem_range, List.getElem_ofFn, hΦ, hreserve]
      rw [accepted_congr g F (ext fun i => simulator ω (keys i)) _ k fun i hi => by rw [hF2 i (by omega), hF i (by omega)]]
  · have hsum := infinitePi_sum (A := ℕ) (B := ℕ) π
    have hmS : Measurable fun s : (ℕ → D) × (ℕ → D) => (Sum.elim s.1 s.2 : ℕ ⊕ ℕ → D) := by
      refine measurable_pi_lambda _ fun i => ?_
      cases i with
      | inl a => exact (measurable_pi_apply a).comp measurable_fst
      | inr b => exact (measurable_pi_apply b).comp measurable_snd
    have hres := map_infinitePi_infinitePi_of_inj (P := fun _ : ℕ ⊕ ℕ => π) (f := Sum.map (fun k : Fin maxmc => (k : ℕ)) (id : ℕ → ℕ))
      (Sum.map_injective.2 ⟨Fin.val_injective, Function.injective_id⟩)
    have hmr : Measurable fun (ω : ℕ ⊕ ℕ → D) (i : Fin maxmc ⊕ ℕ) => ω (Sum.map (fun k : Fin maxmc => (k : ℕ)) id i) :=
      measurable_pi_lambda _ fun i => measurable_pi_apply _
    have hiter := iterate_law _ (π[|g]) (measurable_runStep hbad) (runStep_map π hbad hpos)
    have hma : Measurable fun (s : (ℕ → D) × (ℕ → D)) (k : ℕ) => accepted g s k := measurable_pi_lambda _ fun k => measurable_accepted hbad k
    have hr2 := map_infinitePi_infinitePi_of_inj (P := fun _ : ℕ => π[|g]) (f := fun k : Fin maxmc => (k : ℕ)) Fin.val_injective
    have hmr2 : Measurable fun (ω : ℕ → D) (k : Fin maxmc) => ω k := measurable_pi_lambda _ fun i => measurable_pi_apply _
    have hcm := infinitePi_map_pi (fun _ : Fin maxmc => π[|g]) (f := fun _ => cost) fun _ => hcost
    have hmc : Measurable fun (x : Fin maxmc → D) (k : Fin maxmc) => cost (x k) := measurable_pi_lambda _ fun i => hcost.comp (measurable_pi_apply _)
    have hpm : IsProbabilityMeasure ((π[|g]).map cost) := isProbabilityMeasure_map hcost.aemeasurable
    calc P.map (fun ω => Φ fun i => simulator ω (keys i)) = (P.map fun ω i => simulator ω (keys i)).map Φ := (Measure.map_map hΦm hm1).symm
      _ = ((((infinitePi fun _ : ℕ => π).prod (infinitePi fun _ : ℕ => π)).map fun s => (Sum.elim s.1 s.2 : ℕ ⊕ ℕ → D)).map
            fun (ω : ℕ ⊕ ℕ → D) (i : Fin maxmc ⊕ ℕ) => ω (Sum.map (fun k : Fin maxmc => (k : ℕ)) id i)).map Φ := by rw [hsum, hres, h1]
      _ = ((infinitePi fun _ : ℕ => π).prod (infinitePi fun _ : ℕ => π)).map (fun s (k : Fin maxmc) => cost (accepted g s k)) := by
          rw [Measure.map_map hΦm hmr, Measure.map_map (hΦm.comp hmr) hmS]
          refine congrArg (fun f => Measure.map f _) (funext fun s => funext fun k => ?_)
          simp only [Function.comp_apply, hΦ]
          rw [accepted_congr g _ s.1 _ k fun i hi => by
            have : i < maxmc := lt_of_le_of_lt hi k.2
            simp [hext, this]]
          rfl
      _ = ((((infinitePi fun _ : ℕ => π).prod (infinitePi fun _ : ℕ => π)).map fun s (k : ℕ) => accepted g s k).map
            fun (ω : ℕ → D) (k : Fin maxmc) => ω k).map fun (x : Fin maxmc → D) (k : Fin maxmc) => cost (x k) := by
          rw [Measure.map_map hmc hmr2, Measure.map_map (hmc.comp hmr2) hma]
          rfl
      _ = Measure.pi fun _ => (π[|g]).map cost := by
          have e : ((infinitePi fun _ : ℕ => π).prod (infinitePi fun _ : ℕ => π)).map (fun s (k : ℕ) => accepted g s k) = infinitePi fun _ : ℕ => π[|g] := hiter
          rw [e, hr2, hcm, infinitePi_eq_pi]

end

/-- **C195 (refuted).** The times of the moment filter are not always for the same data as those of the other filters. -/
theorem C195_same_times_refuted : ∃ (G : Gen (ℕ × ℕ)) (simulator : ℕ × ℕ → ℕ) (bad : ℕ → Prop) (cost : ℕ → ℝ) (rngKeys : List (ℕ × ℕ)) (t t' : List ℝ),
    elapsedTimes G simulator bad cost rngKeys 1 = some t ∧ elapsedTimesPlain simulator cost rngKeys 1 = some t' ∧ t ≠ t' := by
  refine ⟨attemptGen, Prod.snd, (· = 0), fun n => n, [(0, 0)], [1], [0], ?_, by simp [elapsedTimesPlain], by simp⟩
  have hp : attemptGen.fst (0, 0) = (0, 1) := attemptGen_iterate (0, 0) 1
  have h := timedLoop_bad attemptGen Prod.snd (· = 0) (fun n => (n : ℝ)) (0, 0) 0 rfl ⟨0, by simp [hp]⟩
  have hf : first {d : ℕ | ¬ d = 0} (fun j => (attemptGen.fst^[j + 1] (0, 0)).2) = 0 := first_zero (by simp [hp])
  simp only [accept, hf] at h
  simp [elapsedTimes, h, hp]

/-- three runs with normal data, of which the negative are rejected. -/
example : ∃ times : (ℕ × ℕ → ℝ) → Fin 3 → ℝ, Measurable times ∧
    (∀ᵐ ω ∂(infinitePi fun _ : ℕ × ℕ => gaussianReal 0 1), elapsedTimes attemptGen ω (· < 0) (fun d => d ^ 2) [(0, 0), (1, 0), (2, 0)] 3 = some (List.ofFn (times ω))) ∧
    (infinitePi fun _ : ℕ × ℕ => gaussianReal 0 1).map times = Measure.pi fun _ => ((gaussianReal 0 1)[|{d | ¬ d < 0}]).map fun d => d ^ 2 := by
  refine C195_times_law (D := ℝ) (infinitePi fun _ : ℕ × ℕ => gaussianReal 0 1) attemptGen (fun ω => ω) (· < 0) measurableSet_Iio.compl (fun d => d ^ 2)
    (by fun_prop) (gaussianReal 0 1) ?_ [(0, 0), (1, 0), (2, 0)] (2, 0) rfl 3 (by simp) (Sum.elim (fun k => ((k : ℕ), 0)) fun j => (2, j + 1))
    (fun k => by fin_cases k <;> rfl) (fun j => by simp [attemptGen_iterate]) (fun k => measurable_pi_apply _) (fun k => infinitePi_map_eval _ _) ?_
  · have h : volume ≪ gaussianReal 0 1 := gaussianReal_absolutelyContinuous' 0 one_ne_zero
    intro h0
    have := h h0
    have e : {d : ℝ | ¬ d < 0} = Set.Ici 0 := by ext; simp
    rw [e] at this
    simp at this
  · refine iIndepFun.precomp (g := Sum.elim (fun k : Fin 3 => ((k : ℕ), 0)) fun j => (2, j + 1)) ?_
      (iIndepFun_infinitePi (X := fun _ ω => ω) fun _ => measurable_id)
    rintro (a | a) (b | b) h
    · simp only [Sum.elim_inl, Prod.mk.injEq] at h
      rw [Fin.ext h.1]
    · simp at h
    · simp at h
    · simp only [Sum.elim_inr, Prod.mk.injEq] at h
      rw [show a = b by omega]

/-! ### The keys of the attempts -/

theorem free_depth_iterate (G : Gen FreeKey) (hf : ∀ k, G.fst k = .child k 2 0) (k : FreeKey) (j : ℕ) : (G.fst^[j] k).depth = k.depth + j := by
  induction j generalizing k with
  | zero => rfl
  | succ j ih => rw [Function.iterate_succ_apply, ih, hf]; simp only [FreeKey.depth]; omega

/-- **C195 (keys).** With keys that never coincide, the attempts of all runs draw at different keys: the attempts of the prey-predator runs, and the runs and the
reserve of the timing script. -/
theorem C195_keys (G : Gen FreeKey) (hG : ∀ k n, G.split k n = (List.range n).map (FreeKey.child k n)) (main : FreeKey) (n : ℕ) :
    (∀ k < n, ∀ k' < n, ∀ j j', (k, j) ≠ (k', j') → ∀ x ∈ preyKeys G (G.fst^[j] (G.key main n k)), x ∉ preyKeys G (G.fst^[j'] (G.key main n k'))) ∧
    (∀ k < n, ∀ k' < n, ∀ j j', (k, j) ≠ (k', j') → ∀ x ∈ benesKeys G (G.fst^[j] (G.key main n k)), x ∉ benesKeys G (G.fst^[j'] (G.key main n k'))) := by
  have hf : ∀ k, G.fst k = .child k 2 0 := fun k => by simp [Gen.fst, Gen.key, hG]
  have hk : ∀ k i, i < 3 → G.key k 3 i = .child k 3 i := fun k i hi => by simp [Gen.key, hG, List.getD_eq_getElem?_getD, hi]
  have hkn : ∀ i, i < n → G.key main n i = .child main n i := fun i hi => by simp [Gen.key, hG, List.getD_eq_getElem?_getD, hi]
  have hinj : Function.Injective G.fst := fun a b h => by
    rw [hf, hf] at h
    exact (FreeKey.child.inj h).1
  have hne : ∀ k < n, ∀ k' < n, ∀ j j', (k, j) ≠ (k', j') → G.fst^[j] (G.key main n k) ≠ G.fst^[j'] (G.key main n k') := by
    intro k h k' h' j j' hp e
    have hd := congrArg FreeKey.depth e
    rw [free_depth_iterate G hf, free_depth_iterate G hf, hkn k h, hkn k' h'] at hd
    simp only [FreeKey.depth] at hd
    obtain rfl : j = j' := by omega
    have := hinj.iterate j e
    rw [hkn k h, hkn k' h'] at this
    exact hp (by rw [(FreeKey.child.inj this).2.2])
  constructor
  · intro k h k' h' j j' hp
    have := hne k h k' h' j j' hp
    generalize G.fst^[j] (G.key main n k) = a at this ⊢
    generalize G.fst^[j'] (G.key main n k') = b at this ⊢
    intro x hx
    simp only [preyKeys, hf, hk _ 0 (by omega), hk _ 1 (by omega), hk _ 2 (by omega), List.mem_cons, List.not_mem_nil, or_false] at hx ⊢
    rcases hx with rfl | rfl | rfl | rfl <;> simp [this]
  · intro k h k' h' j j' hp
    have := hne k h k' h' j j' hp
    generalize G.fst^[j] (G.key main n k) = a at this ⊢
    generalize G.fst^[j'] (G.key main n k') = b at this ⊢
    intro x hx
    simp only [benesKeys, hf, hk _ 0 (by omega), hk _ 1 (by omega), hk _ 2 (by omega), List.mem_cons, List.not_mem_nil, or_false] at hx ⊢
    rcases hx with rfl | rfl | rfl | rfl <;> simp [this]

/-- **C195 (keys, refuted).** If keys do not depend on how many are asked for, the next attempt of the prey-predator scripts chooses the component of the initial
state with the key from which the rejected attempt drew the normals of its initial state. -/
theorem C195_keys_refuted (G : Gen K) (hG : PrefixStable G) (key : K) :
    G.fst (G.key key 3 0) ∈ preyKeys G key ∧ G.fst (G.key key 3 0) ∈ preyKeys G (G.fst key) ∧ G.fst (G.key key 3 0) = G.key (G.fst key) 3 0 := by
  have h1 : G.fst key = G.key key 3 0 := hG.1 key 2 3 0 (by omega) (by omega)
  have h2 : G.fst (G.key key 3 0) = G.key (G.key key 3 0) 3 0 := hG.1 _ 2 3 0 (by omega) (by omega)
  refine ⟨by simp [preyKeys], ?_, by rw [h1, h2]⟩
  rw [h1, h2]
  simp [preyKeys]

end Mfs.Props

import Verif.Props.Keys
import Mathlib.Probability.Distributions.Gaussian.Real
import Mathlib.Probability.HasLaw

/-!
# The law of the first filtered cloud when a random key is used twice (C160)
-/

namespace Mfs.Props

open Mfs.Prng MeasureTheory ProbabilityTheory

variable {K Ω : Type} [MeasurableSpace Ω] {n : ℕ} [NeZero n]

/-- the first cloud of the bootstrap filter on the model `x₀ ~ N(m₀, s₀²)`, `x₁ = a x₀ + σ w`, with constant likelihood and without
resampling: the predictive cloud. -/
noncomputable def firstCloud (G : Gen K) (ss : List ℝ → ℝ → ℕ) (m0 s0 a σ : ℝ) (T : ℕ) (key : K) : Fin n → ℝ :=
  (bootstrapFilter G (scriptTransition G (fun x => a * x) (fun _ => σ ^ 2)) (fun (_ : Unit) _ _ => 1) (List.replicate T ())
    (sampler1 G ss [⟨m0, s0 ^ 2, 1⟩]) key (Smc.resampleIdx fun _ _ j => j)).1.getD 0 0

theorem firstCloud_eq (G : Gen K) (hl : ∀ k n, (G.split k n).length = n) (ss : List ℝ → ℝ → ℕ) (m0 s0 a σ : ℝ) (hs : 0 ≤ s0) (hσ : 0 ≤ σ)
    (T : ℕ) (hT : T ≠ 0) (key : K) (i : Fin n) :
    firstCloud G ss m0 s0 a σ T key i = a * (m0 + s0 * G.normal (G.fst key) n i) + σ * G.normal (G.key key T 0) n i := by
  obtain ⟨T, rfl⟩ := Nat.exists_eq_succ_of_ne_zero hT
  obtain ⟨k, ks, hks⟩ : ∃ k ks, G.split key (T + 1) = k :: ks := by
    cases h : G.split key (T + 1) with
    | nil => simpa [h] using hl key (T + 1)
    | cons k ks => exact ⟨k, ks, rfl⟩
  have hi : (Fin.ofNat n (min (i : ℕ) (n - 1))) = i := by
    apply Fin.ext; simp only [Fin.ofNat]; have := i.2
    rw [min_eq_left (by omega), Nat.mod_eq_of_lt this]
  have hk : G.key key (T + 1) 0 = k := by rw [Gen.key, hks]; rfl
  have hcl : firstCloud G ss m0 s0 a σ (T + 1) key i =
      scriptTransition G (fun x => a * x) (fun _ => σ ^ 2) (sampler1 G ss [⟨m0, s0 ^ 2, 1⟩] (n := n) key) k
        (Fin.ofNat n (min (i : ℕ) (n - 1))) := by
    simp only [firstCloud, bootstrapFilter, Smc.bootstrapFilter, List.replicate_succ, List.length_cons, List.length_replicate, hks,
      List.zip_cons_cons, scan]
    rfl
  rw [hcl, hi, Nat.succ_eq_add_one, hk]
  simp [scriptTransition, sampler1, Real.sqrt_sq hs, Real.sqrt_sq hσ]

/-- **C160, refuted.** When the key of the first transition is that of the initial normal draws (always with two measurements), a particle
of the first predictive cloud is normal with standard deviation `a s₀ + σ`. -/
theorem C160_law_refuted (μ : Measure Ω) (G : Ω → Gen K) (hl : ∀ ω k n, ((G ω).split k n).length = n) (ss : List ℝ → ℝ → ℕ)
    (m0 s0 a σ : ℝ) (hs : 0 ≤ s0) (hσ : 0 ≤ σ) (T : ℕ) (hT : T ≠ 0) (key : K) (i : Fin n)
    (hk : ∀ ω, (G ω).key key T 0 = (G ω).fst key)
    (hz : HasLaw (fun ω => (G ω).normal ((G ω).fst key) n i) (gaussianReal 0 1) μ) :
    HasLaw (fun ω => firstCloud (n := n) (G ω) ss m0 s0 a σ T key i) (gaussianReal (a * m0) (Real.toNNReal ((a * s0 + σ) ^ 2))) μ := by
  have h := gaussianReal_add_const (gaussianReal_const_mul hz (a * s0 + σ)) (a * m0)
  have e : (fun ω => firstCloud (n := n) (G ω) ss m0 s0 a σ T key i) =
      fun ω => (a * s0 + σ) * (G ω).normal ((G ω).fst key) n i + a * m0 := by
    funext ω
    rw [firstCloud_eq (G ω) (hl ω) ss m0 s0 a σ hs hσ T hT key i, hk ω]; ring
  rw [e]
  convert h using 2
  · simp
  · ext; simp [Real.coe_toNNReal _ (sq_nonneg _)]

/-- **C160, partial.** When the two draws are independent it has the law of the model, with variance `a² s₀² + σ²`. What is missing is the
case of a key used twice, where the property is false. -/
theorem C160_law_partial (μ : Measure Ω) [IsProbabilityMeasure μ] (G : Ω → Gen K) (hl : ∀ ω k n, ((G ω).split k n).length = n)
    (ss : List ℝ → ℝ → ℕ) (m0 s0 a σ : ℝ) (hs : 0 ≤ s0) (hσ : 0 ≤ σ) (T : ℕ) (hT : T ≠ 0) (key : K) (i : Fin n)
    (hz : HasLaw (fun ω => (G ω).normal ((G ω).fst key) n i) (gaussianReal 0 1) μ)
    (hw : HasLaw (fun ω => (G ω).normal ((G ω).key key T 0) n i) (gaussianReal 0 1) μ)
    (hind : IndepFun (fun ω => (G ω).normal ((G ω).fst key) n i) (fun ω => (G ω).normal ((G ω).key key T 0) n i) μ) :
    HasLaw (fun ω => firstCloud (n := n) (G ω) ss m0 s0 a σ T key i) (gaussianReal (a * m0) (Real.toNNReal (a ^ 2 * s0 ^ 2 + σ ^ 2))) μ := by
  have h1 := gaussianReal_add_const (gaussianReal_const_mul hz (a * s0)) (a * m0)
  have h2 := gaussianReal_const_mul hw σ
  have h3 : HasLaw ((fun ω => a * s0 * (G ω).normal ((G ω).fst key) n i + a * m0) + fun ω => σ * (G ω).normal ((G ω).key key T 0) n i)
      _ μ := ⟨h1.aemeasurable.add h2.aemeasurable, gaussianReal_add_gaussianReal_of_indepFun
    (hind.comp (φ := fun z => a * s0 * z + a * m0) (ψ := fun z => σ * z) (by fun_prop) (by fun_prop)) h1.map_eq h2.map_eq⟩
  have e : (fun ω => firstCloud (n := n) (G ω) ss m0 s0 a σ T key i) =
      (fun ω => a * s0 * (G ω).normal ((G ω).fst key) n i + a * m0) + fun ω => σ * (G ω).normal ((G ω).key key T 0) n i := by
    funext ω
    rw [firstCloud_eq (G ω) (hl ω) ss m0 s0 a σ hs hσ T hT key i]; simp only [Pi.add_apply]; ring
  rw [e]
  convert h3 using 2
  · simp
  · ext; simp [Real.coe_toNNReal _ (by positivity : 0 ≤ a ^ 2 * s0 ^ 2 + σ ^ 2)]; ring

/-- **C160, refuted.** The two laws differ unless the initial state, the transition or its noise is degenerate. -/
theorem C160_differ_refuted (m0 s0 a σ : ℝ) (h : a * s0 * σ ≠ 0) :
    gaussianReal (a * m0) (Real.toNNReal ((a * s0 + σ) ^ 2)) ≠ gaussianReal (a * m0) (Real.toNNReal (a ^ 2 * s0 ^ 2 + σ ^ 2)) := by
  intro e
  have hv := congrArg (fun μ => Var[id; μ]) e
  simp only [variance_id_gaussianReal, Real.coe_toNNReal _ (sq_nonneg _),
    Real.coe_toNNReal _ (by positivity : 0 ≤ a ^ 2 * s0 ^ 2 + σ ^ 2)] at hv
  exact h (by linarith)

-- the hypotheses of the positive part are met too: keys `0` (the root) and `num + i`, and two independent normal variables
example : HasLaw (fun ω : ℝ × ℝ => firstCloud (n := 1)
    (⟨fun k n => (List.range n).map fun i => k + n + i, fun _ _ _ => 0, fun k _ _ => if k = 2 then ω.1 else ω.2⟩ : Gen ℕ)
    (fun _ _ => 0) 1 1 1 1 3 0 0) (gaussianReal (1 * 1) (Real.toNNReal (1 ^ 2 * 1 ^ 2 + 1 ^ 2)))
    ((gaussianReal 0 1).prod (gaussianReal 0 1)) := by
  refine C160_law_partial _ _ (by simp) _ 1 1 1 1 zero_le_one zero_le_one 3 three_ne_zero _ _ ?_ ?_ ?_
  · exact ⟨by simpa [Gen.fst, Gen.key] using measurable_fst.aemeasurable, by simp [Gen.fst, Gen.key]⟩
  · exact ⟨by simpa [Gen.key] using measurable_snd.aemeasurable, by simp [Gen.key]⟩
  · simpa [Gen.fst, Gen.key] using indepFun_prod (μ := gaussianReal 0 1) (ν := gaussianReal 0 1) measurable_id measurable_id

-- and those of the other part: a generator on one key drawing one standard normal variable
example : HasLaw (fun ω : ℝ => firstCloud (n := 3) (⟨fun k n => List.replicate n k, fun _ _ _ => 0, fun _ _ _ => ω⟩ : Gen Unit)
    (fun _ _ => 0) 1 1 1 1 2 () 0) (gaussianReal (1 * 1) (Real.toNNReal ((1 * 1 + 1) ^ 2))) (gaussianReal 0 1) :=
  C160_law_refuted _ _ (by simp) _ 1 1 1 1 zero_le_one zero_le_one 2 two_ne_zero _ _ (fun _ => rfl) HasLaw.id

end Mfs.Props

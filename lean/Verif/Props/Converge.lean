import Verif.Lemmas.Converge
import Mathlib.Probability.Kernel.Composition.Prod
import Mathlib.MeasureTheory.Measure.Lebesgue.Basic
import Mathlib.MeasureTheory.Integral.DominatedConvergence

/-!
# Properties C108, C109: convergence of the rule and of the filters as the number of moments grows
-/

namespace Mfs.Props

open Matrix Mfs.Spec Mfs.Quad1 Mfs.Filter1 Mfs.Converge MeasureTheory ProbabilityTheory Filter Topology Polynomial

variable {Y : Type}

/-- **C108.** Let the moments of `(X - m) / s` be those of a law of `X` on `[a, b]` that is not concentrated on finitely many
points. (1) The error of the rule for a continuous `f` is at most twice the distance of `f` from any polynomial of degree less
than the even number of moments used. (2) The rule converges for every continuous `f` as the number of moments grows, whatever
centres and scales are used. -/
theorem C108_quadrature_converges (B : Backend) (hB : B.Valid) (μ : Measure ℝ) [IsProbabilityMeasure μ] (a b : ℝ)
    (hμ : μ (Set.Icc a b)ᶜ = 0) (hinf : ∀ s : Finset ℝ, μ (s : Set ℝ)ᶜ ≠ 0) (f : ℝ → ℝ) (hf : ContinuousOn f (Set.Icc a b))
    (m s : ℕ → ℝ) (hs : ∀ N, s N ≠ 0) (sort ldl : Bool) :
    let ms : ℕ → List ℝ := fun N => (List.range N).map fun k => ∫ x, ((x - m N) / s N) ^ k ∂μ
    (∀ N ≥ 2, ∀ (p : ℝ[X]) (ε : ℝ), p.natDegree < 2 * (N / 2) → (∀ x ∈ Set.Icc a b, |f x - p.eval x| ≤ ε) →
      |integ (momentQuadrature B (ms N) (m N) (s N) sort ldl) f - ∫ x, f x ∂μ| ≤ 2 * ε) ∧
    Tendsto (fun N => integ (momentQuadrature B (ms N) (m N) (s N) sort ldl) f) atTop (𝓝 (∫ x, f x ∂μ)) := by
  intro ms
  have hl : ∀ N, (ms N).length = N := fun N => by simp [ms]
  have hget : ∀ N, ∀ k < N, (ms N).getD k 0 = ∫ x, ((x - m N) / s N) ^ k ∂μ := fun N k hk => getD_map_range _ hk
  constructor
  · intro N hN p ε hp hfp
    obtain ⟨h1, h2⟩ := rule_of_law B hB μ hμ hinf (ms N) (by rw [hl]; exact hN) (m N) (s N) (hs N)
      (fun k hk => hget N k (by rwa [hl] at hk)) sort ldl
    have h3 := h2 p (by rwa [hl])
    have h4 := h1.abs_sub_le hfp
    have h5 := integral_abs_sub_le μ hμ hf p.continuous.continuousOn hfp
    rw [h3] at h4
    have e : integ (momentQuadrature B (ms N) (m N) (s N) sort ldl) f - ∫ x, f x ∂μ
        = (integ (momentQuadrature B (ms N) (m N) (s N) sort ldl) f - ∫ x, p.eval x ∂μ) - (∫ x, f x ∂μ - ∫ x, p.eval x ∂μ) := by ring
    rw [e]
    refine (abs_sub _ _).trans ?_
    linarith
  · have := (tracks_law B hB μ hμ hinf ms hl m s hs hget sort ldl).2 f hf
    simpa using this

/-- **C109.** Let the state live on `[a, b]`, with an initial law and transition laws that are not concentrated on finitely many
points, conditional moments continuous in the conditioning state, and likelihoods that are continuous and positive in the state.
Then, as the number `N` of moments grows, the negative log-likelihood returned by each of the three filters converges to minus the
logarithm of the exact marginal likelihood, and every raw moment (central moments and mean; scaled central moments, mean and
scale) after every measurement converges to that of the exact posterior. The central and scaled filters may be given any
conditional mean and any positive conditional variance. -/
theorem C109_filters_converge (B : Backend) (hB : B.Valid) (stable : Bool) (a b : ℝ) (K : Kernel ℝ ℝ) [IsMarkovKernel K]
    (hK : ∀ x ∈ Set.Icc a b, K x (Set.Icc a b)ᶜ = 0) (hKinf : ∀ x ∈ Set.Icc a b, ∀ s : Finset ℝ, K x (s : Set ℝ)ᶜ ≠ 0)
    (hKc : ∀ k : ℕ, ContinuousOn (fun x => ∫ z, z ^ k ∂K x) (Set.Icc a b)) (μ : Measure ℝ) [IsProbabilityMeasure μ]
    (hμ : μ (Set.Icc a b)ᶜ = 0) (hinf : ∀ s : Finset ℝ, μ (s : Set ℝ)ᶜ ≠ 0) (pdf : Y → ℝ → ℝ)
    (hpc : ∀ y, ContinuousOn (pdf y) (Set.Icc a b)) (hpdf : ∀ y, ∀ x ∈ Set.Icc a b, 0 < pdf y x) (ys : List Y) :
    let lik : ℝ := ∫ x, markovE K pdf (fun _ => 1) ys x ∂μ
    let E : ℕ → (ℝ → ℝ) → ℝ := fun t f =>
      (∫ x, markovE K pdf f (ys.take (t + 1)) x ∂μ) / ∫ x, markovE K pdf (fun _ => 1) (ys.take (t + 1)) x ∂μ
    0 < lik ∧
    (∀ P : ℝ → ℕ → ℝ, (∀ x ∈ Set.Icc a b, ∀ k, P x k = ∫ z, z ^ k ∂K x) →
      let out := fun N => filterRms B P pdf ((List.range N).map fun k => ∫ x, x ^ k ∂μ) ys stable
      Tendsto (fun N => (out N).2) atTop (𝓝 (-Real.log lik)) ∧
      ∀ t < ys.length, ∀ k, Tendsto (fun N => ((out N).1.getD t []).getD k 0) atTop (𝓝 (E t fun x => x ^ k))) ∧
    (∀ (P : ℝ → ℕ → ℝ → ℝ) (cm : ℝ → ℝ) (m0 : ℝ), (∀ x ∈ Set.Icc a b, ∀ k m, P x k m = ∫ z, (z - m) ^ k ∂K x) →
      let out := fun N => filterCms B P cm pdf ((List.range N).map fun k => ∫ x, (x - m0) ^ k ∂μ) m0 ys stable
      Tendsto (fun N => (out N).2) atTop (𝓝 (-Real.log lik)) ∧
      ∀ t < ys.length, Tendsto (fun N => ((out N).1.getD t ([], 0)).2) atTop (𝓝 (E t fun x => x)) ∧
        ∀ k, Tendsto (fun N => ((out N).1.getD t ([], 0)).1.getD k 0) atTop (𝓝 (E t fun x => (x - E t fun x => x) ^ k))) ∧
    (∀ (P : ℝ → ℕ → ℝ → ℝ → ℝ) (cm cv : ℝ → ℝ) (m0 s0 : ℝ), s0 ≠ 0 →
      (∀ x ∈ Set.Icc a b, ∀ k m s, P x k m s = ∫ z, ((z - m) / s) ^ k ∂K x) → (∀ x ∈ Set.Icc a b, 0 < cv x) →
      let out := fun N => filterScms B P cm cv pdf ((List.range N).map fun k => ∫ x, ((x - m0) / s0) ^ k ∂μ) m0 s0 ys stable
      Tendsto (fun N => (out N).2) atTop (𝓝 (-Real.log lik)) ∧
      ∀ t < ys.length, Tendsto (fun N => ((out N).1.getD t ([], 0, 0)).2.1) atTop (𝓝 (E t fun x => x)) ∧
        0 < E t (fun x => (x - E t fun x => x) ^ 2) ∧
        Tendsto (fun N => ((out N).1.getD t ([], 0, 0)).2.2) atTop (𝓝 (Real.sqrt (E t fun x => (x - E t fun x => x) ^ 2))) ∧
        ∀ k, Tendsto (fun N => ((out N).1.getD t ([], 0, 0)).1.getD k 0) atTop
          (𝓝 (E t fun x => ((x - E t fun x => x) / Real.sqrt (E t fun x => (x - E t fun x => x) ^ 2)) ^ k))) := by
  intro lik E
  set Λ0 : (ℝ → ℝ) → ℝ := fun f => ∫ x, f x ∂μ with hΛ0
  have hone : (Λ0 fun _ => 1) = 1 := by simp [hΛ0]
  have hlik : lik = ys.foldl (stepL K pdf) Λ0 (fun _ => 1) / Λ0 fun _ => 1 := by
    rw [foldl_stepL, hone, div_one]
  have hE : ∀ t f, E t f = (ys.take (t + 1)).foldl (stepL K pdf) Λ0 f / (ys.take (t + 1)).foldl (stepL K pdf) Λ0 fun _ => 1 := by
    intro t f
    rw [foldl_stepL, foldl_stepL]
  have hlen : ∀ (f : ℕ → ℝ) (N : ℕ), ((List.range N).map f).length = N := fun f N => by simp
  have hrms : ∀ P : ℝ → ℕ → ℝ, (∀ x ∈ Set.Icc a b, ∀ k, P x k = ∫ z, z ^ k ∂K x) → 0 < lik ∧
      let out := fun N => filterRms B P pdf ((List.range N).map fun k => ∫ x, x ^ k ∂μ) ys stable
      Tendsto (fun N => (out N).2) atTop (𝓝 (-Real.log lik)) ∧
      ∀ t < ys.length, ∀ k, Tendsto (fun N => ((out N).1.getD t []).getD k 0) atTop (𝓝 (E t fun x => x ^ k)) := by
    intro P hP
    have key := tracks_run (K := K) (g := pdf) (next := fun N => nextRms B stable P pdf N) (lik := fun N => likRms B stable P pdf N)
      (fun s Λ => (∀ N, (s N).length = N) ∧ Tracks a b (fun N => momentQuadrature B (s N) 0 1 false stable) Λ)
      (fun s Λ => ∀ k, Tendsto (fun N => (s N).getD k 0) atTop (𝓝 (Λ (fun x => x ^ k) / Λ fun _ => 1)))
      ?_ (fun N => (List.range N).map fun k => ∫ x, x ^ k ∂μ) Λ0
      ⟨fun N => hlen _ N, tracks_law B hB μ hμ hinf _ (fun N => hlen _ N) (fun _ => 0) (fun _ => 1) (fun _ => one_ne_zero)
        (fun N k hk => by rw [getD_map_range _ hk]; simp) false stable⟩ (by rw [hone]; exact one_ne_zero) [] ys
    · obtain ⟨k1, k2, k3⟩ := key
      refine ⟨by rw [hlik]; exact k2, ?_⟩
      simp only [filterRms_eq, hlen]
      refine ⟨?_, fun t ht k => ?_⟩
      · rw [hlik]
        exact k1.neg
      · rw [hE]
        exact k3 t ht k
    · rintro s Λ y ⟨hs, htr⟩
      have hpl : ∀ N, (predRms B stable P N (s N)).length = N := fun N => by simp [predRms]
      have hnl : ∀ N, (nextRms B stable P pdf N (s N) y).length = N := fun N => by simp [nextRms]
      have h' : ∀ N ≥ 4, GoodRule a b (momentQuadrature B (predRms B stable P N (s N)) 0 1 false stable) ∧
          ∀ p : ℝ[X], p.natDegree < 2 * (N / 2) → integ (momentQuadrature B (predRms B stable P N (s N)) 0 1 false stable) (fun x => p.eval x)
            = integ (momentQuadrature B (s N) 0 1 false stable) fun x => ∫ z, p.eval z ∂K x := by
        intro N hN
        have := predict K hK B hB hKinf (htr.1 N hN) (predRms B stable P N (s N)) (by rw [hpl]; omega) 0 1 one_ne_zero
          (fun k hk => by
            rw [hpl] at hk
            rw [predRms, getD_map_range _ hk]
            refine (htr.1 N hN).congr fun x hx => ?_
            simp only [hP x hx, sub_zero, div_one]) false stable
        exact ⟨this.1, fun p hp => this.2 p (by rwa [hpl])⟩
      have h'' : ∀ N ≥ 4, GoodRule a b (momentQuadrature B (nextRms B stable P pdf N (s N) y) 0 1 false stable) ∧
          ∀ f, integ (momentQuadrature B (nextRms B stable P pdf N (s N) y) 0 1 false stable) f
            = integ (momentQuadrature B (predRms B stable P N (s N)) 0 1 false stable) (fun x => f x * pdf y x)
              / integ (momentQuadrature B (predRms B stable P N (s N)) 0 1 false stable) (pdf y) := by
        intro N hN
        refine update B hB (h' N hN).1 (hpdf y) _ (by rw [hnl, hpl]) 0 1 one_ne_zero (fun k hk => ?_) false stable
        rw [hnl] at hk
        rw [nextRms, getD_map_range _ hk]
        simp only [sub_zero, div_one]
        rfl
      obtain ⟨t1, t2, t3⟩ := tracks_update K hK hKc htr h' (hpc y) (hpdf y) h''
      refine ⟨⟨hnl, t1⟩, fun k => ?_, t2, t3⟩
      refine (t1.2 (fun x => x ^ k) (by fun_prop)).congr' ?_
      filter_upwards [eventually_ge_atTop (k + 4)] with N hN
      rw [(h'' N (by omega)).2, nextRms, getD_map_range _ (by omega : k < N)]
      rfl
  refine ⟨(hrms _ fun _ _ _ => rfl).1, fun P hP => (hrms P hP).2, ?_, ?_⟩
  · intro P cm m0 hP
    have key := tracks_run (K := K) (g := pdf) (next := fun N => nextCms B stable P cm pdf N) (lik := fun N => likCms B stable P cm pdf N)
      (fun s Λ => (∀ N, (s N).1.length = N) ∧ Tracks a b (fun N => momentQuadrature B (s N).1 (s N).2 1 false stable) Λ)
      (fun s Λ => Tendsto (fun N => (s N).2) atTop (𝓝 (Λ (fun x => x) / Λ fun _ => 1)) ∧
        ∀ k, Tendsto (fun N => (s N).1.getD k 0) atTop (𝓝 (Λ (fun x => (x - Λ (fun x => x) / Λ fun _ => 1) ^ k) / Λ fun _ => 1)))
      ?_ (fun N => ((List.range N).map fun k => ∫ x, (x - m0) ^ k ∂μ, m0)) Λ0
      ⟨fun N => hlen _ N, tracks_law B hB μ hμ hinf _ (fun N => hlen _ N) (fun _ => m0) (fun _ => 1) (fun _ => one_ne_zero)
        (fun N k hk => by rw [getD_map_range _ hk]; simp) false stable⟩ (by rw [hone]; exact one_ne_zero) ([], 0) ys
    · obtain ⟨k1, k2, k3⟩ := key
      simp only [filterCms_eq, hlen]
      refine ⟨?_, fun t ht => ?_⟩
      · rw [hlik]
        exact k1.neg
      · simp only [hE]
        exact k3 t ht
    · rintro s Λ y ⟨hs, htr⟩
      set pr := fun N => predCms B stable P cm N (s N) with hpr
      set nx := fun N => nextCms B stable P cm pdf N (s N) y with hnx
      have hpl : ∀ N, (pr N).1.length = N := fun N => by simp [hpr, predCms]
      have hnl : ∀ N, (nx N).1.length = N := fun N => by simp [hnx, nextCms]
      have hpg : ∀ N, ∀ k < N, (pr N).1.getD k 0 = integ (momentQuadrature B (s N).1 (s N).2 1 false stable) fun x => P x k (pr N).2 :=
        fun N k hk => getD_map_range _ hk
      have hng : ∀ N, ∀ k < N, (nx N).1.getD k 0 = integ (momentQuadrature B (pr N).1 (pr N).2 1 false stable)
          (fun x => (x - (nx N).2) ^ k * pdf y x) / integ (momentQuadrature B (pr N).1 (pr N).2 1 false stable) (pdf y) :=
        fun N k hk => getD_map_range _ hk
      have h' : ∀ N ≥ 4, GoodRule a b (momentQuadrature B (pr N).1 (pr N).2 1 false stable) ∧
          ∀ p : ℝ[X], p.natDegree < 2 * (N / 2) → integ (momentQuadrature B (pr N).1 (pr N).2 1 false stable) (fun x => p.eval x)
            = integ (momentQuadrature B (s N).1 (s N).2 1 false stable) fun x => ∫ z, p.eval z ∂K x := by
        intro N hN
        have := predict K hK B hB hKinf (htr.1 N hN) (pr N).1 (by rw [hpl]; omega) (pr N).2 1 one_ne_zero
          (fun k hk => by
            rw [hpl] at hk
            rw [hpg N k hk]
            refine (htr.1 N hN).congr fun x hx => ?_
            simp only [hP x hx, div_one]) false stable
        exact ⟨this.1, fun p hp => this.2 p (by rwa [hpl])⟩
      have h'' : ∀ N ≥ 4, GoodRule a b (momentQuadrature B (nx N).1 (nx N).2 1 false stable) ∧
          ∀ f, integ (momentQuadrature B (nx N).1 (nx N).2 1 false stable) f
            = integ (momentQuadrature B (pr N).1 (pr N).2 1 false stable) (fun x => f x * pdf y x)
              / integ (momentQuadrature B (pr N).1 (pr N).2 1 false stable) (pdf y) := by
        intro N hN
        refine update B hB (h' N hN).1 (hpdf y) _ (by rw [hnl, hpl]) (nx N).2 1 one_ne_zero (fun k hk => ?_) false stable
        rw [hnl] at hk
        rw [hng N k hk]
        simp only [div_one]
      obtain ⟨t1, t2, t3⟩ := tracks_update K hK hKc htr h' (hpc y) (hpdf y) h''
      have hmean : Tendsto (fun N => (nx N).2) atTop (𝓝 (stepL K pdf Λ y (fun x => x) / stepL K pdf Λ y fun _ => 1)) := by
        refine (t1.2 (fun x => x) (by fun_prop)).congr' ?_
        filter_upwards [eventually_ge_atTop 4] with N hN
        rw [(h'' N hN).2]
        have : (nx N).2 = integ (momentQuadrature B (pr N).1 (pr N).2 1 false stable) (fun x => (x - 0) ^ 1 * pdf y x)
          / integ (momentQuadrature B (pr N).1 (pr N).2 1 false stable) (pdf y) := rfl
        rw [this]
        simp only [sub_zero, pow_one]
      refine ⟨⟨hnl, t1⟩, ⟨hmean, fun k => ?_⟩, t2, t3⟩
      refine (t1.central hmean k).congr' ?_
      filter_upwards [eventually_ge_atTop (k + 4)] with N hN
      rw [(h'' N (by omega)).2]
      exact (hng N k (by omega)).symm
  · intro P cm cv m0 s0 hs0 hP hcv
    have key := tracks_run (K := K) (g := pdf) (next := fun N => nextScms B stable P cm cv pdf N)
      (lik := fun N => likScms B stable P cm cv pdf N)
      (fun s Λ => (∀ N, (s N).1.length = N) ∧ Tracks a b (fun N => momentQuadrature B (s N).1 (s N).2.1 (s N).2.2 false stable) Λ)
      (fun s Λ => Tendsto (fun N => (s N).2.1) atTop (𝓝 (Λ (fun x => x) / Λ fun _ => 1)) ∧
        0 < Λ (fun x => (x - Λ (fun x => x) / Λ fun _ => 1) ^ 2) / Λ (fun _ => 1) ∧
        Tendsto (fun N => (s N).2.2) atTop (𝓝 (Real.sqrt (Λ (fun x => (x - Λ (fun x => x) / Λ fun _ => 1) ^ 2) / Λ fun _ => 1))) ∧
        ∀ k, Tendsto (fun N => (s N).1.getD k 0) atTop (𝓝 (Λ (fun x => ((x - Λ (fun x => x) / Λ fun _ => 1)
          / Real.sqrt (Λ (fun x => (x - Λ (fun x => x) / Λ fun _ => 1) ^ 2) / Λ fun _ => 1)) ^ k) / Λ fun _ => 1)))
      ?_ (fun N => ((List.range N).map fun k => ∫ x, ((x - m0) / s0) ^ k ∂μ, m0, s0)) Λ0
      ⟨fun N => hlen _ N, tracks_law B hB μ hμ hinf _ (fun N => hlen _ N) (fun _ => m0) (fun _ => s0) (fun _ => hs0)
        (fun N k hk => by rw [getD_map_range _ hk]) false stable⟩ (by rw [hone]; exact one_ne_zero) ([], 0, 0) ys
    · obtain ⟨k1, k2, k3⟩ := key
      simp only [filterScms_eq, hlen]
      refine ⟨?_, fun t ht => ?_⟩
      · rw [hlik]
        exact k1.neg
      · simp only [hE]
        exact k3 t ht
    · rintro s Λ y ⟨hs, htr⟩
      set pr := fun N => predScms B stable P cm cv N (s N) with hpr
      set nx := fun N => nextScms B stable P cm cv pdf N (s N) y with hnx
      have hpl : ∀ N, (pr N).1.length = N := fun N => by simp [hpr, predScms]
      have hnl : ∀ N, (nx N).1.length = N := fun N => by simp [hnx, nextScms]
      have hpg : ∀ N, ∀ k < N, (pr N).1.getD k 0
          = integ (momentQuadrature B (s N).1 (s N).2.1 (s N).2.2 false stable) fun x => P x k (pr N).2.1 (pr N).2.2 :=
        fun N k hk => getD_map_range _ hk
      have hng : ∀ N, ∀ k < N, (nx N).1.getD k 0 = integ (momentQuadrature B (pr N).1 (pr N).2.1 (pr N).2.2 false stable)
          (fun x => ((x - (nx N).2.1) / (nx N).2.2) ^ k * pdf y x)
            / integ (momentQuadrature B (pr N).1 (pr N).2.1 (pr N).2.2 false stable) (pdf y) :=
        fun N k hk => getD_map_range _ hk
      have hps : ∀ N ≥ 4, (pr N).2.2 ≠ 0 := by
        intro N hN
        have : (pr N).2.2 = Real.sqrt (integ (momentQuadrature B (s N).1 (s N).2.1 (s N).2.2 false stable) cv) := rfl
        rw [this, Real.sqrt_ne_zero']
        exact (htr.1 N hN).integ_pos hcv
      have h' : ∀ N ≥ 4, GoodRule a b (momentQuadrature B (pr N).1 (pr N).2.1 (pr N).2.2 false stable) ∧
          ∀ p : ℝ[X], p.natDegree < 2 * (N / 2) →
            integ (momentQuadrature B (pr N).1 (pr N).2.1 (pr N).2.2 false stable) (fun x => p.eval x)
              = integ (momentQuadrature B (s N).1 (s N).2.1 (s N).2.2 false stable) fun x => ∫ z, p.eval z ∂K x := by
        intro N hN
        have := predict K hK B hB hKinf (htr.1 N hN) (pr N).1 (by rw [hpl]; omega) (pr N).2.1 (pr N).2.2 (hps N hN)
          (fun k hk => by
            rw [hpl] at hk
            rw [hpg N k hk]
            refine (htr.1 N hN).congr fun x hx => ?_
            simp only [hP x hx]) false stable
        exact ⟨this.1, fun p hp => this.2 p (by rwa [hpl])⟩
      set R := fun N => momentQuadrature B (pr N).1 (pr N).2.1 (pr N).2.2 false stable with hR
      have hm : ∀ N, (nx N).2.1 = integ (R N) (fun x => x * pdf y x) / integ (R N) (pdf y) := by
        intro N
        have : (nx N).2.1 = integ (R N) (fun x => ((x - 0) / 1) ^ 1 * pdf y x) / integ (R N) (pdf y) := rfl
        rw [this]
        simp only [sub_zero, div_one, pow_one]
      have hsd : ∀ N, (nx N).2.2 = Real.sqrt (integ (R N) (fun x => (x - (nx N).2.1) ^ 2 * pdf y x) / integ (R N) (pdf y)) := by
        intro N
        have : (nx N).2.2 = Real.sqrt (integ (R N) (fun x => ((x - (nx N).2.1) / 1) ^ 2 * pdf y x) / integ (R N) (pdf y)) := rfl
        rw [this]
        simp only [div_one]
      have hns : ∀ N ≥ 4, (nx N).2.2 ≠ 0 := by
        intro N hN
        have hg := (h' N hN).1
        rw [hsd, Real.sqrt_ne_zero']
        refine div_pos ?_ (hg.integ_pos (hpdf y))
        have hw : ∀ i, 0 < (R N).1 i * pdf y ((R N).2 i) := fun i => mul_pos (hg.pos i) (hpdf y _ (hg.mem i))
        have h2 : 2 ≤ (pr N).1.length / 2 := by rw [hpl]; omega
        have hex : ∃ i, (R N).2 i - (nx N).2.1 ≠ 0 := by
          by_contra hall
          push Not at hall
          have := hg.inj ((sub_eq_zero.1 (hall ⟨0, by omega⟩)).trans (sub_eq_zero.1 (hall ⟨1, by omega⟩)).symm)
          simp at this
        obtain ⟨i, hi⟩ := hex
        refine Finset.sum_pos' (fun j _ => ?_) ⟨i, Finset.mem_univ _, ?_⟩
        · have := mul_nonneg (hw j).le (sq_nonneg ((R N).2 j - (nx N).2.1))
          linarith
        · have : 0 < ((R N).2 i - (nx N).2.1) ^ 2 := by positivity
          have := mul_pos (hw i) this
          linarith
      have h'' : ∀ N ≥ 4, GoodRule a b (momentQuadrature B (nx N).1 (nx N).2.1 (nx N).2.2 false stable) ∧
          ∀ f, integ (momentQuadrature B (nx N).1 (nx N).2.1 (nx N).2.2 false stable) f
            = integ (R N) (fun x => f x * pdf y x) / integ (R N) (pdf y) := by
        intro N hN
        refine update B hB (h' N hN).1 (hpdf y) _ (by rw [hnl, hpl]) (nx N).2.1 (nx N).2.2 (hns N hN) (fun k hk => ?_) false stable
        rw [hnl] at hk
        exact hng N k hk
      obtain ⟨t1, t2, t3⟩ := tracks_update K hK hKc htr h' (hpc y) (hpdf y) h''
      set Λ' := stepL K pdf Λ y with hΛ'
      set mL := Λ' (fun x => x) / Λ' fun _ => 1 with hmL
      have hmean : Tendsto (fun N => (nx N).2.1) atTop (𝓝 mL) := by
        refine (t1.2 (fun x => x) (by fun_prop)).congr' ?_
        filter_upwards [eventually_ge_atTop 4] with N hN
        rw [(h'' N hN).2, hm]
      have hvar : 0 < Λ' (fun x => (x - mL) ^ 2) / Λ' fun _ => 1 := by
        have hc : ContinuousOn (fun z => pdf y z * (z - mL) ^ 2) (Set.Icc a b) := (hpc y).mul (by fun_prop)
        have h1 := htr.pos (feller K hK hKc hc) fun x hx => integral_pos_Icc (K x) (hK x hx) (hKinf x hx) hc
          (fun z hz => mul_nonneg (hpdf y z hz).le (sq_nonneg _)) {mL} (fun z hz h0 => by
            rcases mul_eq_zero.1 h0 with h | h
            · exact absurd h (hpdf y z hz).ne'
            · rw [Finset.mem_singleton]
              have := pow_eq_zero_iff two_ne_zero |>.1 h
              linarith)
        have h2 := div_pos h1 t3
        rw [div_div_div_cancel_right₀ htr.one_ne_zero] at h2
        exact h2
      have hscale : Tendsto (fun N => (nx N).2.2) atTop (𝓝 (Real.sqrt (Λ' (fun x => (x - mL) ^ 2) / Λ' fun _ => 1))) := by
        refine ((t1.central hmean 2).sqrt).congr' ?_
        filter_upwards [eventually_ge_atTop 4] with N hN
        rw [(h'' N hN).2, hsd]
      refine ⟨⟨hnl, t1⟩, ⟨hmean, hvar, hscale, fun k => ?_⟩, t2, t3⟩
      have hσ : Real.sqrt (Λ' (fun x => (x - mL) ^ 2) / Λ' fun _ => 1) ≠ 0 := (Real.sqrt_pos.2 hvar).ne'
      set σ := Real.sqrt (Λ' (fun x => (x - mL) ^ 2) / Λ' fun _ => 1) with hσd
      have hdiv : ∀ {n : ℕ} (r : (Fin n → ℝ) × (Fin n → ℝ)) (c d : ℝ), integ r (fun x => ((x - c) / d) ^ k) = integ r (fun x => (x - c) ^ k) / d ^ k := by
        intro n r c d
        simp only [integ, div_pow, Finset.sum_div, mul_div_assoc]
      have e : Λ' (fun x => ((x - mL) / σ) ^ k) / (Λ' fun _ => 1) = Λ' (fun x => (x - mL) ^ k) / (Λ' fun _ => 1) / σ ^ k := by
        refine tendsto_nhds_unique (t1.2 (fun x => ((x - mL) / σ) ^ k) (by fun_prop)) ?_
        simp only [hdiv]
        exact (t1.2 (fun x => (x - mL) ^ k) (by fun_prop)).div_const _
      rw [e]
      refine ((t1.central hmean k).div (hscale.pow k) (pow_ne_zero _ hσ)).congr' ?_
      filter_upwards [eventually_ge_atTop (k + 4)] with N hN
      refine (hdiv _ _ _).symm.trans ?_
      rw [(h'' N (by omega)).2]
      exact (hng N k (by omega)).symm

/-- the uniform law on `[0, 1]`. -/
noncomputable def unif : Measure ℝ := volume.restrict (Set.Icc 0 1)

instance : IsProbabilityMeasure unif := ⟨by simp [unif]⟩

theorem unif_finset (s : Finset ℝ) : unif (s : Set ℝ) = 0 := by
  rw [unif, Measure.restrict_apply s.measurableSet]
  exact measure_mono_null Set.inter_subset_left (s.finite_toSet.measure_zero _)

/-- hypotheses of C108 and C109: a state on `[0, 1]`, uniform at first, which moves to the middle between itself and a fresh uniform
draw, observed through a Gaussian-shaped likelihood. -/
example : ∃ K : Kernel ℝ ℝ, IsMarkovKernel K ∧ (∀ x ∈ Set.Icc (0 : ℝ) 1, K x (Set.Icc 0 1)ᶜ = 0) ∧
    (∀ x ∈ Set.Icc (0 : ℝ) 1, ∀ s : Finset ℝ, K x (s : Set ℝ)ᶜ ≠ 0) ∧
    (∀ k : ℕ, ContinuousOn (fun x => ∫ z, z ^ k ∂K x) (Set.Icc 0 1)) ∧
    unif (Set.Icc 0 1)ᶜ = 0 ∧ (∀ s : Finset ℝ, unif (s : Set ℝ)ᶜ ≠ 0) ∧
    (∀ y : ℝ, ContinuousOn (fun x => Real.exp (-(y - x) ^ 2)) (Set.Icc (0 : ℝ) 1)) ∧
    (∀ y : ℝ, ∀ x ∈ Set.Icc (0 : ℝ) 1, 0 < Real.exp (-(y - x) ^ 2)) ∧
    K 0 ≠ K 1 := by
  have hsupp : unif (Set.Icc 0 1)ᶜ = 0 := by simp [unif]
  have hφ : Measurable fun p : ℝ × ℝ => (p.1 + p.2) / 2 := by fun_prop
  have hφx : ∀ x : ℝ, Measurable fun u : ℝ => (x + u) / 2 := fun x => by fun_prop
  let K : Kernel ℝ ℝ := (Kernel.id ×ₖ Kernel.const ℝ unif).map fun p : ℝ × ℝ => (p.1 + p.2) / 2
  have hKx : ∀ x, K x = unif.map fun u => (x + u) / 2 := by
    intro x
    rw [Kernel.map_apply _ hφ, Kernel.prod_apply, Kernel.id_apply, Kernel.const_apply, Measure.dirac_prod, Measure.map_map hφ measurable_prodMk_left]
    rfl
  have hM : IsMarkovKernel K := Kernel.IsMarkovKernel.map _ hφ
  have hK0 : ∀ x ∈ Set.Icc (0 : ℝ) 1, K x (Set.Icc 0 1)ᶜ = 0 := by
    intro x hx
    rw [hKx, Measure.map_apply (hφx x) measurableSet_Icc.compl]
    refine measure_mono_null (t := (Set.Icc 0 1)ᶜ) (fun u hu hu1 => hu ?_) hsupp
    exact ⟨by linarith [hx.1, hu1.1], by linarith [hx.2, hu1.2]⟩
  have hinf : ∀ s : Finset ℝ, unif (s : Set ℝ)ᶜ ≠ 0 := by
    intro s h
    have h1 := measure_union_le (μ := unif) (s : Set ℝ) (s : Set ℝ)ᶜ
    rw [Set.union_compl_self, unif_finset, h, measure_univ, add_zero] at h1
    simp at h1
  have hKinf : ∀ x : ℝ, ∀ s : Finset ℝ, K x (s : Set ℝ)ᶜ ≠ 0 := by
    intro x s h
    rw [hKx, Measure.map_apply (hφx x) s.measurableSet.compl] at h
    refine hinf (s.image fun z => 2 * z - x) (measure_mono_null (t := (fun u => (x + u) / 2) ⁻¹' (s : Set ℝ)ᶜ) (fun u hu hus => hu ?_) h)
    rw [Finset.coe_image]
    exact ⟨(x + u) / 2, hus, by ring⟩
  refine ⟨K, hM, hK0, fun x _ => hKinf x, fun k => ?_, hsupp, hinf, fun y => by fun_prop, fun y x _ => Real.exp_pos _, ?_⟩
  · have e : (fun x => ∫ z, z ^ k ∂K x) = fun x => ∫ u in Set.Icc (0 : ℝ) 1, ((x + u) / 2) ^ k := by
      funext x
      rw [hKx, integral_map (hφx x).aemeasurable (by fun_prop)]
      rfl
    rw [e]
    refine (continuous_parametric_integral_of_continuous (by fun_prop) isCompact_Icc).continuousOn
  · intro h
    have h1 : K 0 (Set.Icc 0 (1 / 2)) = 1 := by
      rw [hKx, Measure.map_apply (hφx 0) measurableSet_Icc]
      have : (fun u : ℝ => (0 + u) / 2) ⁻¹' Set.Icc 0 (1 / 2) = Set.Icc 0 1 := by
        ext u
        simp only [Set.mem_preimage, Set.mem_Icc]
        constructor <;> rintro ⟨h1, h2⟩ <;> constructor <;> linarith
      rw [this]
      simp [unif]
    have h2 : K 1 (Set.Icc 0 (1 / 2)) = 0 := by
      rw [hKx, Measure.map_apply (hφx 1) measurableSet_Icc]
      refine measure_mono_null (t := ({0} : Finset ℝ) ∪ (Set.Icc 0 1)ᶜ) (fun u hu => ?_) ?_
      · by_cases h0 : 0 ≤ u
        · left
          have := hu.2
          simp only [Finset.coe_singleton, Set.mem_singleton_iff]
          linarith
        · right
          exact fun h => h0 h.1
      · exact measure_union_null (unif_finset _) hsupp
    rw [h, h2] at h1
    simp at h1

end Mfs.Props

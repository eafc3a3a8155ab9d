import Verif.Lemmas.ConvergeU
import Verif.Lemmas.ScalarKalman

/-!
# Property C133: convergence of the rule and of the filters on the whole line
-/

namespace Mfs.Props

open Matrix Mfs.Spec Mfs.Quad1 Mfs.Filter1 Mfs.Converge MeasureTheory ProbabilityTheory Filter Topology Polynomial

variable {Y : Type}

/-- **C133 (1).** Let the moments of `(X - m) / s` be those of a law of `X` that has all exponential moments and is not concentrated
on finitely many points. Then the rule converges, as the number of moments grows, for every continuous `f` of at most polynomial
growth, whatever centres and scales are used. -/
theorem C133_quadrature_converges (B : Backend) (hB : B.Valid) (μ : Measure ℝ) [IsProbabilityMeasure μ]
    (hμ : ∀ c : ℝ, Integrable (fun x => Real.exp (c * x)) μ) (hinf : ∀ s : Finset ℝ, μ (s : Set ℝ)ᶜ ≠ 0) (f : ℝ → ℝ) (hf : Continuous f)
    (hfg : ∃ (C : ℝ) (j : ℕ), ∀ x, |f x| ≤ C * (1 + |x| ^ j)) (m s : ℕ → ℝ) (hs : ∀ N, s N ≠ 0) (sort ldl : Bool) :
    let ms : ℕ → List ℝ := fun N => (List.range N).map fun k => ∫ x, ((x - m N) / s N) ^ k ∂μ
    Tendsto (fun N => integ (momentQuadrature B (ms N) (m N) (s N) sort ldl) f) atTop (𝓝 (∫ x, f x ∂μ)) := by
  intro ms
  have hl : ∀ N, (ms N).length = N := fun N => by simp [ms]
  have hget : ∀ N, ∀ k < N, (ms N).getD k 0 = ∫ x, ((x - m N) / s N) ^ k ∂μ := fun N k hk => getD_map_range _ hk
  have := (tracksU_law B hB μ hμ hinf ms hl m s hs hget sort ldl).tendsto hf hfg
  simpa using this

/-- **C133 (2).** Let the state live on the whole line, with an initial law that has all exponential moments, transition laws whose
exponential moments grow at most exponentially and whose moments are continuous and grow at most polynomially in the conditioning
state, none of them concentrated on finitely many points, and likelihoods that are continuous, positive and bounded in the state.
Then, as the number `N` of moments grows, the negative log-likelihood returned by each of the three filters converges to minus the
logarithm of the exact marginal likelihood, and every raw moment (central moments and mean; scaled central moments, mean and
scale) after every measurement converges to that of the exact posterior, and so does the integral of any continuous function of at
most polynomial growth over the rule built from the returned moments, with or without sorting and stable factorisation. The central and scaled filters may be given any
conditional mean and any positive conditional variance. -/
theorem C133_filters_converge (B : Backend) (hB : B.Valid) (stable : Bool) (K : Kernel ℝ ℝ) [IsMarkovKernel K]
    (hKe : ∀ c : ℝ, ∃ C c' : ℝ, ∀ x,
      Integrable (fun z => Real.exp (c * z)) (K x) ∧ ∫ z, Real.exp (c * z) ∂K x ≤ C * Real.exp (c' * |x|))
    (hKc : ∀ k : ℕ, Continuous fun x => ∫ z, z ^ k ∂K x)
    (hKg : ∀ k : ℕ, ∃ (C : ℝ) (j : ℕ), ∀ x, |∫ z, z ^ k ∂K x| ≤ C * (1 + |x| ^ j))
    (hKinf : ∀ x, ∀ s : Finset ℝ, K x (s : Set ℝ)ᶜ ≠ 0) (μ : Measure ℝ) [IsProbabilityMeasure μ]
    (hμ : ∀ c : ℝ, Integrable (fun x => Real.exp (c * x)) μ) (hinf : ∀ s : Finset ℝ, μ (s : Set ℝ)ᶜ ≠ 0) (pdf : Y → ℝ → ℝ)
    (hpc : ∀ y, Continuous (pdf y)) (hpdf : ∀ y x, 0 < pdf y x)
    (hpb : ∀ y, ∃ G, ∀ x, pdf y x ≤ G) (ys : List Y) :
    let lik : ℝ := ∫ x, markovE K pdf (fun _ => 1) ys x ∂μ
    let E : ℕ → (ℝ → ℝ) → ℝ := fun t f =>
      (∫ x, markovE K pdf f (ys.take (t + 1)) x ∂μ) / ∫ x, markovE K pdf (fun _ => 1) (ys.take (t + 1)) x ∂μ
    0 < lik ∧
    (∀ P : ℝ → ℕ → ℝ, (∀ x k, P x k = ∫ z, z ^ k ∂K x) →
      let out := fun N => filterRms B P pdf ((List.range N).map fun k => ∫ x, x ^ k ∂μ) ys stable
      Tendsto (fun N => (out N).2) atTop (𝓝 (-Real.log lik)) ∧
      ∀ t < ys.length, (∀ k, Tendsto (fun N => ((out N).1.getD t []).getD k 0) atTop (𝓝 (E t fun x => x ^ k))) ∧
        ∀ (f : ℝ → ℝ) (sort ldl : Bool), Continuous f → (∃ (C : ℝ) (j : ℕ), ∀ x, |f x| ≤ C * (1 + |x| ^ j)) →
          Tendsto (fun N => integ (momentQuadrature B ((out N).1.getD t []) 0 1 sort ldl) f) atTop (𝓝 (E t f))) ∧
    (∀ (P : ℝ → ℕ → ℝ → ℝ) (cm : ℝ → ℝ) (m0 : ℝ), (∀ x k m, P x k m = ∫ z, (z - m) ^ k ∂K x) →
      let out := fun N => filterCms B P cm pdf ((List.range N).map fun k => ∫ x, (x - m0) ^ k ∂μ) m0 ys stable
      Tendsto (fun N => (out N).2) atTop (𝓝 (-Real.log lik)) ∧
      ∀ t < ys.length, Tendsto (fun N => ((out N).1.getD t ([], 0)).2) atTop (𝓝 (E t fun x => x)) ∧
        (∀ k, Tendsto (fun N => ((out N).1.getD t ([], 0)).1.getD k 0) atTop (𝓝 (E t fun x => (x - E t fun x => x) ^ k))) ∧
        ∀ (f : ℝ → ℝ) (sort ldl : Bool), Continuous f → (∃ (C : ℝ) (j : ℕ), ∀ x, |f x| ≤ C * (1 + |x| ^ j)) →
          Tendsto (fun N => integ (momentQuadrature B ((out N).1.getD t ([], 0)).1 ((out N).1.getD t ([], 0)).2 1 sort ldl) f)
            atTop (𝓝 (E t f))) ∧
    (∀ (P : ℝ → ℕ → ℝ → ℝ → ℝ) (cm cv : ℝ → ℝ) (m0 s0 : ℝ), s0 ≠ 0 →
      (∀ x k m s, P x k m s = ∫ z, ((z - m) / s) ^ k ∂K x) → (∀ x, 0 < cv x) →
      let out := fun N => filterScms B P cm cv pdf ((List.range N).map fun k => ∫ x, ((x - m0) / s0) ^ k ∂μ) m0 s0 ys stable
      Tendsto (fun N => (out N).2) atTop (𝓝 (-Real.log lik)) ∧
      ∀ t < ys.length, Tendsto (fun N => ((out N).1.getD t ([], 0, 0)).2.1) atTop (𝓝 (E t fun x => x)) ∧
        0 < E t (fun x => (x - E t fun x => x) ^ 2) ∧
        Tendsto (fun N => ((out N).1.getD t ([], 0, 0)).2.2) atTop (𝓝 (Real.sqrt (E t fun x => (x - E t fun x => x) ^ 2))) ∧
        (∀ k, Tendsto (fun N => ((out N).1.getD t ([], 0, 0)).1.getD k 0) atTop
          (𝓝 (E t fun x => ((x - E t fun x => x) / Real.sqrt (E t fun x => (x - E t fun x => x) ^ 2)) ^ k))) ∧
        ∀ (f : ℝ → ℝ) (sort ldl : Bool), Continuous f → (∃ (C : ℝ) (j : ℕ), ∀ x, |f x| ≤ C * (1 + |x| ^ j)) →
          Tendsto (fun N => integ (momentQuadrature B ((out N).1.getD t ([], 0, 0)).1 ((out N).1.getD t ([], 0, 0)).2.1
            ((out N).1.getD t ([], 0, 0)).2.2 sort ldl) f) atTop (𝓝 (E t f))) := by
  have hK : GoodKernel K := ⟨hKe, hKc, hKg, hKinf⟩
  intro lik E
  set Λ0 : (ℝ → ℝ) → ℝ := fun f => ∫ x, f x ∂μ with hΛ0
  have hone : (Λ0 fun _ => 1) = 1 := by simp [hΛ0]
  have hlik : lik = ys.foldl (stepL K pdf) Λ0 (fun _ => 1) / Λ0 fun _ => 1 := by
    rw [foldl_stepL, hone, div_one]
  have hE : ∀ t f, E t f = (ys.take (t + 1)).foldl (stepL K pdf) Λ0 f / (ys.take (t + 1)).foldl (stepL K pdf) Λ0 fun _ => 1 := by
    intro t f
    rw [foldl_stepL, foldl_stepL]
  have hlen : ∀ (f : ℕ → ℝ) (N : ℕ), ((List.range N).map f).length = N := fun f N => by simp
  have hrms : ∀ P : ℝ → ℕ → ℝ, (∀ x k, P x k = ∫ z, z ^ k ∂K x) → 0 < lik ∧
      let out := fun N => filterRms B P pdf ((List.range N).map fun k => ∫ x, x ^ k ∂μ) ys stable
      Tendsto (fun N => (out N).2) atTop (𝓝 (-Real.log lik)) ∧
      ∀ t < ys.length, (∀ k, Tendsto (fun N => ((out N).1.getD t []).getD k 0) atTop (𝓝 (E t fun x => x ^ k))) ∧
        ∀ (f : ℝ → ℝ) (sort ldl : Bool), Continuous f → (∃ (C : ℝ) (j : ℕ), ∀ x, |f x| ≤ C * (1 + |x| ^ j)) →
          Tendsto (fun N => integ (momentQuadrature B ((out N).1.getD t []) 0 1 sort ldl) f) atTop (𝓝 (E t f)) := by
    intro P hP
    have key := tracks_run (K := K) (g := pdf) (next := fun N => nextRms B stable P pdf N) (lik := fun N => likRms B stable P pdf N)
      (fun s Λ => (∀ N, (s N).length = N) ∧ TracksU (fun N => momentQuadrature B (s N) 0 1 false stable) Λ)
      (fun s Λ => (∀ k, Tendsto (fun N => (s N).getD k 0) atTop (𝓝 (Λ (fun x => x ^ k) / Λ fun _ => 1))) ∧
        ∀ (f : ℝ → ℝ) (sort ldl : Bool), Continuous f → PolyGrowth f →
          Tendsto (fun N => integ (momentQuadrature B (s N) 0 1 sort ldl) f) atTop (𝓝 (Λ f / Λ fun _ => 1)))
      ?_ (fun N => (List.range N).map fun k => ∫ x, x ^ k ∂μ) Λ0
      ⟨fun N => hlen _ N, tracksU_law B hB μ hμ hinf _ (fun N => hlen _ N) (fun _ => 0) (fun _ => 1) (fun _ => one_ne_zero)
        (fun N k hk => by rw [getD_map_range _ hk]; simp) false stable⟩ (by rw [hone]; exact one_ne_zero) [] ys
    · obtain ⟨k1, k2, k3⟩ := key
      refine ⟨by rw [hlik]; exact k2, ?_⟩
      intro out
      have ho : out = fun N => (traj (nextRms B stable P pdf N) ((List.range N).map fun k => ∫ x, x ^ k ∂μ) ys,
          -((liks (nextRms B stable P pdf N) (likRms B stable P pdf N) ((List.range N).map fun k => ∫ x, x ^ k ∂μ) ys).map Real.log).sum) := by
        funext N
        simp only [out, filterRms_eq, hlen]
      clear_value out
      subst ho
      refine ⟨?_, fun t ht => ?_⟩
      · rw [hlik]
        exact k1.neg
      · simp only [hE]
        exact k3 t ht
    · rintro s Λ y ⟨hs, htr⟩
      have hpl : ∀ N, (predRms B stable P N (s N)).length = N := fun N => by simp [predRms]
      have hnl : ∀ N, (nextRms B stable P pdf N (s N) y).length = N := fun N => by simp [nextRms]
      have h' : ∀ N ≥ 4, PosRule (momentQuadrature B (predRms B stable P N (s N)) 0 1 false stable) ∧
          ∀ p : ℝ[X], p.natDegree < 2 * (N / 2) → integ (momentQuadrature B (predRms B stable P N (s N)) 0 1 false stable) (fun x => p.eval x)
            = integ (momentQuadrature B (s N) 0 1 false stable) fun x => ∫ z, p.eval z ∂K x := by
        intro N hN
        have := predictU hK B hB (htr.1 N hN) (predRms B stable P N (s N)) (by rw [hpl]; omega) 0 1 one_ne_zero
          (fun k hk => by
            rw [hpl] at hk
            rw [predRms, getD_map_range _ hk]
            simp only [hP, sub_zero, div_one]) false stable
        exact ⟨this.1, fun p hp => this.2 p (by rwa [hpl])⟩
      have h₂ : ∀ sort ldl, ∀ N ≥ 4, PosRule (momentQuadrature B (nextRms B stable P pdf N (s N) y) 0 1 sort ldl) ∧
          ∀ f, integ (momentQuadrature B (nextRms B stable P pdf N (s N) y) 0 1 sort ldl) f
            = integ (momentQuadrature B (predRms B stable P N (s N)) 0 1 false stable) (fun x => f x * pdf y x)
              / integ (momentQuadrature B (predRms B stable P N (s N)) 0 1 false stable) (pdf y) := by
        intro sort ldl N hN
        refine updateU B hB (h' N hN).1 (hpdf y) _ (by rw [hnl, hpl]) 0 1 one_ne_zero (fun k hk => ?_) sort ldl
        rw [hnl] at hk
        rw [nextRms, getD_map_range _ hk]
        simp only [sub_zero, div_one]
        rfl
      obtain ⟨G, hG⟩ := hpb y
      have htr' := tracksU_predict hK htr h'
      have h'' := h₂ false stable
      have hany := fun sort ldl => (tracksU_update htr' (hpc y) (hpdf y) hG (h₂ sort ldl)).1
      obtain ⟨t1, t2, t3⟩ := tracksU_update htr' (hpc y) (hpdf y) hG h''
      have e1 : (fun x : ℝ => ∫ _, (1 : ℝ) ∂K x) = fun _ => 1 := by simp
      rw [e1] at t2
      replace t3 := div_pos t3 htr.one_pos
      refine ⟨⟨hnl, t1⟩, ⟨fun k => ?_, fun f sort ldl hf hg => (hany sort ldl).tendsto hf hg⟩, t2, t3⟩
      refine (t1.2.2 k).congr' ?_
      filter_upwards [eventually_ge_atTop (k + 4)] with N hN
      rw [(h'' N (by omega)).2, nextRms, getD_map_range _ (by omega : k < N)]
      rfl
  refine ⟨(hrms _ fun _ _ => rfl).1, fun P hP => (hrms P hP).2, ?_, ?_⟩
  · intro P cm m0 hP
    have key := tracks_run (K := K) (g := pdf) (next := fun N => nextCms B stable P cm pdf N) (lik := fun N => likCms B stable P cm pdf N)
      (fun s Λ => (∀ N, (s N).1.length = N) ∧ TracksU (fun N => momentQuadrature B (s N).1 (s N).2 1 false stable) Λ)
      (fun s Λ => Tendsto (fun N => (s N).2) atTop (𝓝 (Λ (fun x => x) / Λ fun _ => 1)) ∧
        (∀ k, Tendsto (fun N => (s N).1.getD k 0) atTop (𝓝 (Λ (fun x => (x - Λ (fun x => x) / Λ fun _ => 1) ^ k) / Λ fun _ => 1))) ∧
        ∀ (f : ℝ → ℝ) (sort ldl : Bool), Continuous f → PolyGrowth f →
          Tendsto (fun N => integ (momentQuadrature B (s N).1 (s N).2 1 sort ldl) f) atTop (𝓝 (Λ f / Λ fun _ => 1)))
      ?_ (fun N => ((List.range N).map fun k => ∫ x, (x - m0) ^ k ∂μ, m0)) Λ0
      ⟨fun N => hlen _ N, tracksU_law B hB μ hμ hinf _ (fun N => hlen _ N) (fun _ => m0) (fun _ => 1) (fun _ => one_ne_zero)
        (fun N k hk => by rw [getD_map_range _ hk]; simp) false stable⟩ (by rw [hone]; exact one_ne_zero) ([], 0) ys
    · obtain ⟨k1, k2, k3⟩ := key
      intro out
      have ho : out = fun N => (traj (nextCms B stable P cm pdf N) ((List.range N).map fun k => ∫ x, (x - m0) ^ k ∂μ, m0) ys,
          -((liks (nextCms B stable P cm pdf N) (likCms B stable P cm pdf N) ((List.range N).map fun k => ∫ x, (x - m0) ^ k ∂μ, m0) ys).map Real.log).sum) := by
        funext N
        simp only [out, filterCms_eq, hlen]
      clear_value out
      subst ho
      refine ⟨?_, fun t ht => ?_⟩
      · rw [hlik]
        exact k1.neg
      · simp only [hE]
        exact k3 t ht
    · rintro s Λ y ⟨hs, htr⟩
      set pr := fun N => predCms B stable P cm N (s N) with hpr
      set nx := fun N => nextCms B stable P cm pdf N (s N) y with hnx
      have hpl : ∀ N, (pr N).1.length = N := fun N => by simp [hpr, predCms]
      have hnl : ∀ N, (nx N).1.length = N := fun N => by simp [hnx, nextCms]
      have hpg : ∀ N, ∀ k < N, (pr N).1.getD k 0 = integ (momentQuadrature B (s N).1 (s N).2 1 false stable) fun x => P x k (pr N).2 :=
        fun N k hk => getD_map_range _ hk
      have hng : ∀ N, ∀ k < N, (nx N).1.getD k 0 = integ (momentQuadrature B (pr N).1 (pr N).2 1 false stable)
          (fun x => (x - (nx N).2) ^ k * pdf y x) / integ (momentQuadrature B (pr N).1 (pr N).2 1 false stable) (pdf y) :=
        fun N k hk => getD_map_range _ hk
      have h' : ∀ N ≥ 4, PosRule (momentQuadrature B (pr N).1 (pr N).2 1 false stable) ∧
          ∀ p : ℝ[X], p.natDegree < 2 * (N / 2) → integ (momentQuadrature B (pr N).1 (pr N).2 1 false stable) (fun x => p.eval x)
            = integ (momentQuadrature B (s N).1 (s N).2 1 false stable) fun x => ∫ z, p.eval z ∂K x := by
        intro N hN
        have := predictU hK B hB (htr.1 N hN) (pr N).1 (by rw [hpl]; omega) (pr N).2 1 one_ne_zero
          (fun k hk => by
            rw [hpl] at hk
            rw [hpg N k hk]
            simp only [hP, div_one]) false stable
        exact ⟨this.1, fun p hp => this.2 p (by rwa [hpl])⟩
      have h₂ : ∀ sort ldl, ∀ N ≥ 4, PosRule (momentQuadrature B (nx N).1 (nx N).2 1 sort ldl) ∧
          ∀ f, integ (momentQuadrature B (nx N).1 (nx N).2 1 sort ldl) f
            = integ (momentQuadrature B (pr N).1 (pr N).2 1 false stable) (fun x => f x * pdf y x)
              / integ (momentQuadrature B (pr N).1 (pr N).2 1 false stable) (pdf y) := by
        intro sort ldl N hN
        refine updateU B hB (h' N hN).1 (hpdf y) _ (by rw [hnl, hpl]) (nx N).2 1 one_ne_zero (fun k hk => ?_) sort ldl
        rw [hnl] at hk
        rw [hng N k hk]
        simp only [div_one]
      obtain ⟨G, hG⟩ := hpb y
      have htr' := tracksU_predict hK htr h'
      have h'' := h₂ false stable
      have hany := fun sort ldl => (tracksU_update htr' (hpc y) (hpdf y) hG (h₂ sort ldl)).1
      obtain ⟨t1, t2, t3⟩ := tracksU_update htr' (hpc y) (hpdf y) hG h''
      have e1 : (fun x : ℝ => ∫ _, (1 : ℝ) ∂K x) = fun _ => 1 := by simp
      rw [e1] at t2
      replace t3 := div_pos t3 htr.one_pos
      have hmean : Tendsto (fun N => (nx N).2) atTop (𝓝 (stepL K pdf Λ y (fun x => x) / stepL K pdf Λ y fun _ => 1)) := by
        refine t1.mean.congr' ?_
        filter_upwards [eventually_ge_atTop 4] with N hN
        rw [(h'' N hN).2]
        have : (nx N).2 = integ (momentQuadrature B (pr N).1 (pr N).2 1 false stable) (fun x => (x - 0) ^ 1 * pdf y x)
          / integ (momentQuadrature B (pr N).1 (pr N).2 1 false stable) (pdf y) := rfl
        rw [this]
        simp only [sub_zero, pow_one]
      refine ⟨⟨hnl, t1⟩, ⟨hmean, fun k => ?_, fun f sort ldl hf hg => (hany sort ldl).tendsto hf hg⟩, t2, t3⟩
      refine (t1.central hmean k).congr' ?_
      filter_upwards [eventually_ge_atTop (k + 4)] with N hN
      rw [(h'' N (by omega)).2]
      exact (hng N k (by omega)).symm
  · intro P cm cv m0 s0 hs0 hP hcv
    have key := tracks_run (K := K) (g := pdf) (next := fun N => nextScms B stable P cm cv pdf N)
      (lik := fun N => likScms B stable P cm cv pdf N)
      (fun s Λ => (∀ N, (s N).1.length = N) ∧ TracksU (fun N => momentQuadrature B (s N).1 (s N).2.1 (s N).2.2 false stable) Λ)
      (fun s Λ => Tendsto (fun N => (s N).2.1) atTop (𝓝 (Λ (fun x => x) / Λ fun _ => 1)) ∧
        0 < Λ (fun x => (x - Λ (fun x => x) / Λ fun _ => 1) ^ 2) / Λ (fun _ => 1) ∧
        Tendsto (fun N => (s N).2.2) atTop (𝓝 (Real.sqrt (Λ (fun x => (x - Λ (fun x => x) / Λ fun _ => 1) ^ 2) / Λ fun _ => 1))) ∧
        (∀ k, Tendsto (fun N => (s N).1.getD k 0) atTop (𝓝 (Λ (fun x => ((x - Λ (fun x => x) / Λ fun _ => 1)
          / Real.sqrt (Λ (fun x => (x - Λ (fun x => x) / Λ fun _ => 1) ^ 2) / Λ fun _ => 1)) ^ k) / Λ fun _ => 1))) ∧
        ∀ (f : ℝ → ℝ) (sort ldl : Bool), Continuous f → PolyGrowth f →
          Tendsto (fun N => integ (momentQuadrature B (s N).1 (s N).2.1 (s N).2.2 sort ldl) f) atTop (𝓝 (Λ f / Λ fun _ => 1)))
      ?_ (fun N => ((List.range N).map fun k => ∫ x, ((x - m0) / s0) ^ k ∂μ, m0, s0)) Λ0
      ⟨fun N => hlen _ N, tracksU_law B hB μ hμ hinf _ (fun N => hlen _ N) (fun _ => m0) (fun _ => s0) (fun _ => hs0)
        (fun N k hk => by rw [getD_map_range _ hk]) false stable⟩ (by rw [hone]; exact one_ne_zero) ([], 0, 0) ys
    · obtain ⟨k1, k2, k3⟩ := key
      intro out
      have ho : out = fun N => (traj (nextScms B stable P cm cv pdf N) ((List.range N).map fun k => ∫ x, ((x - m0) / s0) ^ k ∂μ, m0, s0) ys,
          -((liks (nextScms B stable P cm cv pdf N) (likScms B stable P cm cv pdf N) ((List.range N).map fun k => ∫ x, ((x - m0) / s0) ^ k ∂μ, m0, s0) ys).map Real.log).sum) := by
        funext N
        simp only [out, filterScms_eq, hlen]
      clear_value out
      subst ho
      refine ⟨?_, fun t ht => ?_⟩
      · rw [hlik]
        exact k1.neg
      · simp only [hE]
        exact k3 t ht
    · rintro s Λ y ⟨hs, htr⟩
      set pr := fun N => predScms B stable P cm cv N (s N) with hpr
      set nx := fun N => nextScms B stable P cm cv pdf N (s N) y with hnx
      have hpl : ∀ N, (pr N).1.length = N := fun N => by simp [hpr, predScms]
      have hnl : ∀ N, (nx N).1.length = N := fun N => by simp [hnx, nextScms]
      have hpg : ∀ N, ∀ k < N, (pr N).1.getD k 0
          = integ (momentQuadrature B (s N).1 (s N).2.1 (s N).2.2 false stable) fun x => P x k (pr N).2.1 (pr N).2.2 :=
        fun N k hk => getD_map_range _ hk
      have hng : ∀ N, ∀ k < N, (nx N).1.getD k 0 = integ (momentQuadrature B (pr N).1 (pr N).2.1 (pr N).2.2 false stable)
          (fun x => ((x - (nx N).2.1) / (nx N).2.2) ^ k * pdf y x)
            / integ (momentQuadrature B (pr N).1 (pr N).2.1 (pr N).2.2 false stable) (pdf y) :=
        fun N k hk => getD_map_range _ hk
      have hps : ∀ N ≥ 4, (pr N).2.2 ≠ 0 := by
        intro N hN
        have : (pr N).2.2 = Real.sqrt (integ (momentQuadrature B (s N).1 (s N).2.1 (s N).2.2 false stable) cv) := rfl
        rw [this, Real.sqrt_ne_zero']
        exact (htr.1 N hN).integ_pos hcv
      have h' : ∀ N ≥ 4, PosRule (momentQuadrature B (pr N).1 (pr N).2.1 (pr N).2.2 false stable) ∧
          ∀ p : ℝ[X], p.natDegree < 2 * (N / 2) →
            integ (momentQuadrature B (pr N).1 (pr N).2.1 (pr N).2.2 false stable) (fun x => p.eval x)
              = integ (momentQuadrature B (s N).1 (s N).2.1 (s N).2.2 false stable) fun x => ∫ z, p.eval z ∂K x := by
        intro N hN
        have := predictU hK B hB (htr.1 N hN) (pr N).1 (by rw [hpl]; omega) (pr N).2.1 (pr N).2.2 (hps N hN)
          (fun k hk => by
            rw [hpl] at hk
            rw [hpg N k hk]
            simp only [hP]) false stable
        exact ⟨this.1, fun p hp => this.2 p (by rwa [hpl])⟩
      set R := fun N => momentQuadrature B (pr N).1 (pr N).2.1 (pr N).2.2 false stable with hR
      have hm : ∀ N, (nx N).2.1 = integ (R N) (fun x => x * pdf y x) / integ (R N) (pdf y) := by
        intro N
        have : (nx N).2.1 = integ (R N) (fun x => ((x - 0) / 1) ^ 1 * pdf y x) / integ (R N) (pdf y) := rfl
        rw [this]
        simp only [sub_zero, div_one, pow_one]
      have hsd : ∀ N, (nx N).2.2 = Real.sqrt (integ (R N) (fun x => (x - (nx N).2.1) ^ 2 * pdf y x) / integ (R N) (pdf y)) := by
        intro N
        have : (nx N).2.2 = Real.sqrt (integ (R N) (fun x => ((x - (nx N).2.1) / 1) ^ 2 * pdf y x) / integ (R N) (pdf y)) := rfl
        rw [this]
        simp only [div_one]
      have hns : ∀ N ≥ 4, (nx N).2.2 ≠ 0 := by
        intro N hN
        have hg := (h' N hN).1
        rw [hsd, Real.sqrt_ne_zero']
        refine div_pos ?_ (hg.integ_pos (hpdf y))
        have hw : ∀ i, 0 < (R N).1 i * pdf y ((R N).2 i) := fun i => mul_pos (hg.pos i) (hpdf y _)
        have h2 : 2 ≤ (pr N).1.length / 2 := by rw [hpl]; omega
        have hex : ∃ i, (R N).2 i - (nx N).2.1 ≠ 0 := by
          by_contra hall
          push Not at hall
          have := hg.inj ((sub_eq_zero.1 (hall ⟨0, by omega⟩)).trans (sub_eq_zero.1 (hall ⟨1, by omega⟩)).symm)
          simp at this
        obtain ⟨i, hi⟩ := hex
        refine Finset.sum_pos' (fun j _ => ?_) ⟨i, Finset.mem_univ _, ?_⟩
        · have := mul_nonneg (hw j).le (sq_nonneg ((R N).2 j - (nx N).2.1))
          linarith
        · have : 0 < ((R N).2 i - (nx N).2.1) ^ 2 := by positivity
          have := mul_pos (hw i) this
          linarith
      have h₂ : ∀ sort ldl, ∀ N ≥ 4, PosRule (momentQuadrature B (nx N).1 (nx N).2.1 (nx N).2.2 sort ldl) ∧
          ∀ f, integ (momentQuadrature B (nx N).1 (nx N).2.1 (nx N).2.2 sort ldl) f
            = integ (R N) (fun x => f x * pdf y x) / integ (R N) (pdf y) := by
        intro sort ldl N hN
        refine updateU B hB (h' N hN).1 (hpdf y) _ (by rw [hnl, hpl]) (nx N).2.1 (nx N).2.2 (hns N hN) (fun k hk => ?_) sort ldl
        rw [hnl] at hk
        exact hng N k hk
      obtain ⟨G, hG⟩ := hpb y
      have htr' := tracksU_predict hK htr h'
      have h'' := h₂ false stable
      have hany := fun sort ldl => (tracksU_update htr' (hpc y) (hpdf y) hG (h₂ sort ldl)).1
      obtain ⟨t1, t2, t3⟩ := tracksU_update htr' (hpc y) (hpdf y) hG h''
      have e1 : (fun x : ℝ => ∫ _, (1 : ℝ) ∂K x) = fun _ => 1 := by simp
      rw [e1] at t2
      replace t3 := div_pos t3 htr.one_pos
      set Λ' := stepL K pdf Λ y with hΛ'
      set mL := Λ' (fun x => x) / Λ' fun _ => 1 with hmL
      have hmean : Tendsto (fun N => (nx N).2.1) atTop (𝓝 mL) := by
        refine t1.mean.congr' ?_
        filter_upwards [eventually_ge_atTop 4] with N hN
        rw [(h'' N hN).2, hm]
      have hvar : 0 < Λ' (fun x => (x - mL) ^ 2) / Λ' fun _ => 1 := by
        refine div_pos (t1.pos_off (by fun_prop) (PolyGrowth.sub_pow mL 2) (fun x => sq_nonneg _) {mL} fun x hx => ?_) t1.one_pos
        rw [Finset.mem_singleton]
        have := pow_eq_zero_iff two_ne_zero |>.1 hx
        linarith
      have hscale : Tendsto (fun N => (nx N).2.2) atTop (𝓝 (Real.sqrt (Λ' (fun x => (x - mL) ^ 2) / Λ' fun _ => 1))) := by
        refine ((t1.central hmean 2).sqrt).congr' ?_
        filter_upwards [eventually_ge_atTop 4] with N hN
        rw [(h'' N hN).2, hsd]
      refine ⟨⟨hnl, t1⟩, ⟨hmean, hvar, hscale, fun k => ?_, fun f sort ldl hf hg => (hany sort ldl).tendsto hf hg⟩, t2, t3⟩
      have hσ : Real.sqrt (Λ' (fun x => (x - mL) ^ 2) / Λ' fun _ => 1) ≠ 0 := (Real.sqrt_pos.2 hvar).ne'
      set σ := Real.sqrt (Λ' (fun x => (x - mL) ^ 2) / Λ' fun _ => 1) with hσd
      have hdiv : ∀ {n : ℕ} (r : (Fin n → ℝ) × (Fin n → ℝ)) (c d : ℝ), integ r (fun x => ((x - c) / d) ^ k) = integ r (fun x => (x - c) ^ k) / d ^ k := by
        intro n r c d
        simp only [integ, div_pow, Finset.sum_div, mul_div_assoc]
      have e : Λ' (fun x => ((x - mL) / σ) ^ k) / (Λ' fun _ => 1) = Λ' (fun x => (x - mL) ^ k) / (Λ' fun _ => 1) / σ ^ k := by
        refine tendsto_nhds_unique (t1.tendsto (f := fun x => ((x - mL) / σ) ^ k) (by fun_prop) ?_) ?_
        · have := (PolyGrowth.sub_pow mL k).mul_bounded (g := fun _ => (σ ^ k)⁻¹) (fun _ => le_refl _)
          refine Eq.mp (congrArg PolyGrowth (funext fun x => ?_)) this
          rw [div_pow, div_eq_inv_mul]
        · simp only [hdiv]
          exact (t1.tendsto (f := fun x => (x - mL) ^ k) (by fun_prop) (PolyGrowth.sub_pow mL k)).div_const _
      rw [e]
      refine ((t1.central hmean k).div (hscale.pow k) (pow_ne_zero _ hσ)).congr' ?_
      filter_upwards [eventually_ge_atTop (k + 4)] with N hN
      refine (hdiv _ _ _).symm.trans ?_
      rw [(h'' N (by omega)).2]
      exact (hng N k (by omega)).symm

/-- the hypotheses are met by a normal initial law, normal transitions and normal likelihoods. -/
example : GoodKernel (linKernel 0.9 1) ∧ (∀ c : ℝ, Integrable (fun x => Real.exp (c * x)) (gaussianReal 0 1)) ∧
    (∀ s : Finset ℝ, gaussianReal 0 1 (s : Set ℝ)ᶜ ≠ 0) ∧ (∀ y, Continuous fun x => Experiments.normPdf y x (√1)) ∧
    (∀ y x, 0 < Experiments.normPdf y x (√1)) ∧ (∀ y, ∃ G, ∀ x, Experiments.normPdf y x (√1) ≤ G) ∧ ∃ B : Backend, B.Valid :=
  ⟨linKernel_good _ one_ne_zero, gaussianReal_expMoments 0 1, gaussianReal_inf 0 one_ne_zero, fun y => normPdf_continuous y _,
    fun y x => normPdf_pos y x _, fun y => ⟨_, fun x => normPdf_le y x one_pos⟩, _, theBackend_valid⟩

end Mfs.Props

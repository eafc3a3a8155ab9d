import Verif.Lemmas.ConvergeU
import Verif.Lemmas.WeakMoments

/-!
# Property C191: `moment_quadrature` of a law is its Gauss rule
-/

namespace Mfs.Props

open Matrix Mfs.Spec Mfs.Quad1 Mfs.Converge MeasureTheory ProbabilityTheory Filter Topology Polynomial

theorem integrable_polyK {μ : Measure ℝ} (hμ : ∀ k : ℕ, Integrable (fun x => x ^ k) μ) (p : ℝ[X]) : Integrable (fun x => p.eval x) μ := by
  simp only [eval_eq_sum_range]
  exact integrable_finsetSum _ fun k _ => (hμ k).const_mul _

/-- positivity of the integral of a function that is almost everywhere nonnegative and positive off a finite set. -/
theorem integral_pos_ae {μ : Measure ℝ} (hinf : ∀ s : Finset ℝ, μ (s : Set ℝ)ᶜ ≠ 0) {f : ℝ → ℝ} (hf : Integrable f μ)
    (h0 : ∀ᵐ x ∂μ, 0 ≤ f x) (s : Finset ℝ) (hs : ∀ x, f x = 0 → x ∈ s) : 0 < ∫ x, f x ∂μ := by
  rw [integral_pos_iff_support_of_nonneg_ae h0 hf]
  exact lt_of_lt_of_le (pos_iff_ne_zero.2 (hinf s)) (measure_mono fun x hx => fun h => hx (hs x h))

/-- the rule of a law with all moments. -/
theorem rule_of_lawK (B : Backend) (hB : B.Valid) (μ : Measure ℝ) [IsProbabilityMeasure μ] (hμ : ∀ k : ℕ, Integrable (fun x => x ^ k) μ)
    (hinf : ∀ s : Finset ℝ, μ (s : Set ℝ)ᶜ ≠ 0) (ms : List ℝ) (hl : 2 ≤ ms.length) (m s : ℝ) (hs : s ≠ 0)
    (hms : ∀ k < ms.length, ms.getD k 0 = ∫ x, ((x - m) / s) ^ k ∂μ) (sort ldl : Bool) :
    PosRule (momentQuadrature B ms m s sort ldl) ∧
    ∀ p : ℝ[X], p.natDegree < 2 * (ms.length / 2) →
      integ (momentQuadrature B ms m s sort ldl) (fun x => p.eval x) = ∫ x, p.eval x ∂μ := by
  let L : ℝ[X] →ₗ[ℝ] ℝ :=
    { toFun := fun p => ∫ x, p.eval x ∂μ
      map_add' := fun p q => by
        simp only [eval_add]
        exact integral_add (integrable_polyK hμ p) (integrable_polyK hμ q)
      map_smul' := fun c p => by
        simp only [eval_smul, smul_eq_mul, RingHom.id_apply]
        exact integral_const_mul _ _ }
  refine rule_pos B hB L ?_ ms (fun q hq _ => ?_) hl m s hs ?_ sort ldl
  · show ∫ x, (1 : ℝ[X]).eval x ∂μ = 1
    simp
  · refine integral_pos_off hinf (integrable_polyK hμ _) (fun x => ?_) q.roots.toFinset fun x hx => ?_
    · rw [eval_pow]; positivity
    · rw [eval_pow] at hx
      simpa [hq] using pow_eq_zero_iff two_ne_zero |>.1 hx
  · intro k hk
    rw [hms k hk]
    show _ = ∫ x, (affPoly m s ^ k).eval x ∂μ
    simp only [eval_pow, affPoly_eval]

/-- **C191 (Gauss rule).** Let `ms` be the first `2 n` moments (raw, or of `(X - m) / s`) of a law that has all moments and is not
concentrated on finitely many points. The weights of `moment_quadrature` are positive and sum to one, the `n` nodes are distinct, the
rule is exact for polynomials of degree below `2 n`, the nodes lie strictly inside every half-line that carries the law, and they are
exactly the zeros of the polynomial of degree at most `n` that is orthogonal to all polynomials of lower degree. -/
theorem C191_gauss_rule (B : Backend) (hB : B.Valid) (μ : Measure ℝ) [IsProbabilityMeasure μ] (hμ : ∀ k : ℕ, Integrable (fun x => x ^ k) μ)
    (hinf : ∀ s : Finset ℝ, μ (s : Set ℝ)ᶜ ≠ 0) (ms : List ℝ) (hl : 2 ≤ ms.length) (m s : ℝ) (hs : s ≠ 0)
    (hms : ∀ k < ms.length, ms.getD k 0 = ∫ x, ((x - m) / s) ^ k ∂μ) (sort ldl : Bool) :
    let r := momentQuadrature B ms m s sort ldl
    (∀ i, 0 < r.1 i) ∧ ∑ i, r.1 i = 1 ∧ Function.Injective r.2 ∧
    (∀ p : ℝ[X], p.natDegree < 2 * (ms.length / 2) → ∑ i, r.1 i * p.eval (r.2 i) = ∫ x, p.eval x ∂μ) ∧
    (∀ a, μ (Set.Iio a) = 0 → ∀ i, a < r.2 i) ∧ (∀ b, μ (Set.Ioi b) = 0 → ∀ i, r.2 i < b) ∧
    ∀ P : ℝ[X], P ≠ 0 → P.natDegree ≤ ms.length / 2 → (∀ q : ℝ[X], q.natDegree < ms.length / 2 → ∫ x, P.eval x * q.eval x ∂μ = 0) →
      ∀ x, P.eval x = 0 ↔ ∃ i, r.2 i = x := by
  intro r
  obtain ⟨hr, hex⟩ := rule_of_lawK B hB μ hμ hinf ms hl m s hs hms sort ldl
  have hex' : ∀ p : ℝ[X], p.natDegree < 2 * (ms.length / 2) → ∑ i, r.1 i * p.eval (r.2 i) = ∫ x, p.eval x ∂μ := hex
  have hne : ∀ i, (nodePolyErase r.2 i).eval (r.2 i) ≠ 0 := fun i => by
    rw [eval_nodePolyErase, Finset.prod_ne_zero_iff]
    intro j hj
    exact sub_ne_zero.2 fun h => (Finset.mem_erase.1 hj).1 (hr.inj h).symm
  have hn : 0 < ms.length / 2 := by omega
  -- a linear factor times the square of the node polynomial
  have hlin : ∀ (c : ℝ) (i), (∫ x, ((X - C c) * nodePolyErase r.2 i ^ 2).eval x ∂μ) = r.1 i * ((r.2 i - c) * (nodePolyErase r.2 i).eval (r.2 i) ^ 2) := by
    intro c i
    rw [← hex' _ ?_]
    · have := sum_erase_eval r.1 r.2 i (fun y => (y - c) * (nodePolyErase r.2 i).eval y ^ 2) (fun y hy => by simp [hy])
      simpa using this
    · refine lt_of_le_of_lt natDegree_mul_le ?_
      have h1 := natDegree_pow_le (p := nodePolyErase r.2 i) (n := 2)
      rw [natDegree_nodePolyErase] at h1
      rw [natDegree_X_sub_C]
      omega
  have hroots : ∀ (c : ℝ) (i) (x : ℝ), ((X - C c) * nodePolyErase r.2 i ^ 2).eval x = 0 →
      x ∈ ((X - C c) * nodePolyErase r.2 i ^ 2).roots.toFinset := by
    intro c i x hx
    rw [Multiset.mem_toFinset, mem_roots]
    · exact hx
    · exact mul_ne_zero (X_sub_C_ne_zero c) (pow_ne_zero 2 (nodePolyErase_ne_zero r.2 i))
  refine ⟨hr.pos, hr.sum, hr.inj, hex', fun a ha i => ?_, fun b hb i => ?_, fun P hP hdeg horth x => ?_⟩
  · have hpos := integral_pos_ae hinf (integrable_polyK hμ ((X - C a) * nodePolyErase r.2 i ^ 2)) (by
      rw [ae_iff]
      refine measure_mono_null (fun x hx => ?_) ha
      by_contra hxa
      refine hx ?_
      simp only [Set.mem_Iio, not_lt] at hxa
      simp only [eval_mul, eval_sub, eval_X, eval_C, eval_pow]
      exact mul_nonneg (by linarith) (sq_nonneg _)) _ (hroots a i)
    rw [hlin] at hpos
    have h2 : 0 < (nodePolyErase r.2 i).eval (r.2 i) ^ 2 := sq_pos_of_ne_zero (hne i)
    have h3 := (pos_iff_pos_of_mul_pos hpos).1 (hr.pos i)
    have := (pos_iff_pos_of_mul_pos h3).2 h2
    linarith
  · have hpos := integral_pos_ae hinf (integrable_polyK hμ ((X - C b) * nodePolyErase r.2 i ^ 2)).neg (by
      rw [ae_iff]
      refine measure_mono_null (fun x hx => ?_) hb
      by_contra hxb
      refine hx ?_
      simp only [Set.mem_Ioi, not_lt] at hxb
      simp only [Pi.neg_apply, eval_mul, eval_sub, eval_X, eval_C, eval_pow]
      have := mul_nonneg (sub_nonneg.2 hxb) (sq_nonneg ((nodePolyErase r.2 i).eval x))
      linarith) _ (fun x hx => hroots b i x (by simpa using hx))
    have e : (∫ x, (-fun x => ((X - C b) * nodePolyErase r.2 i ^ 2).eval x) x ∂μ) = -∫ x, ((X - C b) * nodePolyErase r.2 i ^ 2).eval x ∂μ :=
      integral_neg _
    rw [e, hlin] at hpos
    have h2 : 0 < (nodePolyErase r.2 i).eval (r.2 i) ^ 2 := sq_pos_of_ne_zero (hne i)
    by_contra hcon
    push Not at hcon
    have := mul_nonneg (hr.pos i).le (mul_nonneg (sub_nonneg.2 hcon) h2.le)
    linarith
  · have hz : ∀ i, P.eval (r.2 i) = 0 := by
      intro i
      have h1 := horth (nodePolyErase r.2 i) (by rw [natDegree_nodePolyErase]; omega)
      have h2 := hex' (P * nodePolyErase r.2 i) (lt_of_le_of_lt natDegree_mul_le (by rw [natDegree_nodePolyErase]; omega))
      simp only [eval_mul] at h2
      rw [h1, sum_erase_eval r.1 r.2 i (fun y => P.eval y * (nodePolyErase r.2 i).eval y) (fun y hy => by simp [hy])] at h2
      rcases mul_eq_zero.1 h2 with h | h
      · exact absurd h (hr.pos i).ne'
      · exact (mul_eq_zero.1 h).resolve_right (hne i)
    refine ⟨fun hx => ?_, fun ⟨i, hi⟩ => hi ▸ hz i⟩
    by_contra hcon
    push Not at hcon
    have hsub : insert x (Finset.univ.image r.2) ⊆ P.roots.toFinset := by
      intro y hy
      rw [Multiset.mem_toFinset, mem_roots hP]
      rcases Finset.mem_insert.1 hy with rfl | hy
      · exact hx
      · obtain ⟨i, -, rfl⟩ := Finset.mem_image.1 hy
        exact hz i
    have hc := (Finset.card_le_card hsub).trans ((Multiset.toFinset_card_le _).trans (P.card_roots' ))
    rw [Finset.card_insert_of_notMem (by simpa using hcon), Finset.card_image_of_injective _ hr.inj, Finset.card_univ, Fintype.card_fin] at hc
    omega

/-- **C191 (convergence).** If the law has some exponential moment, `E exp(c |X|) < ∞` for one `c > 0`, the rule converges as the number of
moments grows, for every continuous integrand of at most polynomial growth. C133 asks for all exponential moments. -/
theorem C191_rule_converges (B : Backend) (hB : B.Valid) (μ : Measure ℝ) [IsProbabilityMeasure μ]
    (hμ : ∃ c : ℝ, 0 < c ∧ Integrable (fun x => Real.exp (c * |x|)) μ) (hinf : ∀ s : Finset ℝ, μ (s : Set ℝ)ᶜ ≠ 0) (f : ℝ → ℝ) (hf : Continuous f)
    (hfg : ∃ (C : ℝ) (j : ℕ), ∀ x, |f x| ≤ C * (1 + |x| ^ j)) (m s : ℕ → ℝ) (hs : ∀ N, s N ≠ 0) (sort ldl : Bool) (ms : ℕ → List ℝ)
    (hl : Tendsto (fun N => (ms N).length) atTop atTop)
    (hms : ∀ N, ∀ k < (ms N).length, (ms N).getD k 0 = ∫ x, ((x - m N) / s N) ^ k ∂μ) :
    Tendsto (fun N => integ (momentQuadrature B (ms N) (m N) (s N) sort ldl) f) atTop (𝓝 (∫ x, f x ∂μ)) := by
  have hK := SomeExpMoment.pow hμ
  obtain ⟨n0, hn0⟩ := eventually_atTop.1 (hl.eventually_ge_atTop 2)
  have h := fun N => rule_of_lawK B hB μ hK hinf (ms (N + n0)) (hn0 _ (by omega)) (m (N + n0)) (s (N + n0)) (hs _) (hms _) sort ldl
  have hprobN : ∀ N, IsProbabilityMeasure (ruleMeas (momentQuadrature B (ms (N + n0)) (m (N + n0)) (s (N + n0)) sort ldl)) :=
    fun N => (h N).1.isProb
  have hl' : Tendsto (fun N => (ms (N + n0)).length) atTop atTop := hl.comp (tendsto_add_atTop_nat n0)
  have key := tendsto_integral_of_someMoments (ν := fun N => ruleMeas (momentQuadrature B (ms (N + n0)) (m (N + n0)) (s (N + n0)) sort ldl))
    (μ := μ) (fun N k => integrable_ruleMeas _ _) hμ (fun k => by
      refine tendsto_const_nhds.congr' ?_
      filter_upwards [hl'.eventually_ge_atTop (k + 4)] with N hN
      have := (h N).2 (X ^ k) (by rw [natDegree_X_pow]; omega)
      simp only [eval_pow, eval_X] at this
      rw [(h N).1.integral, this]) hf hfg
  refine (tendsto_add_atTop_iff_nat n0).1 (key.congr fun N => ?_)
  exact (h N).1.integral _

end Mfs.Props

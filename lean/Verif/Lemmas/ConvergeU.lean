import Verif.Lemmas.Converge
import Verif.Lemmas.MomentMethod
import Verif.Props.PolyProcess
import Mathlib.Probability.Kernel.Composition.IntegralCompProd

/-!
# Convergence of recursions built on the rules, for laws on the whole line with all exponential moments
-/

namespace Mfs.Converge

open Matrix Mfs.Spec Mfs.Quad1 Mfs.Props Polynomial MeasureTheory Filter Topology ProbabilityTheory

/-- a rule with positive weights summing to one and distinct nodes. -/
structure PosRule {n : ℕ} (r : (Fin n → ℝ) × (Fin n → ℝ)) : Prop where
  pos : ∀ i, 0 < r.1 i
  sum : ∑ i, r.1 i = 1
  inj : Function.Injective r.2

theorem GoodRule.posRule {a b : ℝ} {n : ℕ} {r : (Fin n → ℝ) × (Fin n → ℝ)} (h : GoodRule a b r) : PosRule r := ⟨h.pos, h.sum, h.inj⟩

namespace PosRule

variable {n : ℕ} {r : (Fin n → ℝ) × (Fin n → ℝ)}

theorem good (h : PosRule r) : ∃ a b, GoodRule a b r := by
  obtain ⟨R, hR⟩ : ∃ R, ∀ i, |r.2 i| ≤ R := by
    refine ⟨∑ i, |r.2 i|, fun i => ?_⟩
    exact Finset.single_le_sum (f := fun i => |r.2 i|) (fun j _ => abs_nonneg _) (Finset.mem_univ i)
  exact ⟨-R, R, h.pos, h.sum, h.inj, fun i => abs_le.1 (hR i)⟩

theorem nonempty (h : PosRule r) : (Finset.univ : Finset (Fin n)).Nonempty := by
  obtain ⟨a, b, hg⟩ := h.good
  exact hg.nonempty

theorem integ_pos (h : PosRule r) {f : ℝ → ℝ} (hf : ∀ x, 0 < f x) : 0 < integ r f := by
  obtain ⟨a, b, hg⟩ := h.good
  exact hg.integ_pos fun x _ => hf x

end PosRule

/-- a rule as a measure. -/
noncomputable def ruleMeas {n : ℕ} (r : (Fin n → ℝ) × (Fin n → ℝ)) : Measure ℝ := ∑ i, ENNReal.ofReal (r.1 i) • Measure.dirac (r.2 i)

theorem PosRule.isProb {n : ℕ} {r : (Fin n → ℝ) × (Fin n → ℝ)} (h : PosRule r) : IsProbabilityMeasure (ruleMeas r) := by
  constructor
  simp only [ruleMeas, Measure.finsetSum_apply, Measure.smul_apply, measure_univ, smul_eq_mul, mul_one]
  rw [← ENNReal.ofReal_sum_of_nonneg fun i _ => (h.pos i).le, h.sum, ENNReal.ofReal_one]

theorem integrable_ruleMeas {n : ℕ} (r : (Fin n → ℝ) × (Fin n → ℝ)) (f : ℝ → ℝ) : Integrable f (ruleMeas r) := by
  rw [ruleMeas, integrable_finsetSum_measure]
  exact fun i _ => (integrable_dirac (by simp)).smul_measure ENNReal.ofReal_ne_top

theorem PosRule.integral {n : ℕ} {r : (Fin n → ℝ) × (Fin n → ℝ)} (h : PosRule r) (f : ℝ → ℝ) : ∫ x, f x ∂ruleMeas r = integ r f := by
  rw [ruleMeas, integral_finsetSum_measure fun i _ => (integrable_dirac (by simp)).smul_measure ENNReal.ofReal_ne_top, integ]
  refine Finset.sum_congr rfl fun i _ => ?_
  rw [integral_smul_measure, integral_dirac, ENNReal.toReal_ofReal (h.pos i).le, smul_eq_mul]

theorem PolyGrowth.const (c : ℝ) : PolyGrowth fun _ => c := ⟨|c|, 0, fun x => by
  have := abs_nonneg c
  simp only [pow_zero]
  linarith⟩

theorem PolyGrowth.pow (k : ℕ) : PolyGrowth fun x => x ^ k := ⟨1, k, fun x => by rw [abs_pow]; linarith⟩

theorem PolyGrowth.mul_bounded {f g : ℝ → ℝ} (hf : PolyGrowth f) {G : ℝ} (hg : ∀ x, |g x| ≤ G) : PolyGrowth fun x => g x * f x := by
  obtain ⟨C, j, hC⟩ := hf
  refine ⟨G * C, j, fun x => ?_⟩
  rw [abs_mul, mul_assoc]
  exact mul_le_mul (hg x) (hC x) (abs_nonneg _) ((abs_nonneg _).trans (hg x))

theorem PolyGrowth.sub_pow (c : ℝ) (k : ℕ) : PolyGrowth fun x => (x - c) ^ k := by
  refine ⟨(2 ^ k) * (1 + |c| ^ k), k, fun x => ?_⟩
  rw [abs_pow]
  have h1 : |x - c| ≤ 2 * max |x| |c| := by
    have := abs_sub x c
    have h2 := le_max_left |x| |c|
    have h3 := le_max_right |x| |c|
    linarith
  have h2 : |x - c| ^ k ≤ 2 ^ k * (max |x| |c|) ^ k := by
    rw [← mul_pow]
    exact pow_le_pow_left₀ (abs_nonneg _) h1 k
  have h3 : (max |x| |c|) ^ k ≤ (1 + |c| ^ k) * (1 + |x| ^ k) := by
    have a1 : 0 ≤ |x| ^ k := by positivity
    have a2 : 0 ≤ |c| ^ k := by positivity
    rcases max_cases |x| |c| with ⟨h, _⟩ | ⟨h, _⟩ <;> rw [h] <;> nlinarith
  refine h2.trans ?_
  rw [mul_assoc]
  exact mul_le_mul_of_nonneg_left h3 (by positivity)

theorem PolyGrowth.nonneg {f : ℝ → ℝ} (hf : PolyGrowth f) : ∃ (C : ℝ) (j : ℕ), 0 ≤ C ∧ ∀ x, |f x| ≤ C * (1 + |x| ^ j) := by
  obtain ⟨C, j, hC⟩ := hf
  refine ⟨C, j, ?_, hC⟩
  have := (abs_nonneg _).trans (hC 0)
  rcases j with _ | j <;> simp at this <;> linarith

theorem ExpMoments.integrable {μ : Measure ℝ} (h : ExpMoments μ) {f : ℝ → ℝ} (hf : Measurable f) (hg : PolyGrowth f) : Integrable f μ := by
  obtain ⟨C, j, hC⟩ := hg
  have := h.isFinite
  refine Integrable.mono' (((integrable_const (1 : ℝ)).add (h.abs_pow j)).const_mul C) hf.aestronglyMeasurable (Eventually.of_forall fun x => ?_)
  simpa using hC x

/-- positivity of the integral of a function positive off a finite set. -/
theorem integral_pos_off {μ : Measure ℝ} (hinf : ∀ s : Finset ℝ, μ (s : Set ℝ)ᶜ ≠ 0) {f : ℝ → ℝ} (hf : Integrable f μ) (h0 : ∀ x, 0 ≤ f x)
    (s : Finset ℝ) (hs : ∀ x, f x = 0 → x ∈ s) : 0 < ∫ x, f x ∂μ := by
  rw [integral_pos_iff_support_of_nonneg h0 hf]
  exact lt_of_lt_of_le (pos_iff_ne_zero.2 (hinf s)) (measure_mono fun x hx => fun h => hx (hs x h))

/-- integration of polynomials. -/
noncomputable def measLU (μ : Measure ℝ) (hμ : ExpMoments μ) : ℝ[X] →ₗ[ℝ] ℝ where
  toFun p := ∫ x, p.eval x ∂μ
  map_add' p q := by
    have hi : ∀ p : ℝ[X], Integrable (fun x => p.eval x) μ := fun p => by
      simp only [eval_eq_sum_range]
      exact integrable_finsetSum _ fun k _ => (hμ.pow k).const_mul _
    simp only [eval_add]
    exact integral_add (hi p) (hi q)
  map_smul' c p := by
    simp only [eval_smul, RingHom.id_apply]
    exact integral_smul c _

theorem integrable_poly {μ : Measure ℝ} (hμ : ExpMoments μ) (p : ℝ[X]) : Integrable (fun x => p.eval x) μ := by
  simp only [eval_eq_sum_range]
  exact integrable_finsetSum _ fun k _ => (hμ.pow k).const_mul _

theorem measLU_sq_pos {μ : Measure ℝ} (hμ : ExpMoments μ) (hinf : ∀ s : Finset ℝ, μ (s : Set ℝ)ᶜ ≠ 0) (q : ℝ[X]) (hq : q ≠ 0) :
    0 < measLU μ hμ (q ^ 2) := by
  refine integral_pos_off hinf (integrable_poly hμ _) (fun x => ?_) q.roots.toFinset fun x hx => ?_
  · rw [eval_pow]; positivity
  · rw [eval_pow] at hx
    simpa [hq] using pow_eq_zero_iff two_ne_zero |>.1 hx

/-- the rule computed from the moments of a functional positive on squares. -/
theorem rule_pos (B : Backend) (hB : B.Valid) (L : ℝ[X] →ₗ[ℝ] ℝ) (hL1 : L 1 = 1) (ms : List ℝ)
    (hsq : ∀ q : ℝ[X], q ≠ 0 → q.natDegree < ms.length / 2 → 0 < L (q ^ 2)) (hl : 2 ≤ ms.length) (m s : ℝ) (hs : s ≠ 0)
    (hms : ∀ k < ms.length, ms.getD k 0 = L (affPoly m s ^ k)) (sort ldl : Bool) :
    PosRule (momentQuadrature B ms m s sort ldl) ∧
    ∀ p : ℝ[X], p.natDegree < 2 * (ms.length / 2) → integ (momentQuadrature B ms m s sort ldl) (fun x => p.eval x) = L p := by
  have hpoly := rule_of_squares B hB L hL1 ms hsq hl m s hs hms sort ldl
  have hpd : (hankelMat (ms.length / 2) fun k => ms.getD k 0).PosDef := by
    refine (posDef_hankel_iff (L.comp (aeval (affPoly m s)).toLinearMap) _ _ (fun k hk => ?_)).2 fun q hq hdq => ?_
    · rw [hms k (by omega)]
      change _ = L ((X ^ k).comp (affPoly m s))
      rw [X_pow_comp]
    · change 0 < L ((q ^ 2).comp (affPoly m s))
      rw [pow_comp]
      refine hsq _ ?_ ?_
      · intro h0
        apply hq
        have : q = (q.comp (affPoly m s)).comp (C s * X + C m) := by
          rw [comp_assoc, affPoly_comp m hs, comp_X]
        rw [this, h0, zero_comp]
      · refine lt_of_le_of_lt natDegree_comp_le ?_
        have : (affPoly m s).natDegree ≤ 1 := by
          rw [affPoly]
          exact (natDegree_C_mul_le _ _).trans (natDegree_X_sub_C_le _)
        nlinarith
  have hC := (C98_rule_shape B hB ms hpd sort ldl).1
  refine ⟨⟨hC.1 m s, ?_, hC.2 m s hs⟩, hpoly⟩
  have := hpoly 1 (by simp; omega)
  simpa [integ, hL1] using this

theorem rule_of_lawU (B : Backend) (hB : B.Valid) (μ : Measure ℝ) [IsProbabilityMeasure μ] (hμ : ExpMoments μ)
    (hinf : ∀ s : Finset ℝ, μ (s : Set ℝ)ᶜ ≠ 0) (ms : List ℝ) (hl : 2 ≤ ms.length) (m s : ℝ) (hs : s ≠ 0)
    (hms : ∀ k < ms.length, ms.getD k 0 = ∫ x, ((x - m) / s) ^ k ∂μ) (sort ldl : Bool) :
    PosRule (momentQuadrature B ms m s sort ldl) ∧
    ∀ p : ℝ[X], p.natDegree < 2 * (ms.length / 2) →
      integ (momentQuadrature B ms m s sort ldl) (fun x => p.eval x) = ∫ x, p.eval x ∂μ := by
  refine rule_pos B hB (measLU μ hμ) ?_ ms (fun q hq _ => measLU_sq_pos hμ hinf q hq) hl m s hs ?_ sort ldl
  · show ∫ x, (1 : ℝ[X]).eval x ∂μ = 1
    simp
  · intro k hk
    rw [hms k hk]
    show _ = ∫ x, (affPoly m s ^ k).eval x ∂μ
    simp only [eval_pow, affPoly_eval]

/-! ## Transition kernels -/

/-- transition laws with exponential moments growing at most exponentially in the conditioning state, conditional moments continuous
and of polynomial growth, and not concentrated on finitely many points. -/
structure GoodKernel (K : Kernel ℝ ℝ) : Prop where
  exp : ∀ c : ℝ, ∃ C c' : ℝ, ∀ x, Integrable (fun z => Real.exp (c * z)) (K x) ∧ ∫ z, Real.exp (c * z) ∂K x ≤ C * Real.exp (c' * |x|)
  cont : ∀ k : ℕ, Continuous fun x => ∫ z, z ^ k ∂K x
  growth : ∀ k : ℕ, PolyGrowth fun x => ∫ z, z ^ k ∂K x
  inf : ∀ x, ∀ s : Finset ℝ, K x (s : Set ℝ)ᶜ ≠ 0

namespace GoodKernel

variable {K : Kernel ℝ ℝ}

theorem expMoments (hK : GoodKernel K) (x : ℝ) : ExpMoments (K x) := by
  intro c
  obtain ⟨C, c', h⟩ := hK.exp c
  exact (h x).1

/-- conditional expectations of functions of polynomial growth are of polynomial growth. -/
theorem polyGrowth [IsMarkovKernel K] (hK : GoodKernel K) {f : ℝ → ℝ} (hg : PolyGrowth f) : PolyGrowth fun x => ∫ z, f z ∂K x := by
  obtain ⟨C, j, hC0, hC⟩ := hg.nonneg
  obtain ⟨C', j', hC0', hC'⟩ := (hK.growth (2 * j)).nonneg
  refine ⟨C * (2 + C'), j', fun x => ?_⟩
  have hb : ∀ z, ‖f z‖ ≤ C * (2 + z ^ (2 * j)) := by
    intro z
    refine (hC z).trans (mul_le_mul_of_nonneg_left ?_ hC0)
    have h3 : z ^ (2 * j) = (|z| ^ j) ^ 2 := by rw [← pow_mul, mul_comm j 2, Even.pow_abs (even_two_mul j)]
    rw [h3]
    nlinarith [sq_nonneg (1 - |z| ^ j)]
  have hi := (hK.expMoments x).pow (2 * j)
  have h1 := norm_integral_le_of_norm_le (((integrable_const (2 : ℝ)).add hi).const_mul C) (Eventually.of_forall hb)
  refine h1.trans ?_
  have e : ∫ z, C * (2 + z ^ (2 * j)) ∂K x = C * (2 + ∫ z, z ^ (2 * j) ∂K x) := by
    rw [integral_const_mul, integral_add (integrable_const _) hi]
    simp
  refine e.le.trans ?_
  rw [mul_assoc]
  refine mul_le_mul_of_nonneg_left ?_ hC0
  have h2 := (le_abs_self _).trans (hC' x)
  have h3 : 0 ≤ |x| ^ j' := by positivity
  nlinarith

theorem measurable (K : Kernel ℝ ℝ) [IsMarkovKernel K] {f : ℝ → ℝ} (hf : Measurable f) : Measurable fun x => ∫ z, f z ∂K x :=
  (hf.stronglyMeasurable.integral_kernel (κ := K)).measurable

theorem bind_expMoments (hK : GoodKernel K) {m : Measure ℝ} (hm : ExpMoments m) : ExpMoments (m.bind K) := by
  intro c
  have hfin := hm.isFinite
  obtain ⟨C, c', h⟩ := hK.exp c
  have hmeas : Measurable fun z : ℝ => Real.exp (c * z) := by fun_prop
  rw [Measure.integrable_comp_iff hmeas.aestronglyMeasurable]
  refine ⟨Eventually.of_forall fun x => (h x).1, ?_⟩
  refine Integrable.mono' ((hm.abs c').const_mul C) ?_ (Eventually.of_forall fun x => ?_)
  · exact (hmeas.norm.stronglyMeasurable.integral_kernel (κ := K)).aestronglyMeasurable
  · simp only [Real.norm_eq_abs, Real.abs_exp]
    rw [abs_of_nonneg (integral_nonneg fun z => (Real.exp_pos _).le)]
    exact (h x).2

theorem bind_inf (hK : GoodKernel K) {m : Measure ℝ} (hm : m ≠ 0) (s : Finset ℝ) : (m.bind K) (s : Set ℝ)ᶜ ≠ 0 := by
  rw [Measure.bind_apply s.measurableSet.compl K.measurable.aemeasurable]
  intro h
  rw [lintegral_eq_zero_iff (K.measurable_coe s.measurableSet.compl)] at h
  have : (ae m).NeBot := ae_neBot.2 hm
  obtain ⟨x, hx⟩ := h.exists
  exact hK.inf x s hx

theorem integral_bind (hK : GoodKernel K) {m : Measure ℝ} (hm : ExpMoments m) {f : ℝ → ℝ} (hf : Measurable f) (hg : PolyGrowth f) :
    ∫ z, f z ∂m.bind K = ∫ x, ∫ z, f z ∂K x ∂m := by
  have hfin := hm.isFinite
  have hi := (hK.bind_expMoments hm).integrable hf hg
  rw [Measure.comp_eq_comp_const_apply] at hi ⊢
  rw [Kernel.integral_comp hi]
  simp

end GoodKernel

/-! ## Sequences of rules -/

/-- the rules `r N` have positive weights, and their moments converge to those of the normalised functional `Λ`, which integrates
functions of polynomial growth with respect to a measure with all exponential moments. -/
def TracksU {n : ℕ → ℕ} (r : ∀ N, (Fin (n N) → ℝ) × (Fin (n N) → ℝ)) (Λ : (ℝ → ℝ) → ℝ) : Prop :=
  (∀ N ≥ 4, PosRule (r N)) ∧
  (∃ m : Measure ℝ, ExpMoments m ∧ (∀ s : Finset ℝ, m (s : Set ℝ)ᶜ ≠ 0) ∧ ∀ f, Measurable f → PolyGrowth f → Λ f = ∫ x, f x ∂m) ∧
  ∀ k : ℕ, Tendsto (fun N => integ (r N) fun x => x ^ k) atTop (𝓝 (Λ (fun x => x ^ k) / Λ fun _ => 1))

section tracks

variable {n : ℕ → ℕ} {r : ∀ N, (Fin (n N) → ℝ) × (Fin (n N) → ℝ)} {Λ : (ℝ → ℝ) → ℝ}

theorem TracksU.pos_off (h : TracksU r Λ) {f : ℝ → ℝ} (hf : Measurable f) (hg : PolyGrowth f) (h0 : ∀ x, 0 ≤ f x) (s : Finset ℝ)
    (hs : ∀ x, f x = 0 → x ∈ s) : 0 < Λ f := by
  obtain ⟨-, ⟨m, hm, hinf, hΛ⟩, -⟩ := h
  rw [hΛ f hf hg]
  exact integral_pos_off hinf (hm.integrable hf hg) h0 s hs

theorem TracksU.one_pos (h : TracksU r Λ) : 0 < Λ fun _ => 1 :=
  h.pos_off measurable_const (PolyGrowth.const 1) (fun _ => zero_le_one) ∅ (fun _ h => absurd h one_ne_zero)

theorem TracksU.tendsto (h : TracksU r Λ) {f : ℝ → ℝ} (hf : Continuous f) (hg : PolyGrowth f) :
    Tendsto (fun N => integ (r N) f) atTop (𝓝 (Λ f / Λ fun _ => 1)) := by
  have h1 := h.one_pos
  obtain ⟨hpos, ⟨m, hm, hinf, hΛ⟩, hmom⟩ := h
  have hfin := hm.isFinite
  have hΛ1 : (Λ fun _ => 1) = m.real Set.univ := by
    rw [hΛ _ measurable_const (PolyGrowth.const 1)]
    simp
  set c := m Set.univ with hc
  have hc0 : c ≠ 0 := by
    intro h0
    rw [hΛ1, measureReal_def, ← hc, h0] at h1
    simp at h1
  have hct : c ≠ ⊤ := measure_ne_top _ _
  have hct' : c⁻¹ ≠ ⊤ := ENNReal.inv_ne_top.2 hc0
  set μ := c⁻¹ • m with hμ
  have hprob : IsProbabilityMeasure μ := ⟨by
    rw [hμ, Measure.smul_apply, smul_eq_mul, ← hc]
    exact ENNReal.inv_mul_cancel hc0 hct⟩
  have hint : ∀ f : ℝ → ℝ, Measurable f → PolyGrowth f → ∫ x, f x ∂μ = Λ f / Λ fun _ => 1 := by
    intro f hf hg
    rw [hμ, integral_smul_measure, hΛ f hf hg, hΛ1, smul_eq_mul, ENNReal.toReal_inv, measureReal_def, ← hc]
    field_simp
  have hexp : ExpMoments μ := fun c => (hm c).smul_measure hct'
  have hprobN : ∀ N, IsProbabilityMeasure (ruleMeas (r (N + 4))) := fun N => (hpos (N + 4) (by omega)).isProb
  have key := tendsto_integral_of_moments (ν := fun N => ruleMeas (r (N + 4))) (μ := μ) (fun N k => integrable_ruleMeas _ _) hexp
    (fun k => by
      rw [hint _ (by fun_prop) (PolyGrowth.pow k)]
      refine ((tendsto_add_atTop_iff_nat 4).2 (hmom k)).congr fun N => ?_
      exact ((hpos (N + 4) (by omega)).integral _).symm) hf hg
  rw [hint f hf.measurable hg] at key
  refine (tendsto_add_atTop_iff_nat 4).1 (key.congr fun N => ?_)
  exact (hpos (N + 4) (by omega)).integral _

theorem tracksU_law (B : Backend) (hB : B.Valid) (μ : Measure ℝ) [IsProbabilityMeasure μ] (hμ : ExpMoments μ)
    (hinf : ∀ s : Finset ℝ, μ (s : Set ℝ)ᶜ ≠ 0) (ms : ℕ → List ℝ) (hl : ∀ N, (ms N).length = N) (m s : ℕ → ℝ) (hs : ∀ N, s N ≠ 0)
    (hms : ∀ N, ∀ k < N, (ms N).getD k 0 = ∫ x, ((x - m N) / s N) ^ k ∂μ) (sort ldl : Bool) :
    TracksU (fun N => momentQuadrature B (ms N) (m N) (s N) sort ldl) (fun f => ∫ x, f x ∂μ) := by
  have h := fun N (hN : N ≥ 4) => rule_of_lawU B hB μ hμ hinf (ms N) (by rw [hl]; omega) (m N) (s N) (hs N)
    (fun k hk => hms N k (by rwa [hl] at hk)) sort ldl
  refine ⟨fun N hN => (h N hN).1, ⟨μ, hμ, hinf, fun _ _ _ => rfl⟩, fun k => ?_⟩
  refine tendsto_const_nhds.congr' ?_
  filter_upwards [eventually_ge_atTop (k + 4)] with N hN
  have := (h N (by omega)).2 (X ^ k) (by rw [natDegree_X_pow, hl]; omega)
  simp only [eval_pow, eval_X] at this
  simp [this]

theorem predictU {K : Kernel ℝ ℝ} [IsMarkovKernel K] (hK : GoodKernel K) (B : Backend) (hB : B.Valid) {n : ℕ}
    {r : (Fin n → ℝ) × (Fin n → ℝ)} (hr : PosRule r) (pr : List ℝ) (hl : 2 ≤ pr.length) (pm ps : ℝ) (hps : ps ≠ 0)
    (hpr : ∀ k < pr.length, pr.getD k 0 = integ r fun x => ∫ z, ((z - pm) / ps) ^ k ∂K x) (sort ldl : Bool) :
    PosRule (momentQuadrature B pr pm ps sort ldl) ∧
    ∀ p : ℝ[X], p.natDegree < 2 * (pr.length / 2) →
      integ (momentQuadrature B pr pm ps sort ldl) (fun x => p.eval x) = integ r fun x => ∫ z, p.eval z ∂K x := by
  have hL : ∀ p : ℝ[X], (∑ i, r.1 i • measLU (K (r.2 i)) (hK.expMoments _)) p = integ r fun x => ∫ z, p.eval z ∂K x := by
    intro p
    rw [LinearMap.sum_apply]; rfl
  have c1 : (∑ i, r.1 i • measLU (K (r.2 i)) (hK.expMoments _)) 1 = 1 := by
    rw [hL]
    simp only [eval_one, integral_const, probReal_univ, smul_eq_mul, mul_one]
    rw [integ]
    simpa using hr.sum
  have c3 : ∀ q : ℝ[X], q ≠ 0 → q.natDegree < pr.length / 2 → 0 < (∑ i, r.1 i • measLU (K (r.2 i)) (hK.expMoments _)) (q ^ 2) := by
    intro q hq _
    rw [LinearMap.sum_apply]
    exact Finset.sum_pos (fun i _ => mul_pos (hr.pos i) (measLU_sq_pos _ (hK.inf _) q hq)) hr.nonempty
  obtain ⟨h1, h2⟩ := rule_pos B hB _ c1 pr c3 hl pm ps hps
    (fun k hk => by
      rw [hpr k hk, hL]
      simp only [eval_pow, affPoly_eval]) sort ldl
  exact ⟨h1, fun p hp => (h2 p hp).trans (hL p)⟩

theorem updateU (B : Backend) (hB : B.Valid) {n : ℕ} {r : (Fin n → ℝ) × (Fin n → ℝ)} (hr : PosRule r) {g : ℝ → ℝ}
    (hg : ∀ x, 0 < g x) (nx : List ℝ) (hl : nx.length / 2 = n) (nm ns : ℝ) (hns : ns ≠ 0)
    (hnx : ∀ k < nx.length, nx.getD k 0 = integ r (fun x => ((x - nm) / ns) ^ k * g x) / integ r g) (sort ldl : Bool) :
    PosRule (momentQuadrature B nx nm ns sort ldl) ∧
    ∀ f : ℝ → ℝ, integ (momentQuadrature B nx nm ns sort ldl) f = integ r (fun x => f x * g x) / integ r g := by
  obtain ⟨a, b, hr'⟩ := hr.good
  obtain ⟨h1, h2⟩ := update B hB hr' (fun x _ => hg x) nx hl nm ns hns hnx sort ldl
  exact ⟨h1.posRule, h2⟩

theorem tracksU_predict {K : Kernel ℝ ℝ} [IsMarkovKernel K] (hK : GoodKernel K) (h : TracksU r Λ) {n' : ℕ → ℕ}
    {r' : ∀ N, (Fin (n' N) → ℝ) × (Fin (n' N) → ℝ)} (h' : ∀ N ≥ 4, PosRule (r' N) ∧
      ∀ p : ℝ[X], p.natDegree < 2 * (N / 2) → integ (r' N) (fun x => p.eval x) = integ (r N) fun x => ∫ z, p.eval z ∂K x) :
    TracksU r' (fun f => Λ fun x => ∫ z, f z ∂K x) := by
  have h1 := h.one_pos
  have ht := fun k => h.tendsto (hK.cont k) (hK.growth k)
  obtain ⟨-, ⟨m, hm, hinf, hΛ⟩, -⟩ := h
  have hm0 : m ≠ 0 := by
    intro h0
    have := hinf ∅
    rw [h0] at this
    simp at this
  refine ⟨fun N hN => (h' N hN).1, ⟨m.bind K, hK.bind_expMoments hm, hK.bind_inf hm0, fun f hf hg => ?_⟩, fun k => ?_⟩
  · beta_reduce
    rw [hΛ _ (GoodKernel.measurable K hf) (hK.polyGrowth hg), hK.integral_bind hm hf hg]
  · beta_reduce
    have e' : (fun x : ℝ => ∫ _, (1 : ℝ) ∂K x) = fun _ => 1 := by simp
    rw [e']
    refine (ht k).congr' ?_
    filter_upwards [eventually_ge_atTop (k + 4)] with N hN
    have := (h' N (by omega)).2 (X ^ k) (by rw [natDegree_X_pow]; omega)
    simp only [eval_pow, eval_X] at this
    exact this.symm

theorem tracksU_update (h : TracksU r Λ) {n'' : ℕ → ℕ} {g : ℝ → ℝ} (hgc : Continuous g) (hg : ∀ x, 0 < g x) {G : ℝ} (hG : ∀ x, g x ≤ G)
    {r'' : ∀ N, (Fin (n'' N) → ℝ) × (Fin (n'' N) → ℝ)}
    (h'' : ∀ N ≥ 4, PosRule (r'' N) ∧ ∀ f, integ (r'' N) f = integ (r N) (fun x => f x * g x) / integ (r N) g) :
    TracksU r'' (fun f => Λ fun z => g z * f z) ∧
    Tendsto (fun N => integ (r N) g) atTop (𝓝 ((Λ fun z => g z * 1) / Λ fun _ => 1)) ∧
    0 < Λ fun z => g z * 1 := by
  have hG' : ∀ x, |g x| ≤ G := fun x => by rw [abs_of_pos (hg x)]; exact hG x
  have hpos : 0 < Λ fun z => g z * 1 := h.pos_off (by fun_prop) ((PolyGrowth.const 1).mul_bounded hG') (fun x => by
    rw [mul_one]; exact (hg x).le) ∅ (fun x hx => by rw [mul_one] at hx; exact absurd hx (hg x).ne')
  have hlik : Tendsto (fun N => integ (r N) g) atTop (𝓝 ((Λ fun z => g z * 1) / Λ fun _ => 1)) := by
    have := h.tendsto (f := fun z => g z * 1) (by fun_prop) ((PolyGrowth.const 1).mul_bounded hG')
    simpa using this
  have ht : ∀ k : ℕ, Tendsto (fun N => integ (r N) fun z => g z * z ^ k) atTop (𝓝 ((Λ fun z => g z * z ^ k) / Λ fun _ => 1)) :=
    fun k => h.tendsto (by fun_prop) ((PolyGrowth.pow k).mul_bounded hG')
  have h1 := h.one_pos
  refine ⟨⟨fun N hN => (h'' N hN).1, ?_, fun k => ?_⟩, hlik, hpos⟩
  · obtain ⟨-, ⟨m, hm, hinf, hΛ⟩, -⟩ := h
    have hlt : ∀ᵐ x ∂m, ENNReal.ofReal (g x) < ⊤ := Eventually.of_forall fun x => ENNReal.ofReal_lt_top
    have hmeas : Measurable fun x => ENNReal.ofReal (g x) := by fun_prop
    refine ⟨m.withDensity fun x => ENNReal.ofReal (g x), fun c => ?_, fun s => ?_, fun f hf hgf => ?_⟩
    · rw [integrable_withDensity_iff_integrable_smul' hmeas hlt]
      refine ((hm c).bdd_mul (c := G) hgc.aestronglyMeasurable (Eventually.of_forall fun x => hG' x)).congr (Eventually.of_forall fun x => ?_)
      simp only [smul_eq_mul]
      rw [ENNReal.toReal_ofReal (hg x).le]
    · rw [Ne, withDensity_apply_eq_zero hmeas]
      have : {x | ENNReal.ofReal (g x) ≠ 0} ∩ (s : Set ℝ)ᶜ = (s : Set ℝ)ᶜ := by
        rw [Set.inter_eq_right]
        intro x _
        simpa using hg x
      rw [this]
      exact hinf s
    · refine (hΛ (fun z => g z * f z) (hgc.measurable.mul hf) (hgf.mul_bounded hG')).trans ?_
      rw [integral_withDensity_eq_integral_toReal_smul hmeas hlt]
      refine integral_congr_ae (Eventually.of_forall fun x => ?_)
      simp only [smul_eq_mul]
      rw [ENNReal.toReal_ofReal (hg x).le]
  · have h2 := (ht k).div hlik (div_pos hpos h1).ne'
    rw [div_div_div_cancel_right₀ h1.ne'] at h2
    refine h2.congr' ?_
    filter_upwards [eventually_ge_atTop 4] with N hN
    rw [(h'' N hN).2]
    have e : (fun x => g x * x ^ k) = fun x => x ^ k * g x := funext fun x => mul_comm _ _
    exact congrArg (fun F => integ (r N) F / integ (r N) g) e

theorem TracksU.mean (h : TracksU r Λ) : Tendsto (fun N => integ (r N) fun x => x) atTop (𝓝 (Λ (fun x => x) / Λ fun _ => 1)) := by
  have := h.2.2 1
  simpa only [pow_one] using this

/-- central moments about converging centres. -/
theorem TracksU.central (h : TracksU r Λ) {c : ℕ → ℝ} {m : ℝ} (hc : Tendsto c atTop (𝓝 m)) (k : ℕ) :
    Tendsto (fun N => integ (r N) fun x => (x - c N) ^ k) atTop (𝓝 ((Λ fun x => (x - m) ^ k) / Λ fun _ => 1)) := by
  have key : ∀ c : ℕ → ℝ, Tendsto c atTop (𝓝 m) → Tendsto (fun N => integ (r N) fun x => (x - c N) ^ k) atTop
      (𝓝 (∑ j ∈ Finset.range (k + 1), (-m) ^ (k - j) * (k.choose j) * ((Λ fun x => x ^ j) / Λ fun _ => 1))) := by
    intro c hc
    simp only [integ_sub_pow]
    exact tendsto_finsetSum _ fun j _ => ((hc.neg.pow _).mul_const _).mul (h.2.2 j)
  have h1 := key (fun _ => m) tendsto_const_nhds
  rw [tendsto_nhds_unique (h.tendsto (f := fun x => (x - m) ^ k) (by fun_prop) (PolyGrowth.sub_pow m k)) h1]
  exact key c hc

end tracks

end Mfs.Converge

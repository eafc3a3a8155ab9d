import Verif.Props.Hmm
import Verif.Props.Quad1More
import Verif.Spec.Markov
import Mathlib.Topology.ContinuousMap.Weierstrass
import Mathlib.Topology.UniformSpace.UniformApproximation
import Mathlib.MeasureTheory.Integral.IntegrableOn

/-!
# Convergence of the rules, and of recursions built on them, as the number of moments grows
-/

namespace Mfs.Converge

open Matrix Mfs.Spec Mfs.Quad1 Mfs.Props Polynomial MeasureTheory Filter Topology

variable {a b : ℝ}

/-- a rule with positive weights summing to one and distinct nodes in `[a, b]`. -/
structure GoodRule (a b : ℝ) {n : ℕ} (r : (Fin n → ℝ) × (Fin n → ℝ)) : Prop where
  pos : ∀ i, 0 < r.1 i
  sum : ∑ i, r.1 i = 1
  inj : Function.Injective r.2
  mem : ∀ i, r.2 i ∈ Set.Icc a b

namespace GoodRule

variable {n : ℕ} {r : (Fin n → ℝ) × (Fin n → ℝ)}

theorem const (h : GoodRule a b r) (c : ℝ) : integ r (fun _ => c) = c := by
  rw [integ, ← Finset.sum_mul, h.sum, one_mul]

theorem mono (h : GoodRule a b r) {f g : ℝ → ℝ} (hfg : ∀ x ∈ Set.Icc a b, f x ≤ g x) : integ r f ≤ integ r g :=
  Finset.sum_le_sum fun i _ => mul_le_mul_of_nonneg_left (hfg _ (h.mem i)) (h.pos i).le

theorem congr (h : GoodRule a b r) {f g : ℝ → ℝ} (hfg : ∀ x ∈ Set.Icc a b, f x = g x) : integ r f = integ r g :=
  Finset.sum_congr rfl fun i _ => by rw [hfg _ (h.mem i)]

theorem abs_sub_le (h : GoodRule a b r) {f g : ℝ → ℝ} {ε : ℝ} (hfg : ∀ x ∈ Set.Icc a b, |f x - g x| ≤ ε) :
    |integ r f - integ r g| ≤ ε := by
  have e : integ r f - integ r g = integ r fun x => f x - g x := by
    simp only [integ, ← Finset.sum_sub_distrib, mul_sub]
  rw [e, abs_le]
  constructor
  · rw [← h.const (-ε)]
    exact h.mono fun x hx => (abs_le.1 (hfg x hx)).1
  · rw [← h.const ε]
    exact h.mono fun x hx => (abs_le.1 (hfg x hx)).2

theorem nonempty (h : GoodRule a b r) : (Finset.univ : Finset (Fin n)).Nonempty := by
  by_contra hne
  rw [Finset.not_nonempty_iff_eq_empty] at hne
  have := h.sum
  rw [hne] at this
  simp at this

theorem integ_pos (h : GoodRule a b r) {f : ℝ → ℝ} (hf : ∀ x ∈ Set.Icc a b, 0 < f x) : 0 < integ r f :=
  Finset.sum_pos (fun i _ => mul_pos (h.pos i) (hf _ (h.mem i))) h.nonempty

end GoodRule

/-- the polynomial of the affine map `x ↦ (x - m) / s`. -/
noncomputable def affPoly (m s : ℝ) : ℝ[X] := C s⁻¹ * (X - C m)

theorem affPoly_eval (m s x : ℝ) : (affPoly m s).eval x = (x - m) / s := by
  simp [affPoly, div_eq_inv_mul]

theorem affPoly_comp (m : ℝ) {s : ℝ} (hs : s ≠ 0) : (affPoly m s).comp (C s * X + C m) = X := by
  simp only [affPoly, mul_comp, C_comp, sub_comp, X_comp]
  rw [add_sub_cancel_right, ← mul_assoc, ← C_mul, inv_mul_cancel₀ hs, C_1, one_mul]

theorem comp_affPoly (m : ℝ) {s : ℝ} (hs : s ≠ 0) : (C s * X + C m : ℝ[X]).comp (affPoly m s) = X := by
  simp only [affPoly, mul_comp, C_comp, add_comp, X_comp]
  rw [← mul_assoc, ← C_mul, mul_inv_cancel₀ hs, C_1, one_mul, sub_add_cancel]

/-- the rule computed from the moments of a functional that is positive on polynomials non-negative on `[a, b]`. -/
theorem rule_of_functional (B : Backend) (hB : B.Valid) (L : ℝ[X] →ₗ[ℝ] ℝ) (hL1 : L 1 = 1)
    (hpos : ∀ q : ℝ[X], (∀ y ∈ Set.Icc a b, 0 ≤ q.eval y) → 0 ≤ L q) (ms : List ℝ) (hsq : ∀ q : ℝ[X], q ≠ 0 →
    q.natDegree < ms.length / 2 → 0 < L (q ^ 2)) (hl : 2 ≤ ms.length) (m s : ℝ) (hs : s ≠ 0) (hms : ∀ k < ms.length, ms.getD k 0 = L (affPoly m s ^ k)) (sort ldl : Bool) :
    GoodRule a b (momentQuadrature B ms m s sort ldl) ∧
    ∀ p : ℝ[X], p.natDegree < 2 * (ms.length / 2) → integ (momentQuadrature B ms m s sort ldl) (fun x => p.eval x) = L p := by
  set n := ms.length / 2 with hn
  let L' : ℝ[X] →ₗ[ℝ] ℝ := L.comp (aeval (affPoly m s)).toLinearMap
  have hL' : ∀ p, L' p = L (p.comp (affPoly m s)) := fun p => rfl
  have hms' : ∀ k < 2 * n, ms.getD k 0 = L' (X ^ k) := by
    intro k hk
    rw [hms k (by omega), hL', X_pow_comp]
  have hdegc : ∀ (q : ℝ[X]), (q.comp (affPoly m s)).natDegree ≤ q.natDegree := by
    intro q
    refine natDegree_comp_le.trans ?_
    have : (affPoly m s).natDegree ≤ 1 := by
      rw [affPoly]
      exact (natDegree_C_mul_le _ _).trans (natDegree_X_sub_C_le _)
    nlinarith
  have hpd : (hankelMat n fun k => ms.getD k 0).PosDef := by
    refine (posDef_hankel_iff L' n _ hms').2 fun q hq hdq => ?_
    rw [hL', pow_comp]
    refine hsq _ ?_ ((hdegc q).trans_lt hdq)
    intro h0
    apply hq
    have : q = (q.comp (affPoly m s)).comp (C s * X + C m) := by
      rw [comp_assoc, affPoly_comp m hs, comp_X]
    rw [this, h0, zero_comp]
  have hrep := momentQuadrature_reproduces B hB ms hpd sort ldl
  have hpd' := posDef_normalised _ hpd
  have hm0 : ms.getD 0 0 = 1 := by rw [hms 0 (by omega), pow_zero, hL1]
  set r := momentQuadrature B ms m s sort ldl with hr
  have hpoly : ∀ p : ℝ[X], p.natDegree < 2 * n → integ r (fun x => p.eval x) = L p := by
    intro p hp
    rw [hr, (C10_affine B hB ms m s sort ldl).1]
    have hd : (p.comp (C s * X + C m)).natDegree < 2 * n := by
      refine lt_of_le_of_lt natDegree_comp_le ?_
      have : (C s * X + C m : ℝ[X]).natDegree ≤ 1 := natDegree_linear_le
      nlinarith
    have h1 := hrep.poly _ hd
    rw [momFun_functional L' _ (2 * n) (fun k hk => by rw [← hms' k hk, hm0, div_one]) _ hd, hL', comp_assoc, comp_affPoly m hs,
      comp_X] at h1
    rw [← h1, integ]
    refine Finset.sum_congr rfl fun i _ => ?_
    rw [eval_comp]
    simp
  have hC := (C98_rule_shape B hB ms hpd sort ldl).1
  refine ⟨⟨hC.1 m s, ?_, hC.2 m s hs, ?_⟩, hpoly⟩
  · have := hpoly 1 (by simp; omega)
    simpa [integ, hL1] using this
  · intro i
    set q := nodePolyErase r.2 i with hq
    have hqd : q.natDegree = n - 1 := natDegree_nodePolyErase r.2 i
    have hn0 : 0 < n := i.pos
    have hqi : q.eval (r.2 i) ≠ 0 := by
      rw [hq, eval_nodePolyErase]
      refine Finset.prod_ne_zero_iff.2 fun j hj => sub_ne_zero.2 fun h => ?_
      exact (Finset.mem_erase.1 hj).1 (hC.2 m s hs h).symm
    have hw : 0 < r.1 i * q.eval (r.2 i) ^ 2 := mul_pos (hC.1 m s i) (by positivity)
    have hlin : ∀ c d : ℝ, (∀ y ∈ Set.Icc a b, 0 ≤ c * y + d) → 0 ≤ c * r.2 i + d := by
      intro c d hcd
      have hdeg : ((C c * X + C d) * q ^ 2).natDegree < 2 * n := by
        have h1 : (C c * X + C d : ℝ[X]).natDegree ≤ 1 := natDegree_linear_le
        have h2 : (q ^ 2).natDegree ≤ 2 * (n - 1) := (natDegree_pow_le).trans (by rw [hqd])
        have := natDegree_mul_le (p := (C c * X + C d : ℝ[X])) (q := q ^ 2)
        omega
      have h1 := hpoly _ hdeg
      have h2 : 0 ≤ L ((C c * X + C d) * q ^ 2) := by
        apply hpos
        intro y hy
        simp only [eval_mul, eval_add, eval_C, eval_X, eval_pow]
        exact mul_nonneg (hcd y hy) (sq_nonneg _)
      have key := sum_erase_eval r.1 r.2 i (fun y => ((C c * X + C d) * q ^ 2).eval y) (fun y hy => by
        simp only [eval_mul, eval_pow]; rw [hy]; simp)
      rw [integ, key] at h1
      rw [← h1] at h2
      simp only [eval_mul, eval_add, eval_C, eval_X, eval_pow] at h2
      have h3 : r.1 i * ((c * r.2 i + d) * eval (r.2 i) q ^ 2) = (r.1 i * eval (r.2 i) q ^ 2) * (c * r.2 i + d) := by ring
      rw [h3] at h2
      exact nonneg_of_mul_nonneg_right h2 hw
    constructor
    · have := hlin 1 (-a) (fun y hy => by have := hy.1; linarith)
      linarith
    · have := hlin (-1) b (fun y hy => by have := hy.2; linarith)
      linarith

/-! ## Laws on `[a, b]` -/

section measure

variable (μ : Measure ℝ) [IsFiniteMeasure μ] (hμ : μ (Set.Icc a b)ᶜ = 0)

include hμ in
theorem integrable_of_continuousOn {f : ℝ → ℝ} (hf : ContinuousOn f (Set.Icc a b)) : Integrable f μ := by
  have hres : μ.restrict (Set.Icc a b) = μ := Measure.restrict_eq_self_of_ae_mem (by rw [ae_iff]; exact hμ)
  have := hf.integrableOn_compact (μ := μ) isCompact_Icc
  rwa [IntegrableOn, hres] at this

/-- integration of polynomials. -/
noncomputable def measL : ℝ[X] →ₗ[ℝ] ℝ where
  toFun p := ∫ x, p.eval x ∂μ
  map_add' p q := by
    simp only [eval_add]
    exact integral_add (integrable_of_continuousOn μ hμ p.continuous.continuousOn)
      (integrable_of_continuousOn μ hμ q.continuous.continuousOn)
  map_smul' c p := by
    simp only [eval_smul, RingHom.id_apply]
    exact integral_smul c _

include hμ in
theorem integral_mono_Icc {f g : ℝ → ℝ} (hf : ContinuousOn f (Set.Icc a b)) (hg : ContinuousOn g (Set.Icc a b))
    (hfg : ∀ x ∈ Set.Icc a b, f x ≤ g x) : ∫ x, f x ∂μ ≤ ∫ x, g x ∂μ := by
  refine integral_mono_ae (integrable_of_continuousOn μ hμ hf) (integrable_of_continuousOn μ hμ hg) ?_
  have : ∀ᵐ y ∂μ, y ∈ Set.Icc a b := by rw [ae_iff]; exact hμ
  filter_upwards [this] with y hy
  exact hfg y hy

include hμ in
/-- positivity of the integral of a function positive off a finite set. -/
theorem integral_pos_Icc (hinf : ∀ s : Finset ℝ, μ (s : Set ℝ)ᶜ ≠ 0) {f : ℝ → ℝ} (hf : ContinuousOn f (Set.Icc a b))
    (h0 : ∀ x ∈ Set.Icc a b, 0 ≤ f x) (s : Finset ℝ) (hs : ∀ x ∈ Set.Icc a b, f x = 0 → x ∈ s) : 0 < ∫ x, f x ∂μ := by
  have hae : ∀ᵐ y ∂μ, y ∈ Set.Icc a b := by rw [ae_iff]; exact hμ
  have hnn : 0 ≤ᵐ[μ] f := by
    filter_upwards [hae] with y hy
    exact h0 y hy
  rw [integral_pos_iff_support_of_nonneg_ae hnn (integrable_of_continuousOn μ hμ hf)]
  have h1 : μ (s : Set ℝ)ᶜ ≤ μ (Function.support f ∪ (Set.Icc a b)ᶜ) := by
    refine measure_mono fun x hx => ?_
    by_cases hxm : x ∈ Set.Icc a b
    · exact Or.inl fun h => hx (hs x hxm h)
    · exact Or.inr hxm
  have h2 : μ (Function.support f ∪ (Set.Icc a b)ᶜ) ≤ μ (Function.support f) := by
    refine (measure_union_le _ _).trans ?_
    rw [hμ, add_zero]
  exact lt_of_lt_of_le (pos_iff_ne_zero.2 (hinf s)) (h1.trans h2)

include hμ in
theorem measL_sq_pos (hinf : ∀ s : Finset ℝ, μ (s : Set ℝ)ᶜ ≠ 0) (q : ℝ[X]) (hq : q ≠ 0) : 0 < measL μ hμ (q ^ 2) := by
  refine integral_pos_Icc μ hμ hinf (q ^ 2).continuous.continuousOn (fun x _ => ?_) q.roots.toFinset fun x _ hx => ?_
  · rw [eval_pow]; positivity
  · rw [eval_pow] at hx
    simpa [hq] using pow_eq_zero_iff two_ne_zero |>.1 hx

include hμ in
theorem measL_nonneg (q : ℝ[X]) (hq : ∀ y ∈ Set.Icc a b, 0 ≤ q.eval y) : 0 ≤ measL μ hμ q := by
  have := integral_mono_Icc μ hμ (f := fun _ => 0) continuousOn_const q.continuous.continuousOn hq
  rw [integral_zero] at this
  exact this

include hμ in
theorem integral_abs_sub_le [IsProbabilityMeasure μ] {f g : ℝ → ℝ} (hf : ContinuousOn f (Set.Icc a b))
    (hg : ContinuousOn g (Set.Icc a b)) {ε : ℝ} (hfg : ∀ x ∈ Set.Icc a b, |f x - g x| ≤ ε) :
    |∫ x, f x ∂μ - ∫ x, g x ∂μ| ≤ ε := by
  rw [← integral_sub (integrable_of_continuousOn μ hμ hf) (integrable_of_continuousOn μ hμ hg), abs_le]
  have hc : ∀ c : ℝ, ∫ _, c ∂μ = c := fun c => by simp
  constructor
  · rw [← hc (-ε)]
    exact integral_mono_Icc μ hμ continuousOn_const (hf.sub hg) fun x hx => (abs_le.1 (hfg x hx)).1
  · rw [← hc ε]
    exact integral_mono_Icc μ hμ (hf.sub hg) continuousOn_const fun x hx => (abs_le.1 (hfg x hx)).2

end measure

theorem rule_of_law (B : Backend) (hB : B.Valid) (μ : Measure ℝ) [IsProbabilityMeasure μ] (hμ : μ (Set.Icc a b)ᶜ = 0)
    (hinf : ∀ s : Finset ℝ, μ (s : Set ℝ)ᶜ ≠ 0) (ms : List ℝ) (hl : 2 ≤ ms.length) (m s : ℝ) (hs : s ≠ 0)
    (hms : ∀ k < ms.length, ms.getD k 0 = ∫ x, ((x - m) / s) ^ k ∂μ) (sort ldl : Bool) :
    GoodRule a b (momentQuadrature B ms m s sort ldl) ∧
    ∀ p : ℝ[X], p.natDegree < 2 * (ms.length / 2) →
      integ (momentQuadrature B ms m s sort ldl) (fun x => p.eval x) = ∫ x, p.eval x ∂μ := by
  refine rule_of_functional B hB (measL μ hμ) ?_ (measL_nonneg μ hμ) ms (fun q hq _ => measL_sq_pos μ hμ hinf q hq) hl m s hs ?_ sort ldl
  · show ∫ x, (1 : ℝ[X]).eval x ∂μ = 1
    simp
  · intro k hk
    rw [hms k hk]
    show _ = ∫ x, (affPoly m s ^ k).eval x ∂μ
    simp only [eval_pow, affPoly_eval]

/-! ## Prediction and update -/

section kernel

open ProbabilityTheory

variable (K : Kernel ℝ ℝ) [IsMarkovKernel K] (hK : ∀ x ∈ Set.Icc a b, K x (Set.Icc a b)ᶜ = 0)

include hK in
theorem feller (hKc : ∀ k : ℕ, ContinuousOn (fun x => ∫ z, z ^ k ∂K x) (Set.Icc a b)) {f : ℝ → ℝ}
    (hf : ContinuousOn f (Set.Icc a b)) : ContinuousOn (fun x => ∫ z, f z ∂K x) (Set.Icc a b) := by
  refine continuousOn_of_uniform_approx_of_continuousOn fun u hu => ?_
  obtain ⟨ε, hε, hεu⟩ := Metric.mem_uniformity_dist.1 hu
  obtain ⟨p, hp⟩ := exists_polynomial_near_of_continuousOn a b f hf (ε / 2) (by positivity)
  refine ⟨fun x => ∫ z, p.eval z ∂K x, ?_, fun x hx => hεu ?_⟩
  · have e : ∀ x ∈ Set.Icc a b, ∫ z, p.eval z ∂K x = ∑ k ∈ Finset.range (p.natDegree + 1), p.coeff k * ∫ z, z ^ k ∂K x := by
      intro x hx
      simp only [eval_eq_sum_range]
      rw [integral_finsetSum _ fun k _ => integrable_of_continuousOn (K x) (hK x hx) (by fun_prop)]
      exact Finset.sum_congr rfl fun k _ => integral_const_mul _ _
    refine ContinuousOn.congr ?_ e
    exact continuousOn_finsetSum _ fun k _ => continuousOn_const.mul (hKc k)
  · rw [Real.dist_eq]
    refine lt_of_le_of_lt (integral_abs_sub_le (K x) (hK x hx) hf p.continuous.continuousOn fun z hz => ?_) (half_lt_self hε)
    rw [abs_sub_comm]
    exact (hp z hz).le

include hK in
theorem predict (B : Backend) (hB : B.Valid) (hKinf : ∀ x ∈ Set.Icc a b, ∀ s : Finset ℝ, K x (s : Set ℝ)ᶜ ≠ 0) {n : ℕ}
    {r : (Fin n → ℝ) × (Fin n → ℝ)} (hr : GoodRule a b r) (pr : List ℝ) (hl : 2 ≤ pr.length) (pm ps : ℝ) (hps : ps ≠ 0)
    (hpr : ∀ k < pr.length, pr.getD k 0 = integ r fun x => ∫ z, ((z - pm) / ps) ^ k ∂K x) (sort ldl : Bool) :
    GoodRule a b (momentQuadrature B pr pm ps sort ldl) ∧
    ∀ p : ℝ[X], p.natDegree < 2 * (pr.length / 2) →
      integ (momentQuadrature B pr pm ps sort ldl) (fun x => p.eval x) = integ r fun x => ∫ z, p.eval z ∂K x := by
  have hL : ∀ p : ℝ[X], (∑ i, r.1 i • measL (K (r.2 i)) (hK _ (hr.mem i))) p = integ r fun x => ∫ z, p.eval z ∂K x := by
    intro p
    rw [LinearMap.sum_apply]; rfl
  have c1 : (∑ i, r.1 i • measL (K (r.2 i)) (hK _ (hr.mem i))) 1 = 1 := by
    rw [hL]
    simp only [eval_one, integral_const, probReal_univ, smul_eq_mul, mul_one]
    exact hr.const 1
  have c2 : ∀ q : ℝ[X], (∀ y ∈ Set.Icc a b, 0 ≤ q.eval y) → 0 ≤ (∑ i, r.1 i • measL (K (r.2 i)) (hK _ (hr.mem i))) q := by
    intro q hq
    rw [LinearMap.sum_apply]
    exact Finset.sum_nonneg fun i _ => mul_nonneg (hr.pos i).le (measL_nonneg _ _ q hq)
  have c3 : ∀ q : ℝ[X], q ≠ 0 → q.natDegree < pr.length / 2 → 0 < (∑ i, r.1 i • measL (K (r.2 i)) (hK _ (hr.mem i))) (q ^ 2) := by
    intro q hq _
    rw [LinearMap.sum_apply]
    exact Finset.sum_pos (fun i _ => mul_pos (hr.pos i) (measL_sq_pos _ _ (hKinf _ (hr.mem i)) q hq)) hr.nonempty
  obtain ⟨h1, h2⟩ := rule_of_functional (a := a) (b := b) B hB _ c1 c2 pr c3 hl pm ps hps
    (fun k hk => by
      rw [hpr k hk, hL]
      simp only [eval_pow, affPoly_eval]) sort ldl
  exact ⟨h1, fun p hp => (h2 p hp).trans (hL p)⟩

end kernel

theorem update (B : Backend) (hB : B.Valid) {n : ℕ} {r : (Fin n → ℝ) × (Fin n → ℝ)} (hr : GoodRule a b r) {g : ℝ → ℝ}
    (hg : ∀ x ∈ Set.Icc a b, 0 < g x) (nx : List ℝ) (hl : nx.length / 2 = n) (nm ns : ℝ) (hns : ns ≠ 0)
    (hnx : ∀ k < nx.length, nx.getD k 0 = integ r (fun x => ((x - nm) / ns) ^ k * g x) / integ r g) (sort ldl : Bool) :
    GoodRule a b (momentQuadrature B nx nm ns sort ldl) ∧
    ∀ f : ℝ → ℝ, integ (momentQuadrature B nx nm ns sort ldl) f = integ r (fun x => f x * g x) / integ r g := by
  subst hl
  have hne := hr.nonempty
  have hn0 : 0 < nx.length / 2 := by
    obtain ⟨i, _⟩ := hne
    exact i.pos
  set p : Fin (nx.length / 2) → ℝ := fun i => r.1 i * g (r.2 i) with hp
  have hpp : ∀ i, 0 < p i := fun i => mul_pos (hr.pos i) (hg _ (hr.mem i))
  have hlaw : ∀ f : ℝ → ℝ, lawE p (fun i => f (r.2 i)) = integ r (fun x => f x * g x) / integ r g := by
    intro f
    simp only [lawE, integ, hp]
    congr 1
    exact Finset.sum_congr rfl fun i _ => by ring
  have hint : ∀ f : ℝ → ℝ, integ (momentQuadrature B nx nm ns sort ldl) f = integ r (fun x => f x * g x) / integ r g := by
    intro f
    rw [← hlaw]
    refine rule_of_atoms B hB hr.inj hpp hn0 nx rfl nm ns hns (fun k hk => ?_) sort ldl f
    rw [hnx k hk, ← hlaw fun x => ((x - nm) / ns) ^ k]
  have hsum : 0 < ∑ i, p i := Finset.sum_pos (fun i _ => hpp i) hne
  have hpd := (C16_discrete_recovery B hB nx (fun i => p i / ∑ j, p j) (fun i => (r.2 i - nm) / ns)
    (fun i => div_pos (hpp i) hsum) (fun i j hij => hr.inj (by
      have := (div_left_inj' hns).1 hij
      linarith)) (fun k hk => by
        rw [hnx k hk, ← hlaw fun x => ((x - nm) / ns) ^ k, lawE, Finset.sum_div]
        exact Finset.sum_congr rfl fun i _ => by ring) sort ldl).1
  have hC := (C98_rule_shape B hB nx hpd sort ldl).1
  have hZ := hr.integ_pos hg
  refine ⟨⟨hC.1 nm ns, ?_, hC.2 nm ns hns, ?_⟩, hint⟩
  · have := hint fun _ => 1
    simp only [one_mul] at this
    rw [div_self hZ.ne'] at this
    simpa [integ] using this
  · intro i
    by_contra hi
    have h1 := hint ((Set.Icc a b)ᶜ.indicator fun _ => 1)
    have h2 : integ r (fun x => (Set.Icc a b)ᶜ.indicator (fun _ => 1) x * g x) = 0 := by
      refine Finset.sum_eq_zero fun j _ => ?_
      have : r.2 j ∉ (Set.Icc a b)ᶜ := fun h => h (hr.mem j)
      beta_reduce
      rw [Set.indicator_of_notMem this, zero_mul, mul_zero]
    rw [h2, zero_div] at h1
    have h3 : 0 < integ (momentQuadrature B nx nm ns sort ldl) ((Set.Icc a b)ᶜ.indicator fun _ => 1) := by
      refine Finset.sum_pos' (fun j _ => mul_nonneg (hC.1 nm ns j).le (Set.indicator_nonneg (fun _ _ => zero_le_one) _)) ⟨i, Finset.mem_univ _, ?_⟩
      have : (momentQuadrature B nx nm ns sort ldl).2 i ∈ (Set.Icc a b)ᶜ := hi
      rw [Set.indicator_of_mem this, mul_one]
      exact hC.1 nm ns i
    exact h3.ne' h1

/-! ## Sequences of rules -/

/-- the rules `r N` are good and converge, on continuous functions, to the normalised functional `Λ`. -/
def Tracks (a b : ℝ) {n : ℕ → ℕ} (r : ∀ N, (Fin (n N) → ℝ) × (Fin (n N) → ℝ)) (Λ : (ℝ → ℝ) → ℝ) : Prop :=
  (∀ N ≥ 4, GoodRule a b (r N)) ∧
  ∀ f, ContinuousOn f (Set.Icc a b) → Tendsto (fun N => integ (r N) f) atTop (𝓝 (Λ f / Λ fun _ => 1))

section tracks

variable {n : ℕ → ℕ} {r : ∀ N, (Fin (n N) → ℝ) × (Fin (n N) → ℝ)} {Λ : (ℝ → ℝ) → ℝ}

theorem Tracks.one_ne_zero (h : Tracks a b r Λ) : (Λ fun _ => 1) ≠ 0 := by
  intro h0
  have h1 := h.2 (fun _ => 1) continuousOn_const
  rw [h0, div_zero] at h1
  have h2 : Tendsto (fun N => integ (r N) fun _ => 1) atTop (𝓝 1) := by
    refine tendsto_const_nhds.congr' ?_
    filter_upwards [eventually_ge_atTop 4] with N hN
    exact ((h.1 N hN).const 1).symm
  exact zero_ne_one (tendsto_nhds_unique h1 h2)

theorem Tracks.pos (h : Tracks a b r Λ) {f : ℝ → ℝ} (hf : ContinuousOn f (Set.Icc a b)) (h0 : ∀ x ∈ Set.Icc a b, 0 < f x) :
    0 < Λ f / Λ fun _ => 1 := by
  have hne : (Set.Icc a b).Nonempty := by
    obtain ⟨i, _⟩ := (h.1 4 le_rfl).nonempty
    exact ⟨_, (h.1 4 le_rfl).mem i⟩
  obtain ⟨x, hx, hmin⟩ := isCompact_Icc.exists_isMinOn hne hf
  refine lt_of_lt_of_le (h0 x hx) (ge_of_tendsto (h.2 f hf) ?_)
  filter_upwards [eventually_ge_atTop 4] with N hN
  rw [← (h.1 N hN).const (f x)]
  exact (h.1 N hN).mono fun y hy => hmin hy

/-- rules that agree with `J` on polynomials of growing degree. -/
theorem tendsto_of_poly (hg : ∀ N ≥ 4, GoodRule a b (r N)) (J : ℕ → (ℝ → ℝ) → ℝ)
    (hJ : ∀ N ≥ 4, ∀ f g : ℝ → ℝ, ContinuousOn f (Set.Icc a b) → ContinuousOn g (Set.Icc a b) → ∀ ε,
      (∀ x ∈ Set.Icc a b, |f x - g x| ≤ ε) → |J N f - J N g| ≤ ε)
    (hp : ∀ N ≥ 4, ∀ p : ℝ[X], p.natDegree < 2 * (N / 2) → integ (r N) (fun x => p.eval x) = J N fun x => p.eval x)
    {f : ℝ → ℝ} (hf : ContinuousOn f (Set.Icc a b)) {l : ℝ} (hl : Tendsto (fun N => J N f) atTop (𝓝 l)) :
    Tendsto (fun N => integ (r N) f) atTop (𝓝 l) := by
  have h0 : Tendsto (fun N => integ (r N) f - J N f) atTop (𝓝 0) := by
    rw [Metric.tendsto_atTop]
    intro ε hε
    obtain ⟨p, hpf⟩ := exists_polynomial_near_of_continuousOn a b f hf (ε / 3) (by positivity)
    refine ⟨2 * p.natDegree + 4, fun N hN => ?_⟩
    have hN2 : N ≥ 4 := by omega
    have h1 : |integ (r N) f - integ (r N) fun x => p.eval x| ≤ ε / 3 :=
      (hg N hN2).abs_sub_le fun x hx => by rw [abs_sub_comm]; exact (hpf x hx).le
    have h2 := hJ N hN2 _ f p.continuous.continuousOn hf (ε / 3) fun x hx => (hpf x hx).le
    have h3 := hp N hN2 p (by omega)
    rw [Real.dist_eq, sub_zero]
    have e : integ (r N) f - J N f = (integ (r N) f - integ (r N) fun x => p.eval x) + ((J N fun x => p.eval x) - J N f) := by
      rw [h3]; ring
    rw [e]
    refine lt_of_le_of_lt (abs_add_le _ _) ?_
    linarith
  have := h0.add hl
  simpa using this

theorem tracks_law (B : Backend) (hB : B.Valid) (μ : Measure ℝ) [IsProbabilityMeasure μ] (hμ : μ (Set.Icc a b)ᶜ = 0)
    (hinf : ∀ s : Finset ℝ, μ (s : Set ℝ)ᶜ ≠ 0) (ms : ℕ → List ℝ) (hl : ∀ N, (ms N).length = N) (m s : ℕ → ℝ) (hs : ∀ N, s N ≠ 0)
    (hms : ∀ N, ∀ k < N, (ms N).getD k 0 = ∫ x, ((x - m N) / s N) ^ k ∂μ) (sort ldl : Bool) :
    Tracks a b (fun N => momentQuadrature B (ms N) (m N) (s N) sort ldl) (fun f => ∫ x, f x ∂μ) := by
  have h := fun N (hN : N ≥ 4) => rule_of_law B hB μ hμ hinf (ms N) (by rw [hl]; omega) (m N) (s N) (hs N)
    (fun k hk => hms N k (by rwa [hl] at hk)) sort ldl
  refine ⟨fun N hN => (h N hN).1, fun f hf => ?_⟩
  refine tendsto_of_poly (fun N hN => (h N hN).1) (fun _ f => ∫ x, f x ∂μ)
    (fun N _ f g hf hg ε hfg => integral_abs_sub_le μ hμ hf hg hfg) (fun N hN p hp => (h N hN).2 p (by rwa [hl])) hf ?_
  simp

open ProbabilityTheory in
theorem tracks_predict (K : Kernel ℝ ℝ) [IsMarkovKernel K] (hK : ∀ x ∈ Set.Icc a b, K x (Set.Icc a b)ᶜ = 0)
    (hKc : ∀ k : ℕ, ContinuousOn (fun x => ∫ z, z ^ k ∂K x) (Set.Icc a b)) (h : Tracks a b r Λ) {n' : ℕ → ℕ}
    {r' : ∀ N, (Fin (n' N) → ℝ) × (Fin (n' N) → ℝ)} (h' : ∀ N ≥ 4, GoodRule a b (r' N) ∧
      ∀ p : ℝ[X], p.natDegree < 2 * (N / 2) → integ (r' N) (fun x => p.eval x) = integ (r N) fun x => ∫ z, p.eval z ∂K x)
    {f : ℝ → ℝ} (hf : ContinuousOn f (Set.Icc a b)) :
    Tendsto (fun N => integ (r' N) f) atTop (𝓝 ((Λ fun x => ∫ z, f z ∂K x) / Λ fun _ => 1)) := by
  refine tendsto_of_poly (fun N hN => (h' N hN).1) (fun N f => integ (r N) fun x => ∫ z, f z ∂K x)
    (fun N hN f g hf hg ε hfg => (h.1 N hN).abs_sub_le fun x hx => integral_abs_sub_le (K x) (hK x hx) hf hg hfg)
    (fun N hN => (h' N hN).2) hf ?_
  exact h.2 _ (feller K hK hKc hf)

open ProbabilityTheory in
theorem tracks_update (K : Kernel ℝ ℝ) [IsMarkovKernel K] (hK : ∀ x ∈ Set.Icc a b, K x (Set.Icc a b)ᶜ = 0)
    (hKc : ∀ k : ℕ, ContinuousOn (fun x => ∫ z, z ^ k ∂K x) (Set.Icc a b)) (h : Tracks a b r Λ) {n' n'' : ℕ → ℕ}
    {r' : ∀ N, (Fin (n' N) → ℝ) × (Fin (n' N) → ℝ)} (h' : ∀ N ≥ 4, GoodRule a b (r' N) ∧
      ∀ p : ℝ[X], p.natDegree < 2 * (N / 2) → integ (r' N) (fun x => p.eval x) = integ (r N) fun x => ∫ z, p.eval z ∂K x)
    {g : ℝ → ℝ} (hgc : ContinuousOn g (Set.Icc a b)) (hg : ∀ x ∈ Set.Icc a b, 0 < g x)
    {r'' : ∀ N, (Fin (n'' N) → ℝ) × (Fin (n'' N) → ℝ)}
    (h'' : ∀ N ≥ 4, GoodRule a b (r'' N) ∧ ∀ f, integ (r'' N) f = integ (r' N) (fun x => f x * g x) / integ (r' N) g) :
    Tracks a b r'' (fun f => Λ fun x => ∫ z, g z * f z ∂K x) ∧
    Tendsto (fun N => integ (r' N) g) atTop (𝓝 ((Λ fun x => ∫ z, g z * 1 ∂K x) / Λ fun _ => 1)) ∧
    0 < (Λ fun x => ∫ z, g z * 1 ∂K x) / Λ fun _ => 1 := by
  have hne : (Set.Icc a b).Nonempty := by
    obtain ⟨i, _⟩ := (h.1 4 le_rfl).nonempty
    exact ⟨_, (h.1 4 le_rfl).mem i⟩
  have hKg : ∀ x ∈ Set.Icc a b, 0 < ∫ z, g z ∂K x := by
    intro x hx
    obtain ⟨c, hc, hmin⟩ := isCompact_Icc.exists_isMinOn hne hgc
    refine lt_of_lt_of_le (hg c hc) ?_
    have := integral_mono_Icc (K x) (hK x hx) (f := fun _ => g c) continuousOn_const hgc fun y hy => hmin hy
    simpa using this
  have hpos : 0 < (Λ fun x => ∫ z, g z * 1 ∂K x) / Λ fun _ => 1 := by
    simp only [mul_one]
    exact h.pos (feller K hK hKc hgc) hKg
  have hlik : Tendsto (fun N => integ (r' N) g) atTop (𝓝 ((Λ fun x => ∫ z, g z * 1 ∂K x) / Λ fun _ => 1)) := by
    simp only [mul_one]
    exact tracks_predict K hK hKc h h' hgc
  refine ⟨⟨fun N hN => (h'' N hN).1, fun f hf => ?_⟩, hlik, hpos⟩
  have h1 := (tracks_predict K hK hKc h h' (hgc.mul hf)).div hlik hpos.ne'
  rw [div_div_div_cancel_right₀ h.one_ne_zero] at h1
  refine h1.congr' ?_
  filter_upwards [eventually_ge_atTop 4] with N hN
  rw [(h'' N hN).2 f]
  have e : (fun x => g x * f x) = fun x => f x * g x := funext fun x => mul_comm _ _
  exact congrArg (fun F => integ (r' N) F / integ (r' N) g) e

theorem integ_sub_pow {n : ℕ} (r : (Fin n → ℝ) × (Fin n → ℝ)) (c : ℝ) (k : ℕ) :
    integ r (fun x => (x - c) ^ k) = ∑ j ∈ Finset.range (k + 1), (-c) ^ (k - j) * (k.choose j) * integ r (fun x => x ^ j) := by
  simp only [integ, Finset.mul_sum]
  rw [Finset.sum_comm]
  refine Finset.sum_congr rfl fun i _ => ?_
  rw [sub_eq_add_neg, add_pow, Finset.mul_sum]
  exact Finset.sum_congr rfl fun j _ => by ring

/-- central moments about converging centres. -/
theorem Tracks.central (h : Tracks a b r Λ) {c : ℕ → ℝ} {m : ℝ} (hc : Tendsto c atTop (𝓝 m)) (k : ℕ) :
    Tendsto (fun N => integ (r N) fun x => (x - c N) ^ k) atTop (𝓝 ((Λ fun x => (x - m) ^ k) / Λ fun _ => 1)) := by
  have key : ∀ c : ℕ → ℝ, Tendsto c atTop (𝓝 m) → Tendsto (fun N => integ (r N) fun x => (x - c N) ^ k) atTop
      (𝓝 (∑ j ∈ Finset.range (k + 1), (-m) ^ (k - j) * (k.choose j) * ((Λ fun x => x ^ j) / Λ fun _ => 1))) := by
    intro c hc
    simp only [integ_sub_pow]
    exact tendsto_finsetSum _ fun j _ => ((hc.neg.pow _).mul_const _).mul (h.2 _ (by fun_prop))
  have h1 := key (fun _ => m) tendsto_const_nhds
  rw [tendsto_nhds_unique (h.2 (fun x => (x - m) ^ k) (by fun_prop)) h1]
  exact key c hc

end tracks

/-! ## Recursions -/

section run

open ProbabilityTheory

variable {Y S : Type} (K : Kernel ℝ ℝ) (g : Y → ℝ → ℝ)

/-- one step of the exact recursion, on unnormalised expectations. -/
noncomputable def stepL (Λ : (ℝ → ℝ) → ℝ) (y : Y) : (ℝ → ℝ) → ℝ := fun f => Λ fun x => ∫ z, g y z * f z ∂K x

theorem foldl_stepL (Λ : (ℝ → ℝ) → ℝ) (ys : List Y) (f : ℝ → ℝ) : ys.foldl (stepL K g) Λ f = Λ (markovE K g f ys) := by
  induction ys generalizing Λ with
  | nil => rfl
  | cons y ys ih => rw [List.foldl_cons, ih]; rfl

variable {K g}

theorem tracks_run {next : ℕ → S → Y → S} {lik : ℕ → S → Y → ℝ} (Inv Out : (ℕ → S) → ((ℝ → ℝ) → ℝ) → Prop)
    (step : ∀ s Λ y, Inv s Λ → Inv (fun N => next N (s N) y) (stepL K g Λ y) ∧ Out (fun N => next N (s N) y) (stepL K g Λ y) ∧
      Tendsto (fun N => lik N (s N) y) atTop (𝓝 (stepL K g Λ y (fun _ => 1) / Λ fun _ => 1)) ∧
      0 < stepL K g Λ y (fun _ => 1) / Λ fun _ => 1)
    (s : ℕ → S) (Λ : (ℝ → ℝ) → ℝ) (h : Inv s Λ) (h1 : (Λ fun _ => 1) ≠ 0) (d : S) (ys : List Y) :
    Tendsto (fun N => ((liks (next N) (lik N) (s N) ys).map Real.log).sum) atTop
      (𝓝 (Real.log (ys.foldl (stepL K g) Λ (fun _ => 1) / Λ fun _ => 1))) ∧
    0 < ys.foldl (stepL K g) Λ (fun _ => 1) / Λ (fun _ => 1) ∧
    ∀ t < ys.length, Out (fun N => (traj (next N) (s N) ys).getD t d) ((ys.take (t + 1)).foldl (stepL K g) Λ) := by
  induction ys generalizing s Λ with
  | nil => simp [liks, div_self h1]
  | cons y ys ih =>
    obtain ⟨i1, i2, i3, i4⟩ := step s Λ y h
    have hne : (stepL K g Λ y fun _ => 1) ≠ 0 := fun h0 => by rw [h0, zero_div] at i4; exact lt_irrefl _ i4
    obtain ⟨j1, j2, j3⟩ := ih _ _ i1 hne
    have e : ys.foldl (stepL K g) (stepL K g Λ y) (fun _ => 1) / Λ (fun _ => 1)
        = (stepL K g Λ y (fun _ => 1) / Λ fun _ => 1) * (ys.foldl (stepL K g) (stepL K g Λ y) (fun _ => 1) / stepL K g Λ y fun _ => 1) := by
      field_simp
    refine ⟨?_, ?_, ?_⟩
    · simp only [liks, List.map_cons, List.sum_cons, List.foldl_cons]
      rw [e, Real.log_mul i4.ne' j2.ne']
      exact (i3.log i4.ne').add j1
    · rw [List.foldl_cons, e]
      exact mul_pos i4 j2
    · intro t ht
      cases t with
      | zero => simpa [traj] using i2
      | succ t =>
        have := j3 t (by simpa using ht)
        simpa [traj] using this

end run

end Mfs.Converge

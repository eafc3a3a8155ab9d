import Verif.Lemmas.ConvergeU
import Mathlib.LinearAlgebra.Lagrange
import Mathlib.Algebra.Polynomial.Degree.IsMonicOfDegree
import Mathlib.Analysis.Calculus.MeanValue
import Mathlib.Analysis.Calculus.LocalExtr.Rolle
import Mathlib.Analysis.Calculus.Deriv.Polynomial

/-!
# The error of Lagrange interpolation and of a Gauss rule
-/

namespace Mfs.Spec

open Finset Set Polynomial

/-- Rolle's theorem, iterated: `N + 1` zeros of `F 0` give a zero of the `N`-th derivative. -/
theorem rolle_iter (N : ℕ) (F : ℕ → ℝ → ℝ) (hF : ∀ k < N, ∀ x, HasDerivAt (F k) (F (k + 1) x) x) (t : ℕ → ℝ)
    (ht : ∀ i < N, t i < t (i + 1)) (h0 : ∀ i ≤ N, F 0 (t i) = 0) : ∃ x ∈ Icc (t 0) (t N), F N x = 0 := by
  induction N generalizing F t with
  | zero => exact ⟨t 0, ⟨le_rfl, le_rfl⟩, h0 0 le_rfl⟩
  | succ N ih =>
    have hz : ∀ i, i ≤ N → ∃ x ∈ Ioo (t i) (t (i + 1)), F 1 x = 0 := fun i hi =>
      exists_hasDerivAt_eq_zero (ht i (by omega)) (fun x _ => (hF 0 (by omega) x).continuousAt.continuousWithinAt)
        ((h0 i (by omega)).trans (h0 (i + 1) (by omega)).symm) fun x _ => hF 0 (by omega) x
    choose! u hu hu0 using hz
    obtain ⟨x, hx, hx0⟩ := ih (fun k => F (k + 1)) (fun k hk y => hF (k + 1) (by omega) y) u
      (fun i hi => (hu i (by omega)).2.trans (hu (i + 1) (by omega)).1) fun i hi => hu0 i hi
    exact ⟨x, ⟨(hu 0 (by omega)).1.le.trans hx.1, hx.2.trans (hu N le_rfl).2.le⟩, hx0⟩

theorem rolle_finset (N : ℕ) (F : ℕ → ℝ → ℝ) (hF : ∀ k < N, ∀ x, HasDerivAt (F k) (F (k + 1) x) x) (s : Finset ℝ) (hs : s.card = N + 1)
    (h0 : ∀ x ∈ s, F 0 x = 0) {S : Set ℝ} (hS : S.OrdConnected) (hsS : ∀ x ∈ s, x ∈ S) : ∃ x ∈ S, F N x = 0 := by
  let e := s.orderEmbOfFin hs
  let t : ℕ → ℝ := fun i => if h : i < N + 1 then e ⟨i, h⟩ else 0
  have hts : ∀ i ≤ N, t i ∈ s := fun i hi => by
    simp only [t, dif_pos (Nat.lt_succ_of_le hi)]
    exact s.orderEmbOfFin_mem hs _
  obtain ⟨x, hx, hx0⟩ := rolle_iter N F hF t (fun i hi => by
    simp only [t, dif_pos (show i < N + 1 by omega), dif_pos (show i + 1 < N + 1 by omega)]
    exact e.strictMono (by simp [Fin.lt_def])) fun i hi => h0 _ (hts i hi)
  exact ⟨x, hS.out (hsS _ (hts 0 (by omega))) (hsS _ (hts N le_rfl)) hx, hx0⟩

theorem iterate_derivative_monic {p : ℝ[X]} (hp : p.Monic) : derivative^[p.natDegree] p = C (p.natDegree.factorial : ℝ) := by
  have h := natDegree_iterate_derivative p p.natDegree
  rw [Nat.sub_self, Nat.le_zero] at h
  rw [eq_C_of_natDegree_eq_zero h, coeff_iterate_derivative, zero_add, hp.coeff_natDegree, Nat.descFactorial_self]
  simp

/-- the remainder of Lagrange interpolation. -/
theorem lagrange_error {ι : Type*} [Fintype ι] [DecidableEq ι] (v : ι → ℝ) (hv : Function.Injective v) (F : ℕ → ℝ → ℝ)
    (hF : ∀ k < Fintype.card ι, ∀ x, HasDerivAt (F k) (F (k + 1) x) x) {S : Set ℝ} (hS : S.OrdConnected) (hvS : ∀ i, v i ∈ S)
    (x : ℝ) (hx : x ∈ S) :
    ∃ ξ ∈ S, F 0 x - (Lagrange.interpolate univ v fun i => F 0 (v i)).eval x =
      F (Fintype.card ι) ξ / ((Fintype.card ι).factorial : ℝ) * ∏ i, (x - v i) := by
  set N := Fintype.card ι with hN
  set L := Lagrange.interpolate univ v fun i => F 0 (v i) with hL
  have hLv : ∀ i, L.eval (v i) = F 0 (v i) := fun i => Lagrange.eval_interpolate_at_node _ hv.injOn (Finset.mem_univ i)
  by_cases hxv : ∃ i, x = v i
  · obtain ⟨i, rfl⟩ := hxv
    refine ⟨v i, hx, ?_⟩
    rw [hLv, sub_self, Finset.prod_eq_zero (Finset.mem_univ i) (sub_self _), mul_zero]
  push Not at hxv
  set W : ℝ[X] := ∏ i, (X - C (v i)) with hW
  have hWe : ∀ y, W.eval y = ∏ i, (y - v i) := fun y => by simp [hW, eval_prod]
  have hWm : W.Monic := monic_prod_of_monic _ _ fun i _ => monic_X_sub_C _
  have hWd : W.natDegree = N := by rw [hW, natDegree_prod_of_monic _ _ fun i _ => monic_X_sub_C _]; simp [hN]
  have hWx : W.eval x ≠ 0 := by
    rw [hWe]
    exact Finset.prod_ne_zero_iff.2 fun i _ => sub_ne_zero.2 (hxv i)
  set c := (F 0 x - L.eval x) / W.eval x with hc
  have hL0 : derivative^[N] L = 0 := iterate_derivative_eq_zero_of_degree_lt (by
    have := Lagrange.degree_interpolate_lt (s := univ) (v := v) (fun i => F 0 (v i)) hv.injOn
    rwa [Finset.card_univ] at this)
  have hder : ∀ (p : ℝ[X]) (k : ℕ) (y : ℝ), HasDerivAt (fun y => (derivative^[k] p).eval y) ((derivative^[k + 1] p).eval y) y := by
    intro p k y
    rw [Function.iterate_succ_apply']
    exact Polynomial.hasDerivAt _ _
  obtain ⟨ξ, hξ, h⟩ := rolle_finset N (fun k y => F k y - (derivative^[k] L).eval y - c * (derivative^[k] W).eval y)
    (fun k hk y => ((hF k hk y).sub (hder L k y)).sub ((hder W k y).const_mul c)) (insert x (univ.image v))
    (by
      rw [Finset.card_insert_of_notMem, Finset.card_image_of_injective _ hv, Finset.card_univ]
      simp only [Finset.mem_image, Finset.mem_univ, true_and, not_exists]
      exact fun i h => hxv i h.symm)
    (fun y hy => by
      simp only [Function.iterate_zero, id]
      rcases Finset.mem_insert.1 hy with rfl | hy
      · rw [hc, div_mul_cancel₀ _ hWx]; ring
      · obtain ⟨i, -, rfl⟩ := Finset.mem_image.1 hy
        rw [hLv, hWe, Finset.prod_eq_zero (Finset.mem_univ i) (sub_self _)]
        ring) hS (fun y hy => by
      rcases Finset.mem_insert.1 hy with rfl | hy
      · exact hx
      · obtain ⟨i, -, rfl⟩ := Finset.mem_image.1 hy
        exact hvS i)
  refine ⟨ξ, hξ, ?_⟩
  simp only [hL0, eval_zero, sub_zero] at h
  rw [← hWd, iterate_derivative_monic hWm, eval_C, hWd] at h
  rw [← hWe]
  have hf : (N.factorial : ℝ) ≠ 0 := by positivity
  have : F N ξ = c * N.factorial := by linarith
  rw [this, mul_div_assoc, div_self hf, mul_one, hc, div_mul_cancel₀ _ hWx]

end Mfs.Spec

namespace Mfs.Converge

open Mfs.Spec Mfs.Quad1 Mfs.Props Polynomial MeasureTheory Filter Topology

theorem integrable_poly_le {μ : Measure ℝ} {n : ℕ} (hμ : ∀ k ≤ n, Integrable (fun x : ℝ => x ^ k) μ) (p : ℝ[X]) (hp : p.natDegree ≤ n) :
    Integrable (fun x => p.eval x) μ := by
  simp only [eval_eq_sum_range]
  exact integrable_finsetSum _ fun k hk => (hμ k (by have := Finset.mem_range.1 hk; omega)).const_mul _

/-- the node polynomial. -/
noncomputable def nodePoly {n : ℕ} (x : Fin n → ℝ) : ℝ[X] := ∏ i, (X - C (x i))

theorem nodePoly_eval {n : ℕ} (x : Fin n → ℝ) (y : ℝ) : (nodePoly x).eval y = ∏ i, (y - x i) := by simp [nodePoly, eval_prod]

theorem nodePoly_monic {n : ℕ} (x : Fin n → ℝ) : (nodePoly x).Monic := monic_prod_of_monic _ _ fun _ _ => monic_X_sub_C _

theorem nodePoly_natDegree {n : ℕ} (x : Fin n → ℝ) : (nodePoly x).natDegree = n := by
  rw [nodePoly, natDegree_prod_of_monic _ _ fun i _ => monic_X_sub_C _]; simp

/-- the rule is exact below degree `2 n`. -/
def Exact {n : ℕ} (μ : Measure ℝ) (r : (Fin n → ℝ) × (Fin n → ℝ)) : Prop :=
  ∀ p : ℝ[X], p.natDegree < 2 * n → integ r (fun x => p.eval x) = ∫ x, p.eval x ∂μ

/-- the node polynomial has the least second moment among the monic polynomials. -/
theorem nodePoly_min {n : ℕ} (hn : 0 < n) (μ : Measure ℝ) (hμ : ∀ k ≤ 2 * n, Integrable (fun x : ℝ => x ^ k) μ)
    (r : (Fin n → ℝ) × (Fin n → ℝ)) (hr : Exact μ r) (q : ℝ[X]) (hq : q.Monic) (hqn : q.natDegree = n) :
    ∫ x, (∏ i, (x - r.2 i)) ^ 2 ∂μ ≤ ∫ x, q.eval x ^ 2 ∂μ := by
  set P := nodePoly r.2 with hP
  have hPd : P.natDegree = n := nodePoly_natDegree _
  have hd : (q - P).natDegree < n := IsMonicOfDegree.natDegree_sub_lt hn.ne' ⟨hqn, hq⟩ ⟨hPd, nodePoly_monic _⟩
  have hz : ∫ x, (P * (q - P)).eval x ∂μ = 0 := by
    rw [← hr _ (lt_of_le_of_lt natDegree_mul_le (by omega)), integ]
    refine Finset.sum_eq_zero fun i _ => ?_
    rw [eval_mul, hP, nodePoly_eval, Finset.prod_eq_zero (Finset.mem_univ i) (sub_self _)]
    ring
  have hi : ∀ p : ℝ[X], p.natDegree ≤ 2 * n → Integrable (fun x => p.eval x) μ := fun p hp => integrable_poly_le hμ p hp
  have h1 : ∫ x, q.eval x ^ 2 ∂μ = ∫ x, (∏ i, (x - r.2 i)) ^ 2 ∂μ + 2 * ∫ x, (P * (q - P)).eval x ∂μ + ∫ x, ((q - P).eval x) ^ 2 ∂μ := by
    have e1 : Integrable (fun x => (∏ i, (x - r.2 i)) ^ 2) μ := by
      have := hi (P ^ 2) (natDegree_pow_le.trans (by omega))
      simpa [hP, nodePoly_eval] using this
    have e2 := (hi (P * (q - P)) (natDegree_mul_le.trans (by omega))).const_mul 2
    have e3 : Integrable (fun x => ((q - P).eval x) ^ 2) μ := by
      have := hi ((q - P) ^ 2) (natDegree_pow_le.trans (by omega))
      simpa using this
    rw [← integral_const_mul, ← integral_add e1 e2, ← integral_add (f := fun x => (∏ i, (x - r.2 i)) ^ 2 + 2 * (P * (q - P)).eval x) (e1.add e2) e3]
    refine integral_congr_ae (Eventually.of_forall fun x => ?_)
    simp only [eval_mul, eval_sub, ← nodePoly_eval, ← hP]
    ring
  rw [h1, hz]
  have : 0 ≤ ∫ x, ((q - P).eval x) ^ 2 ∂μ := integral_nonneg fun x => by positivity
  linarith

/-- the nodes lie in every interval carrying the law. -/
theorem node_mem {n : ℕ} (μ : Measure ℝ) (hμ : ∀ k ≤ 2 * n, Integrable (fun x : ℝ => x ^ k) μ)
    (hcard : ∀ s : Finset ℝ, s.card < n → μ (s : Set ℝ)ᶜ ≠ 0)
    (r : (Fin n → ℝ) × (Fin n → ℝ)) (hr : Exact μ r) {S : Set ℝ} (hS : S.OrdConnected) (hSμ : μ Sᶜ = 0) (i : Fin n) : r.2 i ∈ S := by
  classical
  by_contra hi
  have hn : 0 < n := i.pos
  set P : ℝ[X] := ∏ j ∈ Finset.univ.erase i, (X - C (r.2 j)) with hP
  have hPd : P.natDegree = n - 1 := by
    rw [hP, natDegree_prod_of_monic _ _ fun i _ => monic_X_sub_C _]; simp
  have hPe : ∀ y, P.eval y = ∏ j ∈ Finset.univ.erase i, (y - r.2 j) := fun y => by simp [hP, eval_prod]
  have hint : ∫ x, ((X - C (r.2 i)) * P ^ 2).eval x ∂μ = 0 := by
    rw [← hr _ (lt_of_le_of_lt natDegree_mul_le (by
      have := natDegree_pow_le (p := P) (n := 2)
      rw [natDegree_X_sub_C]
      omega)), integ]
    refine Finset.sum_eq_zero fun j _ => ?_
    by_cases hj : j = i
    · subst hj
      simp
    · rw [eval_mul, eval_pow, hPe, Finset.prod_eq_zero (Finset.mem_erase.2 ⟨hj, Finset.mem_univ j⟩) (sub_self _)]
      ring
  have hI : Integrable (fun x => ((X - C (r.2 i)) * P ^ 2).eval x) μ := integrable_poly_le hμ _ (natDegree_mul_le.trans (by
      have := natDegree_pow_le (p := P) (n := 2)
      rw [natDegree_X_sub_C]
      omega))
  have hae : ∀ᵐ x ∂μ, x ∈ S := by rw [ae_iff]; exact hSμ
  have hzero : ∀ᵐ x ∂μ, ((X - C (r.2 i)) * P ^ 2).eval x = 0 := by
    have hside : (∀ x ∈ S, r.2 i < x) ∨ ∀ x ∈ S, x < r.2 i := by
      by_contra hcon
      push Not at hcon
      obtain ⟨⟨x, hx, hx'⟩, y, hy, hy'⟩ := hcon
      exact hi (hS.out hx hy ⟨hx', hy'⟩)
    rcases hside with h | h
    · have := (integral_eq_zero_iff_of_nonneg_ae (f := fun x => ((X - C (r.2 i)) * P ^ 2).eval x) (hae.mono fun x hx => by
        have := h x hx
        simp only [eval_mul, eval_sub, eval_X, eval_C, eval_pow, Pi.zero_apply]
        exact mul_nonneg (by linarith) (sq_nonneg _)) hI).1 hint
      exact this
    · have := (integral_eq_zero_iff_of_nonneg_ae (f := fun x => -((X - C (r.2 i)) * P ^ 2).eval x) (hae.mono fun x hx => by
        have := h x hx
        simp only [eval_mul, eval_sub, eval_X, eval_C, eval_pow, Pi.zero_apply]
        rw [← neg_mul]
        exact mul_nonneg (by linarith) (sq_nonneg _)) hI.neg).1 (by rw [integral_neg, hint, neg_zero])
      filter_upwards [this] with x hx
      simpa using hx
  refine hcard ((Finset.univ.erase i).image r.2) (lt_of_le_of_lt Finset.card_image_le (by simp; omega)) ?_
  have : ∀ᵐ x ∂μ, x ∈ (((Finset.univ.erase i).image r.2 : Finset ℝ) : Set ℝ) := by
    filter_upwards [hzero, hae] with x hx hxS
    rw [eval_mul, eval_pow] at hx
    rcases mul_eq_zero.1 hx with hx | hx
    · exact absurd (by simpa [sub_eq_zero] using hx) (fun h : x = r.2 i => hi (h ▸ hxS))
    · rw [pow_eq_zero_iff two_ne_zero, hPe, Finset.prod_eq_zero_iff] at hx
      obtain ⟨j, hj, hx⟩ := hx
      exact Finset.mem_coe.2 (Finset.mem_image.2 ⟨j, hj, (sub_eq_zero.1 hx).symm⟩)
  rwa [ae_iff] at this

/-- the error of a rule exact below degree `2 n`. -/
theorem gauss_error {n : ℕ} (hn : 0 < n) (μ : Measure ℝ) [IsFiniteMeasure μ] (hμ : ∀ k ≤ 2 * n, Integrable (fun x : ℝ => x ^ k) μ)
    (r : (Fin n → ℝ) × (Fin n → ℝ)) (hr : Exact μ r) (hinj : Function.Injective r.2) {S : Set ℝ} (hS : S.OrdConnected) (hSμ : μ Sᶜ = 0)
    (hrS : ∀ i, r.2 i ∈ S) (c : ℝ) (hcS : c ∈ S) (hc : ∀ i, c ≠ r.2 i) (F : ℕ → ℝ → ℝ)
    (hF : ∀ k < 2 * n, ∀ x, HasDerivAt (F k) (F (k + 1) x) x) {M : ℝ} (hM : ∀ x ∈ S, |F (2 * n) x| ≤ M) :
    Integrable (F 0) μ ∧ |∫ x, F 0 x ∂μ - integ r (F 0)| ≤ M / ((2 * n).factorial : ℝ) * ∫ x, (∏ i, (x - r.2 i)) ^ 2 ∂μ := by
  classical
  have hM0 : 0 ≤ M := (abs_nonneg _).trans (hM c hcS)
  let v : ℝ → Fin n × Bool → ℝ := fun ε i => bif i.2 then r.2 i.1 + ε * (c - r.2 i.1) else r.2 i.1
  have hcard : Fintype.card (Fin n × Bool) = 2 * n := by simp [mul_comm]
  have hprod : ∀ ε x, ∏ i, (x - v ε i) = (∏ i, (x - r.2 i)) * ∏ i, (x - (r.2 i + ε * (c - r.2 i))) := by
    intro ε x
    rw [Fintype.prod_prod_type, ← Finset.prod_mul_distrib]
    refine Finset.prod_congr rfl fun i _ => ?_
    rw [Fintype.prod_bool]
    simp only [v, cond_true, cond_false]
    ring
  have hcont : Continuous (F 0) := continuous_iff_continuousAt.2 fun x => (hF 0 (by omega) x).continuousAt
  have hae : ∀ᵐ x ∂μ, x ∈ S := by rw [ae_iff]; exact hSμ
  -- the nodes are eventually distinct
  have hvinj : ∀ᶠ ε in 𝓝[>] (0 : ℝ), Function.Injective (v ε) := by
    have h1 : ∀ᶠ ε in 𝓝[>] (0 : ℝ), ∀ i j, i ≠ j → r.2 i + ε * (c - r.2 i) ≠ r.2 j := by
      refine eventually_all.2 fun i => eventually_all.2 fun j => ?_
      by_cases hij : i = j
      · exact Eventually.of_forall fun _ h => absurd hij h
      have : Tendsto (fun ε => r.2 i + ε * (c - r.2 i)) (𝓝[>] (0 : ℝ)) (𝓝 (r.2 i)) := by
        have h2 : Continuous fun ε => r.2 i + ε * (c - r.2 i) := by fun_prop
        have := (h2.tendsto 0).mono_left (nhdsWithin_le_nhds (s := Set.Ioi 0))
        simpa using this
      filter_upwards [this.eventually_ne (hinj.ne hij)] with ε hε _ using hε
    have h2 : ∀ᶠ ε in 𝓝[>] (0 : ℝ), ε < 1 := nhdsWithin_le_nhds (Iio_mem_nhds one_pos)
    filter_upwards [h1, h2, self_mem_nhdsWithin] with ε hε hε1 hε0
    have hε0 : 0 < ε := hε0
    have hne : ∀ i j, r.2 i + ε * (c - r.2 i) ≠ r.2 j := by
      intro i j
      by_cases hij : i = j
      · subst hij
        have : ε * (c - r.2 i) ≠ 0 := mul_ne_zero hε0.ne' (sub_ne_zero.2 (hc i))
        intro h
        exact this (by linarith)
      · exact hε i j hij
    rintro ⟨i, a⟩ ⟨j, b⟩ h
    rcases a <;> rcases b <;> simp only [v, cond_true, cond_false] at h
    · rw [hinj h]
    · exact absurd h.symm (hne j i)
    · exact absurd h (hne i j)
    · have : (1 - ε) * (r.2 i - r.2 j) = 0 := by linarith
      rcases mul_eq_zero.1 this with h' | h'
      · linarith
      · rw [hinj (sub_eq_zero.1 h')]
  have hvS : ∀ᶠ ε in 𝓝[>] (0 : ℝ), ∀ i, v ε i ∈ S := by
    have h2 : ∀ᶠ ε in 𝓝[>] (0 : ℝ), ε < 1 := nhdsWithin_le_nhds (Iio_mem_nhds one_pos)
    filter_upwards [h2, self_mem_nhdsWithin] with ε hε1 hε0
    have hε0 : 0 < ε := hε0
    rintro ⟨i, b⟩
    rcases b <;> simp only [v, cond_true, cond_false]
    · exact hrS i
    · refine hS.convex.segment_subset (hrS i) hcS ⟨1 - ε, ε, by linarith, hε0.le, by ring, ?_⟩
      simp only [smul_eq_mul]
      ring
  -- a common bound
  obtain ⟨R, hR⟩ : ∃ R, ∀ i, |r.2 i| + |c - r.2 i| ≤ R :=
    ⟨∑ i, (|r.2 i| + |c - r.2 i|), fun i => Finset.single_le_sum (f := fun i => |r.2 i| + |c - r.2 i|) (fun j _ => by positivity) (Finset.mem_univ i)⟩
  have hR0 : 0 ≤ R := (by positivity : (0 : ℝ) ≤ |r.2 ⟨0, hn⟩| + |c - r.2 ⟨0, hn⟩|).trans (hR _)
  have hdom : Integrable (fun x => (|x| + R) ^ n * (|x| + R) ^ n) μ := by
    have h2 : Integrable (fun x : ℝ => (2 : ℝ) ^ (2 * n) * (x ^ (2 * n) + R ^ (2 * n))) μ := ((hμ _ le_rfl).add (integrable_const _)).const_mul _
    refine h2.mono' (by fun_prop) (Eventually.of_forall fun x => ?_)
    have hx := abs_nonneg x
    have ev : |x| ^ (2 * n) = x ^ (2 * n) := Even.pow_abs (even_two_mul n) x
    rw [← pow_add, ← two_mul, Real.norm_of_nonneg (by positivity)]
    have h3 : |x| + R ≤ 2 * max |x| R := by
      have := le_max_left |x| R
      have := le_max_right |x| R
      linarith
    refine (pow_le_pow_left₀ (by positivity) h3 _).trans ?_
    rw [mul_pow]
    refine mul_le_mul_of_nonneg_left ?_ (by positivity)
    have a1 : 0 ≤ x ^ (2 * n) := by rw [← ev]; positivity
    have a2 : 0 ≤ R ^ (2 * n) := by positivity
    rcases max_cases |x| R with ⟨h, _⟩ | ⟨h, _⟩ <;> rw [h]
    · rw [ev]; linarith
    · linarith
  have hbound : ∀ ε, 0 ≤ ε → ε < 1 → ∀ x, |∏ i, (x - v ε i)| ≤ (|x| + R) ^ n * (|x| + R) ^ n := by
    intro ε h0 h1 x
    rw [hprod, abs_mul, Finset.abs_prod, Finset.abs_prod]
    have e1 : ∏ i, |x - r.2 i| ≤ (|x| + R) ^ n := by
      refine (Finset.prod_le_prod (g := fun _ => |x| + R) (fun i _ => abs_nonneg _) fun i _ => ?_).trans (by simp)
      have := abs_sub x (r.2 i)
      have := hR i
      have := abs_nonneg (c - r.2 i)
      linarith
    have e2 : ∏ i, |x - (r.2 i + ε * (c - r.2 i))| ≤ (|x| + R) ^ n := by
      refine (Finset.prod_le_prod (g := fun _ => |x| + R) (fun i _ => abs_nonneg _) fun i _ => ?_).trans (by simp)
      have a1 := abs_sub x (r.2 i + ε * (c - r.2 i))
      have a2 := abs_add_le (r.2 i) (ε * (c - r.2 i))
      have a3 : |ε * (c - r.2 i)| ≤ |c - r.2 i| := by
        rw [abs_mul, abs_of_nonneg h0]
        exact mul_le_of_le_one_left (abs_nonneg _) h1.le
      have := hR i
      linarith
    exact mul_le_mul e1 e2 (Finset.prod_nonneg fun i _ => abs_nonneg _) (by positivity)
  have hε01 : ∀ᶠ ε in 𝓝[>] (0 : ℝ), 0 ≤ ε ∧ ε < 1 := by
    have h2 : ∀ᶠ ε in 𝓝[>] (0 : ℝ), ε < 1 := nhdsWithin_le_nhds (Iio_mem_nhds one_pos)
    filter_upwards [h2, self_mem_nhdsWithin] with ε h hε0 using ⟨le_of_lt hε0, h⟩
  have hlim : Tendsto (fun ε => M / ((2 * n).factorial : ℝ) * ∫ x, |∏ i, (x - v ε i)| ∂μ) (𝓝[>] (0 : ℝ))
      (𝓝 (M / ((2 * n).factorial : ℝ) * ∫ x, (∏ i, (x - r.2 i)) ^ 2 ∂μ)) := by
    refine Tendsto.const_mul _ (tendsto_integral_filter_of_dominated_convergence (fun x => (|x| + R) ^ n * (|x| + R) ^ n) ?_ ?_ hdom ?_)
    · exact Eventually.of_forall fun ε => by
        refine Continuous.aestronglyMeasurable ?_
        fun_prop
    · filter_upwards [hε01] with ε hε
      exact Eventually.of_forall fun x => by simpa using hbound ε hε.1 hε.2 x
    · refine Eventually.of_forall fun x => ?_
      have h2 : Continuous fun ε => |∏ i, (x - v ε i)| := by
        simp only [hprod]
        fun_prop
      have := (h2.tendsto 0).mono_left (nhdsWithin_le_nhds (s := Set.Ioi 0))
      have h3 : |∏ i, (x - v 0 i)| = (∏ i, (x - r.2 i)) ^ 2 := by
        rw [hprod]
        simp only [zero_mul, add_zero]
        rw [← sq, abs_of_nonneg (sq_nonneg _)]
      rwa [h3] at this
  -- for a small ε
  have hkey : ∀ᶠ ε in 𝓝[>] (0 : ℝ), Integrable (F 0) μ ∧ |∫ x, F 0 x ∂μ - integ r (F 0)| ≤ M / ((2 * n).factorial : ℝ) * ∫ x, |∏ i, (x - v ε i)| ∂μ := by
    filter_upwards [hvinj, hvS, hε01] with ε hi hs hε
    set L := Lagrange.interpolate Finset.univ (v ε) fun i => F 0 (v ε i) with hL
    have hLd : L.natDegree < 2 * n := by
      have := Lagrange.degree_interpolate_lt (s := Finset.univ) (v := v ε) (fun i => F 0 (v ε i)) hi.injOn
      rw [Finset.card_univ, hcard] at this
      by_cases h0 : L = 0
      · rw [h0, natDegree_zero]; omega
      · exact (natDegree_lt_iff_degree_lt h0).2 this
    have hLi : Integrable (fun x => L.eval x) μ := integrable_poly_le hμ L hLd.le
    have herr : ∀ x ∈ S, |F 0 x - L.eval x| ≤ M / ((2 * n).factorial : ℝ) * |∏ i, (x - v ε i)| := by
      intro x hx
      obtain ⟨ξ, hξ, h⟩ := lagrange_error (v ε) hi F (by rw [hcard]; exact hF) hS hs x hx
      rw [hcard] at h
      rw [h, abs_mul, abs_div, Nat.abs_cast]
      gcongr
      exact hM ξ hξ
    have hWi : Integrable (fun x => |∏ i, (x - v ε i)|) μ := hdom.mono' (by
        refine Continuous.aestronglyMeasurable ?_
        fun_prop) (Eventually.of_forall fun x => by simpa using hbound ε hε.1 hε.2 x)
    have hdi : Integrable (fun x => F 0 x - L.eval x) μ := (hWi.const_mul (M / ((2 * n).factorial : ℝ))).mono'
      (hcont.aestronglyMeasurable.sub L.continuous.aestronglyMeasurable) (hae.mono fun x hx => herr x hx)
    have hFi : Integrable (F 0) μ := by
      have := hdi.add hLi
      simpa [Pi.add_def] using this
    refine ⟨hFi, ?_⟩
    have hq : integ r (F 0) = ∫ x, L.eval x ∂μ := by
      rw [← hr L hLd, integ, integ]
      refine Finset.sum_congr rfl fun i _ => ?_
      have := Lagrange.eval_interpolate_at_node (s := Finset.univ) (fun i => F 0 (v ε i)) hi.injOn (Finset.mem_univ (i, false))
      simp only [v, cond_false] at this
      rw [hL, this]
    rw [hq, ← integral_sub hFi hLi, ← integral_const_mul]
    refine (abs_integral_le_integral_abs).trans (integral_mono_ae hdi.abs (hWi.const_mul _) (hae.mono fun x hx => herr x hx))
  refine ⟨(hkey.exists).choose_spec.1, ge_of_tendsto hlim (hkey.mono fun ε h => h.2)⟩

end Mfs.Converge

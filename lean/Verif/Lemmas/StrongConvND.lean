import Verif.Lemmas.PolyDenseSome
import Verif.Lemmas.ConvergeU
import Verif.Lemmas.Words
import Verif.Lemmas.NormalKernel
import Mathlib.Algebra.MvPolynomial.Funext
import Mathlib.Topology.Algebra.MvPolynomial
import Mathlib.RingTheory.MvPolynomial.Basic

/-!
# Strong convergence of the multiplication matrices of a law on the whole space

A law on `ℝᵈ` with some exponential moment. The vectors of the rule are identified with polynomials; functions of the multiplication
matrices then converge, on these vectors, to multiplication by functions of the coordinates.
-/

namespace Mfs.StrongND

open MeasureTheory Filter Topology Matrix Mfs.Converge Mfs.Spec Mfs.Lemmas

variable {d : ℕ}

/-- a law with some exponential moment: `E exp(c Σ|xⱼ|) < ∞` for one `c > 0`. -/
def SomeExpMomentND (μ : Measure (Fin d → ℝ)) : Prop := ∃ c : ℝ, 0 < c ∧ Integrable (fun x => Real.exp (c * ∑ j, |x j|)) μ

/-- growth below every exponential. -/
def SubExp (g : (Fin d → ℝ) → ℝ) : Prop := ∀ c : ℝ, 0 < c → ∃ C : ℝ, ∀ x, |g x| ≤ C * Real.exp (c * ∑ j, |x j|)

theorem SubExp.mul {g h : (Fin d → ℝ) → ℝ} (hg : SubExp g) (hh : SubExp h) : SubExp fun x => g x * h x := by
  intro c hc
  obtain ⟨C, hC⟩ := hg (c / 2) (half_pos hc)
  obtain ⟨C', hC'⟩ := hh (c / 2) (half_pos hc)
  refine ⟨C * C', fun x => ?_⟩
  rw [abs_mul]
  refine (mul_le_mul (hC x) (hC' x) (abs_nonneg _) ((abs_nonneg _).trans (hC x))).trans (le_of_eq ?_)
  rw [show c * ∑ j, |x j| = c / 2 * ∑ j, |x j| + c / 2 * ∑ j, |x j| by ring, Real.exp_add]
  ring

theorem SubExp.add {g h : (Fin d → ℝ) → ℝ} (hg : SubExp g) (hh : SubExp h) : SubExp fun x => g x + h x := by
  intro c hc
  obtain ⟨C, hC⟩ := hg c hc
  obtain ⟨C', hC'⟩ := hh c hc
  refine ⟨C + C', fun x => ?_⟩
  rw [add_mul]
  exact (abs_add_le _ _).trans (add_le_add (hC x) (hC' x))

theorem SubExp.bdd {g : (Fin d → ℝ) → ℝ} {C : ℝ} (hg : ∀ x, |g x| ≤ C) : SubExp g := by
  intro c hc
  refine ⟨C, fun x => (hg x).trans ?_⟩
  have h0 : 0 ≤ C := (abs_nonneg _).trans (hg x)
  have : (1 : ℝ) ≤ Real.exp (c * ∑ j, |x j|) := Real.one_le_exp (mul_nonneg hc.le (Finset.sum_nonneg fun _ _ => abs_nonneg _))
  nlinarith

theorem SubExp.coord (j : Fin d) : SubExp fun x => x j := by
  intro c hc
  refine ⟨1 / c, fun x => ?_⟩
  have h0 : (0 : ℝ) ≤ ∑ j, |x j| := Finset.sum_nonneg fun _ _ => abs_nonneg _
  have h1 : |x j| ≤ ∑ j, |x j| := Finset.single_le_sum (f := fun j => |x j|) (fun _ _ => abs_nonneg _) (Finset.mem_univ j)
  have h2 := Real.add_one_le_exp (c * ∑ j, |x j|)
  rw [div_mul_eq_mul_div, one_mul, le_div_iff₀ hc]
  nlinarith

theorem SubExp.pow {g : (Fin d → ℝ) → ℝ} (hg : SubExp g) (k : ℕ) : SubExp fun x => g x ^ k := by
  induction k with
  | zero => simpa using SubExp.bdd (g := fun _ : Fin d → ℝ => (1 : ℝ)) (C := 1) (by simp)
  | succ k ih => simpa [pow_succ] using ih.mul hg

theorem SubExp.sq {g : (Fin d → ℝ) → ℝ} (hg : SubExp g) : SubExp fun x => g x ^ 2 := hg.pow 2

theorem SubExp.poly (p : MvPolynomial (Fin d) ℝ) : SubExp fun x => MvPolynomial.eval x p := by
  induction p using MvPolynomial.induction_on with
  | C a => simpa using SubExp.bdd (g := fun _ : Fin d → ℝ => a) (C := |a|) (by simp)
  | add p q hp hq => simpa using hp.add hq
  | mul_X p j hp => simpa using hp.mul (SubExp.coord j)

theorem SubExp.growth {f : ℝ → ℝ} (hf : PolyGrowth f) (j : Fin d) : SubExp fun x => f (x j) := by
  obtain ⟨C, k, h0, h⟩ := hf.nonneg
  have h1 : SubExp fun x : Fin d → ℝ => C * (1 + (x j ^ k) ^ 2) :=
    (SubExp.bdd (C := |C|) fun _ => le_rfl).mul ((SubExp.bdd (C := |1|) fun _ => le_rfl).add (((SubExp.coord j).pow k).pow 2))
  have h2 : SubExp fun x : Fin d → ℝ => 2 * (C * (1 + (x j ^ k) ^ 2)) := (SubExp.bdd (C := |2|) fun _ => le_rfl).mul h1
  intro c hc
  obtain ⟨C', hC'⟩ := h2 c hc
  refine ⟨C', fun x => (h (x j)).trans (le_trans ?_ ((le_abs_self _).trans (hC' x)))⟩
  rw [← abs_pow]
  have : |x j ^ k| ≤ 1 + (x j ^ k) ^ 2 := by
    rcases abs_cases (x j ^ k) with ⟨e, _⟩ | ⟨e, _⟩ <;> rw [e] <;> nlinarith [sq_nonneg (x j ^ k - 1), sq_nonneg (x j ^ k + 1)]
  nlinarith [sq_nonneg (x j ^ k)]

variable {μ : Measure (Fin d → ℝ)}

theorem SubExp.integrable (hμ : SomeExpMomentND μ) {g : (Fin d → ℝ) → ℝ} (hg : SubExp g) (hc : Continuous g) : Integrable g μ := by
  obtain ⟨c, hc0, hi⟩ := hμ
  obtain ⟨C, hC⟩ := hg c hc0
  exact (hi.const_mul C).mono' hc.aestronglyMeasurable (.of_forall fun x => hC x)

theorem SubExp.memLp (hμ : SomeExpMomentND μ) {g : (Fin d → ℝ) → ℝ} (hg : SubExp g) (hc : Continuous g) : MemLp g 2 μ := by
  rw [memLp_two_iff_integrable_sq hc.aestronglyMeasurable]
  exact hg.sq.integrable hμ (hc.pow 2)

theorem integrable_poly (hμ : SomeExpMomentND μ) (p : MvPolynomial (Fin d) ℝ) : Integrable (fun x => MvPolynomial.eval x p) μ :=
  (SubExp.poly p).integrable hμ (MvPolynomial.continuous_eval p)

/-! ### the law of one coordinate under the density `q²` -/

/-- the law of `xⱼ` under `q² μ`. -/
noncomputable def sqLaw (μ : Measure (Fin d → ℝ)) (q : MvPolynomial (Fin d) ℝ) (j : Fin d) : Measure ℝ :=
  (μ.withDensity fun x => ENNReal.ofReal (MvPolynomial.eval x q ^ 2)).map fun x => x j

theorem measurable_sq (q : MvPolynomial (Fin d) ℝ) : Measurable fun x => ENNReal.ofReal (MvPolynomial.eval x q ^ 2) :=
  ((MvPolynomial.continuous_eval q).pow 2).measurable.ennreal_ofReal

theorem integral_sqLaw (q : MvPolynomial (Fin d) ℝ) (j : Fin d) {f : ℝ → ℝ} (hf : Continuous f) :
    ∫ t, f t ∂sqLaw μ q j = ∫ x, f (x j) * MvPolynomial.eval x q ^ 2 ∂μ := by
  rw [sqLaw, integral_map (measurable_pi_apply j).aemeasurable hf.aestronglyMeasurable,
    integral_withDensity_eq_integral_toReal_smul (measurable_sq q) (.of_forall fun _ => ENNReal.ofReal_lt_top)]
  refine integral_congr_ae (.of_forall fun x => ?_)
  simp only [ENNReal.toReal_ofReal (sq_nonneg _), smul_eq_mul]
  ring

theorem integrable_sqLaw (q : MvPolynomial (Fin d) ℝ) (j : Fin d) {f : ℝ → ℝ} (hf : Continuous f)
    (h : Integrable (fun x => f (x j) * MvPolynomial.eval x q ^ 2) μ) : Integrable f (sqLaw μ q j) := by
  rw [sqLaw, integrable_map_measure hf.aestronglyMeasurable (measurable_pi_apply j).aemeasurable,
    integrable_withDensity_iff_integrable_smul' (measurable_sq q) (.of_forall fun _ => ENNReal.ofReal_lt_top)]
  refine h.congr (.of_forall fun x => ?_)
  simp only [ENNReal.toReal_ofReal (sq_nonneg _), smul_eq_mul, Function.comp_apply]
  ring

theorem finite_sqLaw (hμ : SomeExpMomentND μ) (q : MvPolynomial (Fin d) ℝ) (j : Fin d) : IsFiniteMeasure (sqLaw μ q j) := by
  have h : Integrable (fun _ : ℝ => (1 : ℝ)) (sqLaw μ q j) := integrable_sqLaw q j continuous_const (by
    simpa using (SubExp.poly q).sq.integrable hμ ((MvPolynomial.continuous_eval q).pow 2))
  exact (integrable_const_iff_isFiniteMeasure one_ne_zero).1 h

theorem some_sqLaw (hμ : SomeExpMomentND μ) (q : MvPolynomial (Fin d) ℝ) (j : Fin d) : SomeExpMoment (sqLaw μ q j) := by
  obtain ⟨c, hc, hi⟩ := hμ
  refine ⟨c / 2, half_pos hc, integrable_sqLaw q j (by fun_prop) ?_⟩
  obtain ⟨C, hC⟩ := (SubExp.poly q).sq (c / 2) (half_pos hc)
  have hcont : Continuous fun x : Fin d → ℝ => Real.exp (c / 2 * |x j|) * MvPolynomial.eval x q ^ 2 := by
    have := MvPolynomial.continuous_eval q
    fun_prop
  refine (hi.const_mul C).mono' hcont.aestronglyMeasurable (.of_forall fun x => ?_)
  have h1 : |x j| ≤ ∑ j, |x j| := Finset.single_le_sum (f := fun j => |x j|) (fun _ _ => abs_nonneg _) (Finset.mem_univ j)
  have h2 : Real.exp (c / 2 * |x j|) ≤ Real.exp (c / 2 * ∑ j, |x j|) := Real.exp_le_exp.2 (by nlinarith)
  rw [Real.norm_eq_abs, abs_mul, abs_of_pos (Real.exp_pos _)]
  refine (mul_le_mul h2 (hC x) (abs_nonneg _) (Real.exp_pos _).le).trans (le_of_eq ?_)
  rw [show c * ∑ j, |x j| = c / 2 * ∑ j, |x j| + c / 2 * ∑ j, |x j| by ring, Real.exp_add]
  ring

/-! ### spectral measures -/

theorem integral_ruleMeas_nonneg {n : ℕ} {r : (Fin n → ℝ) × (Fin n → ℝ)} (h : ∀ i, 0 ≤ r.1 i) (f : ℝ → ℝ) :
    ∫ x, f x ∂ruleMeas r = ∑ i, r.1 i * f (r.2 i) := by
  rw [ruleMeas, integral_finsetSum_measure fun i _ => (integrable_dirac (by simp)).smul_measure ENNReal.ofReal_ne_top]
  refine Finset.sum_congr rfl fun i _ => ?_
  rw [integral_smul_measure, integral_dirac, ENNReal.toReal_ofReal (h i), smul_eq_mul]

theorem isProb_ruleMeas {n : ℕ} {r : (Fin n → ℝ) × (Fin n → ℝ)} (h : ∀ i, 0 ≤ r.1 i) (h1 : ∑ i, r.1 i = 1) :
    IsProbabilityMeasure (ruleMeas r) := by
  constructor
  simp only [ruleMeas, Measure.finsetSum_apply, Measure.smul_apply, measure_univ, smul_eq_mul, mul_one]
  rw [← ENNReal.ofReal_sum_of_nonneg fun i _ => h i, h1, ENNReal.ofReal_one]

section
variable {z : ℕ} {K U : Matrix (Fin z) (Fin z) ℝ} {lam : Fin z → ℝ}

/-- the quadratic form of a function of a matrix. -/
theorem dot_funMat (f : ℝ → ℝ) (v : Fin z → ℝ) : v ⬝ᵥ (funMat U lam f *ᵥ v) = ∑ i, (Uᵀ *ᵥ v) i ^ 2 * f (lam i) := by
  rw [funMat, ← Matrix.mulVec_mulVec, ← Matrix.mulVec_mulVec, Matrix.dotProduct_mulVec, ← Matrix.mulVec_transpose]
  simp only [dotProduct, Matrix.mulVec_diagonal]
  exact Finset.sum_congr rfl fun i _ => by ring

theorem funMat_transpose (f : ℝ → ℝ) : (funMat U lam f)ᵀ = funMat U lam f := by
  rw [funMat, Matrix.transpose_mul, Matrix.transpose_mul, Matrix.transpose_transpose, Matrix.diagonal_transpose, Matrix.mul_assoc]

theorem funMat_mul (h : IsEigh K U lam) (f g : ℝ → ℝ) : funMat U lam f * funMat U lam g = funMat U lam fun t => f t * g t := by
  simp only [funMat]
  calc U * diagonal (fun i => f (lam i)) * Uᵀ * (U * diagonal (fun i => g (lam i)) * Uᵀ)
      = U * diagonal (fun i => f (lam i)) * (Uᵀ * U) * diagonal (fun i => g (lam i)) * Uᵀ := by simp only [Matrix.mul_assoc]
    _ = _ := by rw [h.orth', Matrix.mul_one, Matrix.mul_assoc U, Matrix.diagonal_mul_diagonal]

theorem funMat_sub (f g : ℝ → ℝ) : funMat U lam f - funMat U lam g = funMat U lam fun t => f t - g t := by
  ext a b
  rw [Matrix.sub_apply, funMat_apply, funMat_apply, funMat_apply, ← Finset.sum_sub_distrib]
  exact Finset.sum_congr rfl fun i _ => by ring

/-- the square of the norm. -/
theorem normSq_funMat (h : IsEigh K U lam) (f : ℝ → ℝ) (v : Fin z → ℝ) :
    (funMat U lam f *ᵥ v) ⬝ᵥ (funMat U lam f *ᵥ v) = v ⬝ᵥ (funMat U lam (fun t => f t ^ 2) *ᵥ v) := by
  conv_lhs => rw [Matrix.dotProduct_mulVec, ← Matrix.mulVec_transpose, funMat_transpose, Matrix.mulVec_mulVec, funMat_mul h]
  rw [dotProduct_comm]
  simp only [sq]

end

/-! ### vectors and polynomials -/

/-- the polynomials of degree below `N` as vectors: the inner product is that of the law, and the matrices multiply by the coordinates
as long as the degree stays below `N`. -/
structure PolyVec (N : ℕ) {z : ℕ} (L : MvPolynomial (Fin d) ℝ →ₗ[ℝ] ℝ) (K : Fin d → Matrix (Fin z) (Fin z) ℝ)
    (vec : MvPolynomial (Fin d) ℝ →ₗ[ℝ] (Fin z → ℝ)) : Prop where
  dot : ∀ p q, p.totalDegree < N → q.totalDegree < N → vec p ⬝ᵥ vec q = L (p * q)
  mul : ∀ j q, q.totalDegree + 1 < N → K j *ᵥ vec q = vec (MvPolynomial.X j * q)

section
variable {N z : ℕ} {L : MvPolynomial (Fin d) ℝ →ₗ[ℝ] ℝ} {K : Fin d → Matrix (Fin z) (Fin z) ℝ}
  {vec : MvPolynomial (Fin d) ℝ →ₗ[ℝ] (Fin z → ℝ)}

theorem totalDegree_X_pow_mul (j : Fin d) (k : ℕ) (q : MvPolynomial (Fin d) ℝ) :
    (MvPolynomial.X j ^ k * q).totalDegree ≤ k + q.totalDegree := by
  refine (MvPolynomial.totalDegree_mul _ _).trans ?_
  rw [MvPolynomial.totalDegree_X_pow]

theorem PolyVec.pow (h : PolyVec N L K vec) (j : Fin d) (k : ℕ) (q : MvPolynomial (Fin d) ℝ) (hq : q.totalDegree + k < N) :
    K j ^ k *ᵥ vec q = vec (MvPolynomial.X j ^ k * q) := by
  induction k with
  | zero => simp
  | succ k ih =>
    rw [pow_succ', ← Matrix.mulVec_mulVec, ih (by omega), h.mul j _ (by have := totalDegree_X_pow_mul j k q; omega), pow_succ']
    congr 1
    ring

theorem PolyVec.poly (h : PolyVec N L K vec) (j : Fin d) (p : Polynomial ℝ) (q : MvPolynomial (Fin d) ℝ)
    (hq : q.totalDegree + p.natDegree < N) :
    Polynomial.aeval (K j) p *ᵥ vec q = vec (Polynomial.aeval (MvPolynomial.X j) p * q) := by
  rw [Polynomial.aeval_eq_sum_range, Polynomial.aeval_eq_sum_range, Finset.sum_mul, map_sum, Matrix.sum_mulVec]
  refine Finset.sum_congr rfl fun k hk => ?_
  rw [Matrix.smul_mulVec, h.pow j k q (by have := Finset.mem_range.1 hk; omega), smul_mul_assoc, map_smul]

/-- the vectors of the rule. -/
theorem exists_polyVec {m : (Fin d → ℕ) → ℝ} {basis : Fin z → (Fin d → ℕ)} {z0 : Fin z} {G R : Matrix (Fin z) (Fin z) ℝ}
    {H : Fin d → Matrix (Fin z) (Fin z) ℝ} (D : MomentData N m basis z0 G R H) (hN : 1 ≤ N)
    (hm : ∀ α : Fin d →₀ ℕ, m α = L (MvPolynomial.monomial α 1)) :
    ∃ vec, PolyVec N L (fun j => multMat R (H j)) vec ∧ vec 1 = rowVec R z0 := by
  classical
  have hs : ∀ α : Fin d →₀ ℕ, ∃ a, ∑ j, α j < N → basis a = α := fun α => by
    by_cases h : ∑ j, α j < N
    · obtain ⟨a, ha⟩ := D.surj α h
      exact ⟨a, fun _ => ha⟩
    · exact ⟨z0, fun h' => absurd h' h⟩
  choose idx hidx using hs
  -- the basis is injective since the Gram matrix is invertible
  have hrow : ∀ a b, basis a = basis b → rowVec R a = rowVec R b := by
    intro a b hab
    have hG : ∀ c, G a c = G b c := fun c => by rw [D.G_eq, D.G_eq, hab]
    have h0 : (rowVec R a - rowVec R b) ⬝ᵥ (rowVec R a - rowVec R b) = 0 := by
      rw [sub_dotProduct, dotProduct_sub, dotProduct_sub, D.chol.rowVec_dot, D.chol.rowVec_dot, D.chol.rowVec_dot, D.chol.rowVec_dot, hG a, hG b]
      ring
    exact sub_eq_zero.1 (dotProduct_self_eq_zero.1 h0)
  set vec : MvPolynomial (Fin d) ℝ →ₗ[ℝ] (Fin z → ℝ) :=
    (MvPolynomial.basisMonomials (Fin d) ℝ).constr ℝ fun α => rowVec R (idx α) with hvec
  have hmon : ∀ α : Fin d →₀ ℕ, vec (MvPolynomial.monomial α 1) = rowVec R (idx α) := fun α => by
    have := (MvPolynomial.basisMonomials (Fin d) ℝ).constr_basis ℝ (fun α => rowVec R (idx α)) α
    rwa [MvPolynomial.coe_basisMonomials] at this
  have hsum : ∀ p : MvPolynomial (Fin d) ℝ, p = ∑ α ∈ p.support, p.coeff α • MvPolynomial.monomial α (1 : ℝ) := fun p => by
    conv_lhs => rw [p.as_sum]
    refine Finset.sum_congr rfl fun α _ => ?_
    rw [MvPolynomial.smul_monomial, smul_eq_mul, mul_one]
  have hdeg : ∀ (p : MvPolynomial (Fin d) ℝ), ∀ α ∈ p.support, ∑ j, α j ≤ p.totalDegree := fun p α hα => by
    have := MvPolynomial.le_totalDegree hα
    rwa [Finsupp.sum_fintype _ _ (fun _ => rfl)] at this
  refine ⟨vec, ⟨fun p q hp hq => ?_, fun j q hq => ?_⟩, ?_⟩
  · conv_lhs => rw [hsum p, hsum q]
    conv_rhs => rw [hsum p, hsum q]
    rw [Finset.sum_mul_sum, map_sum, map_sum, sum_dotProduct, map_sum]
    refine Finset.sum_congr rfl fun α hα => ?_
    rw [dotProduct_sum, map_sum]
    refine Finset.sum_congr rfl fun β hβ => ?_
    rw [map_smul, map_smul, smul_dotProduct, dotProduct_smul, hmon, hmon, D.chol.rowVec_dot, D.G_eq,
      hidx α (by have := hdeg p α hα; omega), hidx β (by have := hdeg q β hβ; omega), smul_mul_smul_comm, map_smul,
      MvPolynomial.monomial_mul, mul_one, ← hm, smul_eq_mul, smul_eq_mul, smul_eq_mul, mul_assoc]
    rfl
  · conv_lhs => rw [hsum q]
    conv_rhs => rw [hsum q]
    rw [Finset.mul_sum, map_sum, map_sum, Matrix.mulVec_sum]
    refine Finset.sum_congr rfl fun α hα => ?_
    have h1 := hdeg q α hα
    rw [map_smul, Matrix.mulVec_smul, mul_smul_comm, map_smul, hmon]
    have e : (MvPolynomial.X j : MvPolynomial (Fin d) ℝ) * MvPolynomial.monomial α 1 = MvPolynomial.monomial (α + Finsupp.single j 1) 1 := by
      rw [MvPolynomial.X, MvPolynomial.monomial_mul, mul_one, add_comm]
    have hs : ∑ i, (α + Finsupp.single j 1 : Fin d →₀ ℕ) i < N := by
      simp only [Finsupp.add_apply, Finset.sum_add_distrib, Finsupp.single_apply]
      simp
      omega
    rw [e, hmon]
    congr 1
    refine D.chol.multMat_rowVec _ _ fun c => ?_
    rw [D.H_eq, D.G_eq, hidx _ hs, hidx α (by omega), add_assoc]
    congr 2
    rw [Finsupp.coe_add, Finsupp.single_eq_pi_single]
  · rw [show (1 : MvPolynomial (Fin d) ℝ) = MvPolynomial.monomial 0 1 from rfl, hmon]
    refine hrow _ _ ?_
    rw [hidx 0 (by simp; omega), D.basis0]
    rfl

end

end Mfs.StrongND

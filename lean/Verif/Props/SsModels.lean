import Verif.Model.SsModels
import Mathlib.Analysis.SpecialFunctions.Exponential
import Mathlib.Analysis.Calculus.Deriv.Inv
import Mathlib.Analysis.SpecialFunctions.Trigonometric.Deriv
import Mathlib.Tactic.Linarith
import Mathlib.Tactic.FieldSimp
import Mathlib.Tactic.Positivity

/-!
# C83, C94, C104: state-space models
-/

namespace Mfs.Props

open Mfs.SsModels

/-- **C83 (Bernoulli likelihoods).** The likelihoods of `benes_bernoulli` and `prey_predator` lie strictly between 0 and 1 for `y` in
`{0, 1}`, sum to one and vanish elsewhere; the success probability of `benes_bernoulli` is `1 / (1 + exp(-x³/5))` and increases in the state. -/
theorem C83_bernoulli :
    (∀ x : ℝ, (0 < benesPmf 0 x ∧ benesPmf 0 x < 1) ∧ (0 < benesPmf 1 x ∧ benesPmf 1 x < 1) ∧ benesPmf 0 x + benesPmf 1 x = 1 ∧
      ∀ y : ℤ, y ≠ 0 → y ≠ 1 → benesPmf y x = 0) ∧
    (∀ x : Fin 2 → ℝ, (0 < preyPmf 0 x ∧ preyPmf 0 x < 1) ∧ (0 < preyPmf 1 x ∧ preyPmf 1 x < 1) ∧ preyPmf 0 x + preyPmf 1 x = 1 ∧
      ∀ y : ℤ, y ≠ 0 → y ≠ 1 → preyPmf y x = 0) ∧
    StrictMono (benesPmf 1) ∧ (∀ x x' : Fin 2 → ℝ, x 0 < x' 0 → preyPmf 1 x < preyPmf 1 x') ∧
    (∀ x, benesPmf 1 x = 1 / (1 + Real.exp (-(x ^ 3 / 5)))) ∧ (∀ x : Fin 2 → ℝ, preyPmf 1 x = 1 / (1 + Real.exp (1 - x 0 ^ 3))) := by
  have key : ∀ e : ℝ, 0 < e → ∀ p, p = 1 / (1 + e) →
      (0 < bernoulliPmf 0 p ∧ bernoulliPmf 0 p < 1) ∧ (0 < bernoulliPmf 1 p ∧ bernoulliPmf 1 p < 1) ∧
        bernoulliPmf 0 p + bernoulliPmf 1 p = 1 ∧ ∀ y : ℤ, y ≠ 0 → y ≠ 1 → bernoulliPmf y p = 0 := by
    rintro e he p rfl
    have h1 : 0 < 1 / (1 + e) := by positivity
    have h2 : 1 / (1 + e) < 1 := by rw [div_lt_one (by positivity)]; linarith
    have e0 : ∀ q, bernoulliPmf 0 q = 1 - q := fun q => if_pos rfl
    have e1 : ∀ q, bernoulliPmf 1 q = q := fun q => by rw [bernoulliPmf, if_neg one_ne_zero, if_pos rfl]
    rw [e0, e1]
    refine ⟨⟨by linarith, by linarith⟩, ⟨h1, h2⟩, by ring, fun y hy0 hy1 => by rw [bernoulliPmf, if_neg hy0, if_neg hy1]⟩
  have hcube : ∀ {x x' : ℝ}, x < x' → x ^ 3 < x' ^ 3 := fun h => (Odd.strictMono_pow (by decide : Odd 3)) h
  have e1 : ∀ q, bernoulliPmf 1 q = q := fun q => by rw [bernoulliPmf, if_neg one_ne_zero, if_pos rfl]
  refine ⟨fun x => key _ (Real.exp_pos _) _ rfl, fun x => key _ (Real.exp_pos _) _ rfl, ?_, ?_, fun x => ?_, fun x => ?_⟩
  · intro x x' h
    simp only [benesPmf, e1, logistic]
    refine one_div_lt_one_div_of_lt (by positivity) ?_
    have := Real.exp_lt_exp.2 (by have := hcube h; linarith : -x' ^ 3 / 5 < -x ^ 3 / 5)
    linarith
  · intro x x' h
    simp only [preyPmf, e1, preyEmission]
    refine one_div_lt_one_div_of_lt (by positivity) ?_
    have := Real.exp_lt_exp.2 (by have := hcube h; linarith : -x' 0 ^ 3 + 1 < -x 0 ^ 3 + 1)
    linarith
  · rw [benesPmf, e1, logistic, neg_div]
  · rw [preyPmf, e1, preyEmission, neg_add_eq_sub]

/-- **C83 (Poisson likelihood).** The emission of `well_poisson` is positive, and the likelihood is the Poisson mass function
`mu ^ y e ^ (-mu) / y!`, positive and summing to one over the naturals, with mean `mu`. -/
theorem C83_poisson (x p : ℝ) :
    0 < wellEmission x p ∧ (∀ y : ℕ, 0 < wellPmf y x p) ∧
    (∀ y : ℕ, wellPmf y x p = wellEmission x p ^ y * Real.exp (-wellEmission x p) / y.factorial) ∧
    HasSum (fun y : ℕ => wellPmf y x p) 1 ∧ HasSum (fun y : ℕ => (y : ℝ) * wellPmf y x p) (wellEmission x p) := by
  have hpos : 0 < wellEmission x p := Real.log_pos (by linarith [Real.exp_pos (p * x)])
  have hval : ∀ y : ℕ, wellPmf y x p = wellEmission x p ^ y * Real.exp (-wellEmission x p) / y.factorial := by
    intro y
    have hf : (0 : ℝ) < y.factorial := by exact_mod_cast y.factorial_pos
    rw [wellPmf, poissonPmf, sub_eq_add_neg, sub_eq_add_neg, Real.exp_add, Real.exp_add, Real.exp_neg (Real.log _), Real.exp_log hf,
      Real.exp_nat_mul, Real.exp_log hpos]
    rfl
  have hs : HasSum (fun y : ℕ => wellEmission x p ^ y / y.factorial) (Real.exp (wellEmission x p)) := by
    rw [Real.exp_eq_exp_ℝ]
    exact NormedSpace.expSeries_div_hasSum_exp (wellEmission x p)
  refine ⟨hpos, fun y => Real.exp_pos _, hval, ?_, ?_⟩
  · have := hs.mul_right (Real.exp (-wellEmission x p))
    rw [← Real.exp_add, add_neg_cancel, Real.exp_zero] at this
    refine this.congr_fun ?_
    intro y
    rw [hval]; ring
  · have := (hs.mul_left (wellEmission x p)).mul_right (Real.exp (-wellEmission x p))
    rw [mul_assoc, ← Real.exp_add, add_neg_cancel, Real.exp_zero, mul_one] at this
    rw [← hasSum_nat_add_iff' 1]
    simp only [Finset.range_one, Finset.sum_singleton, Nat.cast_zero, zero_mul, sub_zero]
    refine this.congr_fun ?_
    intro y
    rw [hval, Nat.factorial_succ]
    have hf : (0 : ℝ) < y.factorial := by exact_mod_cast y.factorial_pos
    have hy : (0 : ℝ) < (y : ℝ) + 1 := by positivity
    push_cast
    field_simp
    ring

/-! ## C94 -/

/-- **C94 (Beneš).** The drift of `benes_bernoulli` satisfies the Beneš condition `a' + a² = 1`. -/
theorem C94_benes (x : ℝ) : HasDerivAt benesDrift (1 - benesDrift x ^ 2) x := by
  have hc : Real.cosh x ≠ 0 := (Real.cosh_pos x).ne'
  have h := (Real.hasDerivAt_sinh x).div (Real.hasDerivAt_cosh x) hc
  have e : benesDrift = fun x => Real.sinh x / Real.cosh x := funext fun x => Real.tanh_eq_sinh_div_cosh x
  rw [e]
  refine h.congr_deriv ?_
  have := Real.cosh_sq x
  field_simp

/-- **C94 (prey–predator).** The drift is the Lotka–Volterra field; it vanishes at the equilibria `(0, 0)` and `(gamma/delta, alp/beta)`
and conserves `delta x₀ - gamma log x₀ + beta x₁ - alp log x₁`; a species that is extinct stays so in `drift`, `dispersion` and in
every Milstein step. -/
theorem C94_prey_predator (alp beta delta gamma sigma ddt : ℝ) (x w : Fin 2 → ℝ) :
    preyDrift alp beta delta gamma x 0 = alp * x 0 - beta * x 0 * x 1 ∧
    preyDrift alp beta delta gamma x 1 = delta * x 0 * x 1 - gamma * x 1 ∧
    (delta ≠ 0 → beta ≠ 0 → preyDrift alp beta delta gamma ![gamma / delta, alp / beta] = 0) ∧
    (x 0 ≠ 0 → x 1 ≠ 0 → (delta - gamma / x 0) * preyDrift alp beta delta gamma x 0
      + (beta - alp / x 1) * preyDrift alp beta delta gamma x 1 = 0) ∧
    ∀ i, x i = 0 → preyDrift alp beta delta gamma x i = 0 ∧ (∀ j, preyDispersion sigma x i j = 0) ∧
      preyMilstein alp beta delta gamma sigma ddt x w i = 0 := by
  have h0 : ∀ x : Fin 2 → ℝ, preyDrift alp beta delta gamma x 0 = alp * x 0 - beta * x 0 * x 1 := by
    intro x; simp [preyDrift]; ring
  have h1 : ∀ x : Fin 2 → ℝ, preyDrift alp beta delta gamma x 1 = delta * x 0 * x 1 - gamma * x 1 := by
    intro x; simp [preyDrift]; ring
  refine ⟨h0 x, h1 x, ?_, ?_, ?_⟩
  · intro hd hb
    funext i
    fin_cases i
    · show preyDrift _ _ _ _ _ 0 = 0
      rw [h0]; simp; field_simp; ring
    · show preyDrift _ _ _ _ _ 1 = 0
      rw [h1]; simp; field_simp; ring
  · intro hx hy
    rw [h0, h1]
    field_simp
    ring
  · intro i hi
    have hz : preyDrift alp beta delta gamma x i = 0 := by rw [preyDrift, hi, zero_mul]
    refine ⟨hz, fun j => ?_, ?_⟩
    · rw [preyDispersion, hi, mul_zero, ite_self]
    · rw [preyMilstein, hz, hi]; ring

example : preyDrift 4 4 4 4 ![1, 1] = 0 := by
  have := (C94_prey_predator 4 4 4 4 0 0 0 0).2.2.1 (by norm_num) (by norm_num)
  norm_num at this
  exact this

/-! ## C104 -/

/-- **C104 (satellite).** For the satellite model `V(θ, ω) = ω²/2 + (1 - cos θ) + c/2 (1 - cos 2θ)` changes along the drift at the rate
`-b ω²` (damping for `b ≥ 0`), the states `(kπ, 0)` are fixed points of drift and dispersion, and the noise acts on the velocity only. -/
theorem C104_satellite (a b c : ℝ) :
    (∀ θ ω : ℝ, HasDerivAt (fun t => (ω + t * satelliteDrift b c ![θ, ω] 1) ^ 2 / 2 + (1 - Real.cos (θ + t * satelliteDrift b c ![θ, ω] 0))
        + c / 2 * (1 - Real.cos (2 * (θ + t * satelliteDrift b c ![θ, ω] 0)))) (-b * ω ^ 2) 0) ∧
    (∀ k : ℤ, satelliteDrift b c ![k * Real.pi, 0] = 0 ∧ satelliteDispersion a b ![k * Real.pi, 0] = 0) ∧
    ∀ x j, satelliteDispersion a b x 0 j = 0 ∧ satelliteDispersion a b x j 0 = 0 := by
  refine ⟨?_, ?_, ?_⟩
  · intro θ ω
    have e0 : satelliteDrift b c ![θ, ω] 0 = ω := rfl
    have e1 : satelliteDrift b c ![θ, ω] 1 = -b * ω - Real.sin θ - c * Real.sin (2 * θ) := rfl
    rw [e0, e1]
    set g := -b * ω - Real.sin θ - c * Real.sin (2 * θ) with hg
    have h1 : HasDerivAt (fun t : ℝ => ω + t * g) g 0 := by simpa using ((hasDerivAt_id (0:ℝ)).mul_const g).const_add ω
    have h2 : HasDerivAt (fun t : ℝ => θ + t * ω) ω 0 := by simpa using ((hasDerivAt_id (0:ℝ)).mul_const ω).const_add θ
    have h3 := (h1.pow 2).div_const 2
    have h4 := (h2.cos).const_sub 1
    have h5 := (((h2.const_mul 2).cos).const_sub 1).const_mul (c / 2)
    refine (HasDerivAt.add (HasDerivAt.add h3 h4) h5).congr_deriv ?_
    simp only [zero_mul, add_zero, hg]
    push_cast
    ring
  · intro k
    have h1 : Real.sin (k * Real.pi) = 0 := Real.sin_int_mul_pi k
    have h2 : Real.sin (2 * (k * Real.pi)) = 0 := by
      have := Real.sin_int_mul_pi (2 * k)
      push_cast at this
      rwa [mul_assoc] at this
    constructor
    · funext i
      fin_cases i <;> simp [satelliteDrift, h1, h2]
    · funext i j
      fin_cases i <;> fin_cases j <;> simp [satelliteDispersion, h1]
  · intro x j
    fin_cases j <;> simp [satelliteDispersion]

/-- **C104 (Milstein).** The integrator of `prey_predator.simulate` is the Milstein scheme for its diagonal noise: the correction is
half the dispersion times its derivative times `ddw² - ddt`. -/
theorem C104_milstein (alp beta delta gamma sigma ddt : ℝ) (x ddw : Fin 2 → ℝ) (i : Fin 2) :
    preyMilstein alp beta delta gamma sigma ddt x ddw i
      = x i + preyDrift alp beta delta gamma x i * ddt + preyDispersion sigma x i i * ddw i
        + 1 / 2 * preyDispersion sigma x i i * deriv (fun u => preyDispersion sigma (Function.update x i u) i i) (x i) * (ddw i ^ 2 - ddt) := by
  have h : deriv (fun u => preyDispersion sigma (Function.update x i u) i i) (x i) = sigma := by
    have e : (fun u => preyDispersion sigma (Function.update x i u) i i) = fun u => sigma * u := by
      funext u; simp [preyDispersion]
    rw [e, deriv_const_mul_field]
    simp
  rw [h, preyMilstein, preyDispersion, if_pos rfl]
  ring

/-- **C104 (double well).** The drift of `well_poisson` is minus the derivative of the double-well potential `p x⁴/4 - x²/2`, whose wells
`±1/√p` and hump `0` are the equilibria; it points towards the wells. -/
theorem C104_well (p : ℝ) (hp : 0 < p) (x : ℝ) :
    HasDerivAt (fun x => p * x ^ 4 / 4 - x ^ 2 / 2) (-wellDrift x p) x ∧
    (wellDrift x p = 0 ↔ x = 0 ∨ x = 1 / Real.sqrt p ∨ x = -(1 / Real.sqrt p)) ∧
    (0 < x → x < 1 / Real.sqrt p → 0 < wellDrift x p) ∧ (1 / Real.sqrt p < x → wellDrift x p < 0) := by
  have hs : 0 < Real.sqrt p := Real.sqrt_pos.2 hp
  have hsq : Real.sqrt p ^ 2 = p := Real.sq_sqrt hp.le
  have hfac : wellDrift x p = x * (1 - Real.sqrt p * x) * (1 + Real.sqrt p * x) := by
    rw [wellDrift]; nth_rewrite 1 [← hsq]; ring
  refine ⟨?_, ?_, ?_, ?_⟩
  · have h1 := (((hasDerivAt_id x).pow 4).const_mul p).div_const 4
    have h2 := ((hasDerivAt_id x).pow 2).div_const 2
    refine (HasDerivAt.sub h1 h2).congr_deriv ?_
    simp [wellDrift]
    ring
  · rw [hfac, mul_eq_zero, mul_eq_zero, or_assoc]
    have e1 : 1 - Real.sqrt p * x = 0 ↔ x = 1 / Real.sqrt p := by
      rw [eq_div_iff hs.ne']; constructor <;> intro h <;> linarith
    have e2 : 1 + Real.sqrt p * x = 0 ↔ x = -(1 / Real.sqrt p) := by
      rw [← neg_eq_iff_eq_neg, eq_div_iff hs.ne']; constructor <;> intro h <;> linarith
    rw [e1, e2]
  · intro h0 h1
    rw [lt_div_iff₀ hs] at h1
    rw [hfac]
    exact mul_pos (mul_pos h0 (by linarith)) (by nlinarith)
  · intro h1
    have hx : 0 < x := lt_trans (by positivity) h1
    rw [div_lt_iff₀ hs] at h1
    rw [hfac]
    exact mul_neg_of_neg_of_pos (mul_neg_of_pos_of_neg hx (by linarith)) (by nlinarith)

example : wellDrift (1 / 2) 1 = 3 / 8 := by norm_num [wellDrift]

end Mfs.Props

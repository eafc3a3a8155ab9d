import Verif.Lemmas.SigmaPoints
import Verif.Lemmas.HermiteRoots
import Mathlib.Algebra.MvPolynomial.Monad

/-!
# C72 – C75: sigma-point rules and the Runge–Kutta step
-/

namespace Mfs.Props

open Matrix Mfs.Spec Mfs.Classical MeasureTheory ProbabilityTheory

variable {d : ℕ}

/-! ## C72 -/

/-- a sum over the cubature points. -/
theorem cubature_sum (d : ℕ) (g : (Fin d → ℝ) → ℝ) :
    ∑ i, (SigmaPoints.cubature d).w i * g ((SigmaPoints.cubature d).xi i)
      = 1 / (2 * d : ℝ) * ∑ i : Fin d, (g (Pi.single i √d) + g (Pi.single i (-√d))) := by
  have h : ∑ i, (SigmaPoints.cubature d).w i * g ((SigmaPoints.cubature d).xi i)
      = ∑ i : Fin (2 * d), (1 / ((2 * d : ℕ) : ℝ)) * g (fun j => √d * (if (i : ℕ) < d then (if (i : ℕ) = j then 1 else 0)
          else (if (i : ℕ) - d = j then -1 else 0))) := rfl
  rw [h, ← Finset.mul_sum, Finset.sum_range (n := 2 * d) (f := fun i => g (fun j : Fin d => √d * (if i < d then (if i = j then 1 else 0)
          else (if i - d = j then -1 else 0)))) |>.symm, two_mul d, Finset.sum_range_add, Finset.sum_range, Finset.sum_range,
    ← Finset.sum_add_distrib]
  push_cast
  rw [← two_mul]
  refine congrArg _ (Finset.sum_congr rfl fun i _ => ?_)
  have e1 : (fun j : Fin d => √(d : ℝ) * (if (i : ℕ) < d then (if (i : ℕ) = j then 1 else 0) else (if (i : ℕ) - d = j then -1 else 0)))
      = Pi.single i √d := by
    funext j
    rw [if_pos i.2, Pi.single_apply]
    by_cases hj : j = i
    · rw [if_pos hj, if_pos (by rw [hj]), mul_one]
    · rw [if_neg hj, if_neg (fun e => hj (Fin.ext e.symm)), mul_zero]
  have e2 : (fun j : Fin d => √(d : ℝ) * (if d + (i : ℕ) < d then (if d + (i : ℕ) = j then 1 else 0)
      else (if d + (i : ℕ) - d = j then -1 else 0))) = Pi.single i (-√d) := by
    funext j
    rw [if_neg (by omega), Nat.add_sub_cancel_left, Pi.single_apply]
    by_cases hj : j = i
    · rw [if_pos hj, if_pos (by rw [hj])]; ring
    · rw [if_neg hj, if_neg (fun e => hj (Fin.ext e.symm)), mul_zero]
  rw [e1, e2]

/-- **C72.** The cubature rule has total weight one, mean zero, identity covariance and vanishing third moments. -/
theorem C72_cubature (d : ℕ) (hd : 1 ≤ d) : SecondOrder (SigmaPoints.cubature d).w (SigmaPoints.cubature d).xi ∧
    ∀ a b c, ∑ i, (SigmaPoints.cubature d).w i
      * ((SigmaPoints.cubature d).xi i a * (SigmaPoints.cubature d).xi i b * (SigmaPoints.cubature d).xi i c) = 0 := by
  have hd0 : (d : ℝ) ≠ 0 := by exact_mod_cast (by omega : d ≠ 0)
  have hs : √(d : ℝ) * √d = d := Real.mul_self_sqrt (Nat.cast_nonneg d)
  have neg_single : ∀ (i j : Fin d), (Pi.single i (-√(d : ℝ)) : Fin d → ℝ) j = -(Pi.single i √(d : ℝ) : Fin d → ℝ) j := by
    intro i j
    rw [Pi.single_apply, Pi.single_apply]; split_ifs <;> simp
  refine ⟨⟨?_, fun a => ?_, fun a b => ?_⟩, fun a b c => ?_⟩
  · have := cubature_sum d fun _ => 1
    simp only [mul_one] at this
    rw [this]
    simp
    field_simp
    norm_num
  · rw [cubature_sum d fun x => x a]
    simp only [neg_single, add_neg_cancel, Finset.sum_const_zero, mul_zero]
  · rw [cubature_sum d fun x => x a * x b]
    simp only [neg_single, neg_mul_neg]
    have : ∀ i : Fin d, (Pi.single i √(d : ℝ) : Fin d → ℝ) a * (Pi.single i √(d : ℝ) : Fin d → ℝ) b
        = if i = a then (if a = b then (d : ℝ) else 0) else 0 := by
      intro i
      rw [Pi.single_apply, Pi.single_apply]
      by_cases h1 : a = i <;> by_cases h2 : b = i
      · subst h1; subst h2; simp [hs]
      · subst h1; simp [h2, Ne.symm h2]
      · simp [h1, Ne.symm h1]
      · simp [h1, Ne.symm h1]
    simp only [this, ← two_mul, ← Finset.mul_sum]
    rw [Finset.sum_ite_eq' Finset.univ a, if_pos (Finset.mem_univ _)]
    split_ifs
    · field_simp
    · simp
  · rw [cubature_sum d fun x => x a * x b * x c]
    simp only [neg_single]
    rw [Finset.sum_eq_zero fun i _ => by ring, mul_zero]

/-- **C72 (generated points).** The points generated by any rule with second-order exactness from a mean `m` and a factor
`L` have mean `m` and covariance `L Lᵀ`; those of the cubature rule have in addition vanishing third central moments. -/
theorem C72_sigma_points (sgps : SigmaPoints d) (hr : SecondOrder sgps.w sgps.xi) (m : Fin d → ℝ) (L : Matrix (Fin d) (Fin d) ℝ) :
    sgps.expectation (sgps.genSigmaPoints m L) = m ∧
    sgps.expectation (fun i => vecMulVec (sgps.genSigmaPoints m L i - m) (sgps.genSigmaPoints m L i - m)) = L * Lᵀ := by
  refine ⟨expectation_chi hr m L, ?_⟩
  have : (fun i => vecMulVec (sgps.genSigmaPoints m L i - m) (sgps.genSigmaPoints m L i - m))
      = fun i => L * vecMulVec (sgps.xi i) (sgps.xi i) * Lᵀ := by
    funext i
    rw [SigmaPoints.genSigmaPoints, add_sub_cancel_left, vecMulVec_mulVec]
  rw [this, expectation_mul, expectation_xi_xi hr, Matrix.mul_one]

example : SecondOrder (SigmaPoints.cubature 3).w (SigmaPoints.cubature 3).xi := (C72_cubature 3 (by norm_num)).1

/-! ## C73 -/

/-- **C73.** Every entry of the roll table is the index of a one-dimensional node, every tuple of such indices is exactly one
column of the table, and so sums of products over the grid factorise. -/
theorem C73_roll_table (d order : ℕ) (roots : ℕ → ℝ) :
    (∀ (c : ℕ) (r : Fin d), c < order ^ d → rollTable d order r c < order) ∧
    (∀ t : Fin d → Fin order, ∃! c : ℕ, c < order ^ d ∧ ∀ r : Fin d, rollTable d order r c = t r) ∧
    (SigmaPoints.gaussHermite d order roots).nPoints = order ^ d ∧
    (∀ g : Fin d → ℝ → ℝ,
      ∑ c, (SigmaPoints.gaussHermite d order roots).w c * ∏ r, g r ((SigmaPoints.gaussHermite d order roots).xi c r)
        = ∏ r, ∑ j : Fin order, ghWeight1d order (roots j) / √Real.pi * g r (√2 * roots j)) := by
  refine ⟨fun c r hc => ?_, fun t => ?_, rfl, gaussHermite_factor d order roots⟩
  · have := rollTable_equiv d order ⟨c, hc⟩ r
    rw [this]
    exact Fin.is_lt _
  · refine ⟨finFunctionFinEquiv t, ⟨Fin.is_lt _, fun r => ?_⟩, ?_⟩
    · rw [rollTable_equiv d order (finFunctionFinEquiv t) r, Equiv.symm_apply_apply]
    · rintro c ⟨hc, h⟩
      have : finFunctionFinEquiv.symm ⟨c, hc⟩ = t := by
        funext r
        apply Fin.ext
        rw [← h r]
        exact (rollTable_equiv d order ⟨c, hc⟩ r).symm
      rw [← this, Equiv.apply_symm_apply]

example : (List.range 4).map (fun c => (rollTable 2 2 0 c, rollTable 2 2 1 c)) = [(0, 0), (1, 0), (0, 1), (1, 1)] := by decide

/-! ## C74 -/

/-- **C74.** If `roots` are distinct real roots of the polynomial handed to `np.roots`, the Gauss–Hermite rule integrates
exactly, under the standard normal law, every polynomial of degree at most `2 order - 1` in each variable. -/
theorem C74_gauss_hermite (d order : ℕ) (roots : ℕ → ℝ) (hinj : ∀ i j, i < order → j < order → roots i = roots j → i = j)
    (hroot : ∀ j, j < order → polyval ((genHermitePolyCoeff order).getLastD []) (roots j) = 0) (p : MvPolynomial (Fin d) ℝ)
    (hp : ∀ r, p.degreeOf r < 2 * order) :
    ∑ c, (SigmaPoints.gaussHermite d order roots).w c * MvPolynomial.eval ((SigmaPoints.gaussHermite d order roots).xi c) p
      = ∫ z, MvPolynomial.eval z p ∂Measure.pi fun _ : Fin d => gaussianReal 0 1 :=
  gaussHermite_exact d order roots hinj hroot p hp

/-- The root contract of C74 can be met for every order. -/
theorem C74_roots_exist (order : ℕ) : ∃ roots : ℕ → ℝ, (∀ i j, i < order → j < order → roots i = roots j → i = j) ∧
    ∀ j, j < order → polyval ((genHermitePolyCoeff order).getLastD []) (roots j) = 0 := Classical.exists_roots order

/-- **C74 (coefficients).** For `order ≥ 1` the coefficient lists are `H_0, …, H_order`, the physicists' Hermite
polynomials `H_i(x) = 2^(i/2) He_i(√2 x)`, highest degree first. -/
theorem C74_coefficients (order : ℕ) (ho : 1 ≤ order) : (genHermitePolyCoeff order).length = order + 1 ∧
    ∀ i, i ≤ order → ((genHermitePolyCoeff order).getD i []).length = i + 1 ∧
      ∀ x, polyval ((genHermitePolyCoeff order).getD i []) x
        = √2 ^ i * ((Polynomial.hermite i).map (Int.castRingHom ℝ)).eval (√2 * x) := by
  obtain ⟨n, rfl⟩ : ∃ n, order = n + 1 := ⟨order - 1, by omega⟩
  exact genHermite_spec n

theorem totalDegree_bind₁ {σ : Type*} (f : σ → MvPolynomial (Fin d) ℝ) (hf : ∀ i, (f i).totalDegree ≤ 1) (p : MvPolynomial σ ℝ) :
    (MvPolynomial.bind₁ f p).totalDegree ≤ p.totalDegree := by
  rw [MvPolynomial.bind₁, MvPolynomial.aeval_def, MvPolynomial.eval₂_eq]
  refine MvPolynomial.totalDegree_finsetSum_le fun s hs => ?_
  refine (MvPolynomial.totalDegree_mul _ _).trans ?_
  have h1 : ((algebraMap ℝ (MvPolynomial (Fin d) ℝ)) (MvPolynomial.coeff s p)).totalDegree = 0 := by
    rw [MvPolynomial.algebraMap_eq, MvPolynomial.totalDegree_C]
  rw [h1, zero_add]
  refine (MvPolynomial.totalDegree_finsetProd _ _).trans ?_
  refine le_trans ?_ (MvPolynomial.le_totalDegree hs)
  rw [Finsupp.sum]
  refine Finset.sum_le_sum fun i _ => ?_
  refine (MvPolynomial.totalDegree_pow _ _).trans ?_
  calc s i * (f i).totalDegree ≤ s i * 1 := Nat.mul_le_mul_left _ (hf i)
    _ = s i := mul_one _

/-- **C74 (`gaussian_expectation`).** For means `ms` and factors `chols` the routine returns, entry by entry, the exact
expectation `E[p(m + L Z)]`, `Z` standard normal, for every polynomial `p` of total degree at most `2 order - 1`. -/
theorem C74_gaussian_expectation (d order : ℕ) (roots : ℕ → ℝ)
    (hinj : ∀ i j, i < order → j < order → roots i = roots j → i = j)
    (hroot : ∀ j, j < order → polyval ((genHermitePolyCoeff order).getLastD []) (roots j) = 0) (p : MvPolynomial (Fin d) ℝ)
    (hp : p.totalDegree < 2 * order) (ms : List (Fin d → ℝ)) (chols : List (Matrix (Fin d) (Fin d) ℝ)) :
    gaussianExpectation d order roots ms chols (fun x => MvPolynomial.eval x p)
      = List.zipWith (fun m L => ∫ z, MvPolynomial.eval (m + L *ᵥ z) p ∂Measure.pi fun _ : Fin d => gaussianReal 0 1) ms chols := by
  rw [gaussianExpectation]
  congr 1
  funext m L
  let f : Fin d → MvPolynomial (Fin d) ℝ := fun r => MvPolynomial.C (m r) + ∑ k, MvPolynomial.C (L r k) * MvPolynomial.X k
  have hf : ∀ r, (f r).totalDegree ≤ 1 := by
    intro r
    refine (MvPolynomial.totalDegree_add _ _).trans (max_le (by rw [MvPolynomial.totalDegree_C]; omega) ?_)
    refine MvPolynomial.totalDegree_finsetSum_le fun k _ => ?_
    refine (MvPolynomial.totalDegree_mul _ _).trans ?_
    rw [MvPolynomial.totalDegree_C, MvPolynomial.totalDegree_X]
  have he : ∀ z : Fin d → ℝ, MvPolynomial.eval z (MvPolynomial.bind₁ f p) = MvPolynomial.eval (m + L *ᵥ z) p := by
    intro z
    rw [← MvPolynomial.coe_aeval_eq_eval, ← MvPolynomial.coe_aeval_eq_eval, RingHom.coe_coe, RingHom.coe_coe,
      MvPolynomial.aeval_bind₁]
    congr 2
    funext r
    simp [f, Matrix.mulVec, dotProduct]
  have := C74_gauss_hermite d order roots hinj hroot (MvPolynomial.bind₁ f p) fun r =>
    (MvPolynomial.degreeOf_le_totalDegree _ r).trans_lt ((totalDegree_bind₁ f hf p).trans_lt hp)
  simp only [he] at this
  rw [← this]
  simp only [SigmaPoints.expectationFromNodes, smul_eq_mul, SigmaPoints.genSigmaPoints]

/-- **C74 (second order).** For `order ≥ 2` the Gauss–Hermite rule satisfies the hypothesis of C71. -/
theorem C74_second_order (d order : ℕ) (ho : 2 ≤ order) (roots : ℕ → ℝ)
    (hinj : ∀ i j, i < order → j < order → roots i = roots j → i = j)
    (hroot : ∀ j, j < order → polyval ((genHermitePolyCoeff order).getLastD []) (roots j) = 0) :
    SecondOrder (SigmaPoints.gaussHermite d order roots).w (SigmaPoints.gaussHermite d order roots).xi := by
  have key := C74_gauss_hermite d order roots hinj hroot
  have hint : ∀ k : Fin d → ℕ, ∫ z : Fin d → ℝ, ∏ r, z r ^ k r ∂Measure.pi (fun _ : Fin d => gaussianReal 0 1)
      = ∏ r, ∫ y : ℝ, y ^ k r ∂gaussianReal 0 1 := fun k => integral_fintype_prod_eq_prod (fun r (y : ℝ) => y ^ k r)
  have hprod : ∀ (z : Fin d → ℝ) (a b : Fin d), ∏ r, z r ^ ((if r = a then 1 else 0) + (if r = b then 1 else 0)) = z a * z b := by
    intro z a b
    simp only [pow_add, Finset.prod_mul_distrib]
    congr 1 <;> simp [pow_ite]
  have hprod1 : ∀ (z : Fin d → ℝ) (a : Fin d), ∏ r, z r ^ (if r = a then 1 else 0) = z a := by
    intro z a; simp [pow_ite]
  refine ⟨?_, fun a => ?_, fun a b => ?_⟩
  · have := key 1 fun r => by
      rw [← MvPolynomial.C_1, MvPolynomial.degreeOf_C]; omega
    simpa using this
  · have h1 := key (MvPolynomial.X a) fun r => by
      refine (MvPolynomial.degreeOf_le_totalDegree _ r).trans_lt ?_
      rw [MvPolynomial.totalDegree_X]; omega
    simp only [MvPolynomial.eval_X] at h1
    rw [h1]
    have h2 := hint fun r => if r = a then 1 else 0
    simp only [hprod1] at h2
    rw [h2]
    exact Finset.prod_eq_zero (Finset.mem_univ a) (by rw [if_pos rfl]; exact std_moment_one)
  · have h1 := key (MvPolynomial.X a * MvPolynomial.X b) fun r => by
      refine (MvPolynomial.degreeOf_le_totalDegree _ r).trans_lt ((MvPolynomial.totalDegree_mul _ _).trans_lt ?_)
      rw [MvPolynomial.totalDegree_X, MvPolynomial.totalDegree_X]; omega
    simp only [MvPolynomial.eval_mul, MvPolynomial.eval_X] at h1
    rw [h1]
    have h2 := hint fun r => (if r = a then 1 else 0) + (if r = b then 1 else 0)
    simp only [hprod] at h2
    rw [h2]
    split_ifs with hab
    · subst hab
      refine Finset.prod_eq_one fun r _ => ?_
      split_ifs with hr
      · have := std_moment_succ_succ 0
        simpa using this
      · simp
    · refine Finset.prod_eq_zero (Finset.mem_univ a) ?_
      rw [if_pos rfl, if_neg hab]
      exact std_moment_one

/-! ## C75 -/

/-- **C75 (fixed point and symmetry).** A step of length zero is the identity for every vector field, and if the field maps
symmetric covariances to symmetric matrices so does the step; both for the forward and the backward routine. -/
theorem C75_rk4 (ode : (Fin d → ℝ) → Matrix (Fin d) (Fin d) ℝ → (Fin d → ℝ) × Matrix (Fin d) (Fin d) ℝ)
    (odeB : (Fin d → ℝ) → Matrix (Fin d) (Fin d) ℝ → (Fin d → ℝ) → Matrix (Fin d) (Fin d) ℝ → (Fin d → ℝ) × Matrix (Fin d) (Fin d) ℝ)
    (m mf : Fin d → ℝ) (v vf : Matrix (Fin d) (Fin d) ℝ) (dt : ℝ) :
    rk4MCov ode m v 0 = (m, v) ∧ rk4MCovBackward odeB m v mf vf 0 = (m, v) ∧
    ((∀ m v, v.IsSymm → (ode m v).2.IsSymm) → v.IsSymm → (rk4MCov ode m v dt).2.IsSymm) ∧
    ((∀ m v mf vf, v.IsSymm → (odeB m v mf vf).2.IsSymm) → v.IsSymm → (rk4MCovBackward odeB m v mf vf dt).2.IsSymm) := by
  refine ⟨?_, ?_, fun h hv => rk4MCov_symm ode h m v dt hv, fun h hv => rk4MCovBackward_symm odeB h m v mf vf dt hv⟩
  · simp [rk4MCov]
  · simp [rk4MCovBackward]

/-- **C75 (order four).** On every affine field `u ↦ T u + b` of the joint state `u = (m, v)` the step is the degree-four
Taylor polynomial in `dt` of the exact flow `u + ∑_{k ≥ 1} dt^k / k! T^(k-1) (T u + b)`. -/
theorem C75_rk4_affine (T : ((Fin d → ℝ) × Matrix (Fin d) (Fin d) ℝ) →ₗ[ℝ] ((Fin d → ℝ) × Matrix (Fin d) (Fin d) ℝ))
    (b : (Fin d → ℝ) × Matrix (Fin d) (Fin d) ℝ) (m : Fin d → ℝ) (v : Matrix (Fin d) (Fin d) ℝ) (dt : ℝ) :
    rk4MCov (fun m v => T (m, v) + b) m v dt
      = (m, v) + ∑ k ∈ Finset.range 4, (dt ^ (k + 1) / (k + 1).factorial) • (T ^ k) (T (m, v) + b) := by
  have e : ∀ (ode : (Fin d → ℝ) × Matrix (Fin d) (Fin d) ℝ → (Fin d → ℝ) × Matrix (Fin d) (Fin d) ℝ)
      (u : (Fin d → ℝ) × Matrix (Fin d) (Fin d) ℝ), rk4MCov (fun m v => ode (m, v)) u.1 u.2 dt
      = u + (dt / 6) • (ode u + (2 : ℝ) • ode (u + (dt / 2) • ode u) + (2 : ℝ) • ode (u + (dt / 2) • ode (u + (dt / 2) • ode u))
        + ode (u + dt • ode (u + (dt / 2) • ode (u + (dt / 2) • ode u)))) := fun _ _ => rfl
  rw [e (fun u => T u + b) (m, v)]
  generalize (m, v) = u
  set g := T u + b with hg
  have h1 : ∀ (c : ℝ) (w : (Fin d → ℝ) × Matrix (Fin d) (Fin d) ℝ), T (u + c • w) + b = g + c • T w := by
    intro c w; rw [map_add, map_smul, hg]; abel
  simp only [h1]
  simp only [map_add, map_smul, Finset.sum_range_succ, Finset.sum_range_zero, pow_zero, Module.End.one_apply, pow_succ,
    Module.End.mul_apply, one_mul, zero_add]
  simp only [Nat.factorial]
  push_cast
  module

/-- a non-trivial affine field: the moment equations of `dx = -x dt + dW` in one dimension. -/
example : ∃ (T : ((Fin 1 → ℝ) × Matrix (Fin 1) (Fin 1) ℝ) →ₗ[ℝ] ((Fin 1 → ℝ) × Matrix (Fin 1) (Fin 1) ℝ))
    (b : (Fin 1 → ℝ) × Matrix (Fin 1) (Fin 1) ℝ), ∀ m v, T (m, v) + b = (-m, (-2 : ℝ) • v + 1) :=
  ⟨LinearMap.prodMap (-LinearMap.id) ((-2 : ℝ) • LinearMap.id), (0, 1), fun m v => by simp⟩

end Mfs.Props

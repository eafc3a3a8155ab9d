import Verif.Props.NDProduct
import Verif.Props.GaussQuad
import Verif.Props.MomentsND
import Verif.Lemmas.GaussDensity

/-!
# Property C115: the multidimensional rule of a normal law with diagonal covariance is the Gauss–Hermite product rule
-/

namespace Mfs.Props

open Matrix Mfs.MultiIndex Mfs.QuadND Mfs.Spec Mfs.Quad1 Mfs.Moments1 Mfs.MomentsND Mfs.Classical Mfs.Converge Polynomial MeasureTheory ProbabilityTheory
open scoped NNReal

variable {d : ℕ}

/-- Hankel matrices of the moments of `(X - a) / s` under a normal law are positive definite. -/
theorem normal_hankel_posDef (N : ℕ) (m : ℝ) {v : ℝ≥0} (hv : v ≠ 0) (a s : ℝ) (hs : s ≠ 0) (ν : ℕ → ℝ)
    (hν : ∀ k, ν k = ∫ x, ((x - a) / s) ^ k ∂gaussianReal m v) : (hankelMat N ν).PosDef := by
  let L' : ℝ[X] →ₗ[ℝ] ℝ := (gaussL m v).comp (aeval (affPoly a s)).toLinearMap
  have hL' : ∀ p, L' p = gaussL m v (p.comp (affPoly a s)) := fun p => rfl
  refine (posDef_hankel_iff L' N ν fun k _ => ?_).2 fun q hq _ => ?_
  · rw [hν, hL', X_pow_comp, gaussL_apply]
    simp only [eval_pow, affPoly_eval]
  · rw [hL', pow_comp]
    refine gaussL_sq_pos m hv _ fun h0 => hq ?_
    have : q = (q.comp (affPoly a s)).comp (C s * X + C a) := by
      rw [comp_assoc, affPoly_comp a hs, comp_X]
    rw [this, h0, zero_comp]

/-- mixed moments under a normal law with diagonal covariance. -/
theorem mvn_diag_moment (m : Fin d → ℝ) (v : Fin d → ℝ≥0) (mi : Fin d → ℕ) :
    rawMomentsMvnKan m (Matrix.diagonal fun j => (v j : ℝ)) mi = ∏ j, rawMomentOfNormal (m j) (v j) (mi j) := by
  have hps : (Matrix.diagonal fun j => (v j : ℝ)).PosSemidef := Matrix.PosSemidef.diagonal fun j => (v j).2
  have hL : (Matrix.diagonal fun j => √(v j : ℝ)) * (Matrix.diagonal fun j => √(v j : ℝ))ᵀ = Matrix.diagonal fun j => (v j : ℝ) := by
    rw [Matrix.diagonal_transpose, Matrix.diagonal_mul_diagonal]
    congr 1
    funext j
    exact Real.mul_self_sqrt (v j).2
  rw [(C63_kan m _ hps mi).2.1, ← hL, ← Lemmas.map_stdGaussian]
  have hLm : Measurable fun z : Fin d → ℝ => WithLp.toLp 2 (m + (Matrix.diagonal fun j => √(v j : ℝ)) *ᵥ z) := by
    have : Continuous (toLin' (Matrix.diagonal fun j => √(v j : ℝ))) := LinearMap.continuous_on_pi _
    exact (PiLp.continuous_toLp 2 _).measurable.comp (this.measurable.const_add m)
  rw [integral_map hLm.aemeasurable (by fun_prop)]
  have h1 : ∀ z : Fin d → ℝ, ∏ i, (WithLp.toLp 2 (m + (Matrix.diagonal fun j => √(v j : ℝ)) *ᵥ z) : EuclideanSpace ℝ (Fin d)) i ^ mi i
      = ∏ i, (fun (i : Fin d) (y : ℝ) => (m i + √(v i : ℝ) * y) ^ mi i) i (z i) := by
    intro z
    refine Finset.prod_congr rfl fun i _ => ?_
    simp [Matrix.mulVec_diagonal]
  simp only [h1]
  rw [integral_fintype_prod_eq_prod (μ := fun _ : Fin d => gaussianReal 0 1) (f := fun (i : Fin d) (y : ℝ) => (m i + √(v i : ℝ) * y) ^ mi i)]
  refine Finset.prod_congr rfl fun i _ => ?_
  rw [C39_normal_moments.2.1, integral_gaussianReal_std (m i) (v i) (fun x => x ^ mi i) (by fun_prop)]

/-- a product of one-dimensional rules of normal laws is the Gauss–Hermite product rule. -/
theorem tensor_gh (n : ℕ) (roots : ℕ → ℝ) (m t : Fin d → ℝ) {κ : Fin d → Type} [∀ j, Fintype (κ j)]
    (w x : (j : Fin d) → κ j → ℝ)
    (h : ∀ j (f : ℝ → ℝ), ∑ k, w j k * f (x j k)
      = ∑ c, (SigmaPoints.gaussHermite 1 n roots).w c * f (m j + t j * (SigmaPoints.gaussHermite 1 n roots).xi c 0))
    (F : List ℝ → ℝ) :
    ∑ i : (j : Fin d) → κ j, (∏ j, w j (i j)) * F (List.ofFn fun j => x j (i j))
      = ∑ c, (SigmaPoints.gaussHermite d n roots).w c
          * F (List.ofFn fun j => m j + t j * (SigmaPoints.gaussHermite d n roots).xi c j) := by
  classical
  let r : List (ℝ × List ℝ) := (Finset.univ : Finset ((j : Fin d) → κ j)).toList.map
    fun i => (∏ j, w j (i j), List.ofFn fun j => x j (i j))
  let r' : List (ℝ × List ℝ) := List.ofFn fun c => ((SigmaPoints.gaussHermite d n roots).w c,
    List.ofFn fun j => m j + t j * (SigmaPoints.gaussHermite d n roots).xi c j)
  have hr : ∀ F : List ℝ → ℝ, integND r F = ∑ i : (j : Fin d) → κ j, (∏ j, w j (i j)) * F (List.ofFn fun j => x j (i j)) := by
    intro F
    rw [integND, List.map_map, ← Finset.sum_map_toList]
    rfl
  have hr' : ∀ F : List ℝ → ℝ, integND r' F = ∑ c, (SigmaPoints.gaussHermite d n roots).w c
      * F (List.ofFn fun j => m j + t j * (SigmaPoints.gaussHermite d n roots).xi c j) := by
    intro F
    rw [integND, List.map_ofFn, List.sum_ofFn]
    rfl
  rw [← hr, ← hr']
  refine integND_eq_of_prod (d := d) ?_ ?_ ?_ F
  · intro q hq
    obtain ⟨i, _, rfl⟩ := List.mem_map.1 hq
    simp
  · intro q hq
    rw [List.mem_ofFn] at hq
    obtain ⟨i, rfl⟩ := hq
    simp
  · intro fs hfs
    have hpf : ∀ x : Fin d → ℝ, prodFun fs (List.ofFn x) = ∏ j : Fin d, fs.getD j (fun _ => 0) (x j) := by
      intro x
      rw [prodFun, ← List.prod_ofFn]
      congr 1
      apply List.ext_getElem
      · simp [hfs]
      · intro k h1 h2
        simp [List.getD_eq_getElem?_getD, hfs]
    rw [hr, hr']
    simp only [hpf]
    have e1 := gaussHermite_factor d n roots fun j y => fs.getD j (fun _ => 0) (m j + t j * y)
    rw [e1]
    simp only [← Finset.prod_mul_distrib]
    have e2 := Finset.prod_univ_sum (fun j : Fin d => (Finset.univ : Finset (κ j)))
      (fun j k => w j k * fs.getD j (fun _ => 0) (x j k))
    rw [Fintype.piFinset_univ] at e2
    rw [← e2]
    refine Finset.prod_congr rfl fun j _ => ?_
    rw [h j]
    have e3 := gaussHermite_factor 1 n roots fun _ y => fs.getD j (fun _ => 0) (m j + t j * y)
    simpa using e3

/-- **C115.** For a normal law with mean `m` and diagonal covariance `diag v`, `v > 0`: the multidimensional moment quadrature
of the library's own mixed moments (Kan's formula: raw, or central with its mean) integrates every function exactly as the
library's Gauss–Hermite product rule of order `N`, as used by `gaussian_expectation` and `ghf`; likewise from standard moments
with `mean` and `scale`. -/
theorem C115_mvn_is_gauss_hermite (B : Backend) (hB : B.Valid) (N : ℕ) (hN : 1 ≤ N) (hd : 1 ≤ d)
    (basis full : List (List ℕ)) (mats : List (List (List ℤ)))
    (hbasis : generateMultiIndices d (N - 1) 0 = .ok basis) (hfull : generateMultiIndices d (2 * N - 1) 0 = .ok full)
    (hmats : gramAndHankelIndices N d = .ok mats) (roots : ℕ → ℝ)
    (hinj : ∀ i j, i < N → j < N → roots i = roots j → i = j)
    (hroot : ∀ j, j < N → polyval ((genHermitePolyCoeff N).getLastD []) (roots j) = 0)
    (m : Fin d → ℝ) (v : Fin d → ℝ≥0) (hv : ∀ j, v j ≠ 0) (sort ldl : Bool) (F : List ℝ → ℝ) :
    let gh := gaussianExpectation d N roots [m] [Matrix.diagonal fun j => √(v j : ℝ)] (fun x => F (List.ofFn x))
    gh = [integND (momentQuadratureND B (full.map fun α => rawMomentsMvnKan m (Matrix.diagonal fun j => (v j : ℝ))
      fun j => α.getD j 0) mats none none sort ldl) F] ∧
    gh = [integND (momentQuadratureND B (full.map fun α => centralMomentsMvnKan (Matrix.diagonal fun j => (v j : ℝ))
      fun j => α.getD j 0) mats (some (List.ofFn m)) none sort ldl) F] ∧
    gh = [integND (momentQuadratureND B (full.map fun α => centralMomentsMvnKan (1 : Matrix (Fin d) (Fin d) ℝ)
      fun j => α.getD j 0) mats (some (List.ofFn m)) (some (List.ofFn fun j => √(v j : ℝ))) sort ldl) F] := by
  intro gh
  have hgh : gh = [∑ c, (SigmaPoints.gaussHermite d N roots).w c
      * F (List.ofFn fun j => m j + √(v j : ℝ) * (SigmaPoints.gaussHermite d N roots).xi c j)] := by
    simp only [gh, gaussianExpectation, List.zipWith_cons_cons, List.zipWith_nil_left, SigmaPoints.expectationFromNodes,
      SigmaPoints.genSigmaPoints, smul_eq_mul]
    congr 1
    refine Finset.sum_congr rfl fun c _ => ?_
    congr 3
    funext j
    simp [Matrix.mulVec_diagonal]
  have hsv : ∀ j, √(v j : ℝ) ≠ 0 := fun j => Real.sqrt_ne_zero'.2 (by
    have := hv j
    positivity)
  have hcen : ∀ (v : Fin d → ℝ≥0) (mi : Fin d → ℕ), centralMomentsMvnKan (Matrix.diagonal fun j => (v j : ℝ)) mi
      = ∏ j, rawMomentOfNormal 0 (v j) (mi j) := by
    intro v mi
    rw [centralKan_eq_raw]
    exact mvn_diag_moment 0 v mi
  have h2 : ∀ (m : ℝ) (v : ℝ≥0) k, rawMomentOfNormal m v k = ∫ x, x ^ k ∂gaussianReal m v := C39_normal_moments.2.1
  have hshift : ∀ (m : ℝ) (v : ℝ≥0) k, ∫ x, (x - m) ^ k ∂gaussianReal m v = rawMomentOfNormal 0 v k := by
    intro m v k
    rw [h2, integral_gaussianReal_std m v (fun x => (x - m) ^ k) (by fun_prop),
      integral_gaussianReal_std 0 v (fun x => x ^ k) (by fun_prop)]
    simp
  rw [hgh]
  -- a general affine coordinate
  have key : ∀ (ν : Fin d → ℕ → ℝ) (a s : Fin d → ℝ), (∀ j, s j ≠ 0) →
      (∀ j k, ν j k = ∫ x, ((x - a j) / s j) ^ k ∂gaussianReal (m j) (v j)) →
      (∀ j, (Matrix.of fun a b : Fin N => ν j (a + b)).PosDef) ∧ (∀ j, ν j 0 = 1) ∧
      ∑ i : (j : Fin d) → Fin (((List.range (2 * N)).map (ν j)).length / 2),
          (∏ j, (momentQuadrature B ((List.range (2 * N)).map (ν j)) (a j) (s j) sort ldl).1 (i j))
            * F (List.ofFn fun j => (momentQuadrature B ((List.range (2 * N)).map (ν j)) (a j) (s j) sort ldl).2 (i j))
        = ∑ c, (SigmaPoints.gaussHermite d N roots).w c
          * F (List.ofFn fun j => m j + √(v j : ℝ) * (SigmaPoints.gaussHermite d N roots).xi c j) := by
    intro ν a s hs hν
    refine ⟨fun j => normal_hankel_posDef N (m j) (hv j) (a j) (s j) (hs j) (ν j) (hν j), fun j => by rw [hν]; simp, ?_⟩
    refine tensor_gh N roots m (fun j => √(v j : ℝ)) (κ := fun j => Fin (((List.range (2 * N)).map (ν j)).length / 2)) _ _
      (fun j f => ?_) F
    exact normal_rule B hB N hN roots hinj hroot (m j) (v j) (hv j) _ (by simp) (a j) (s j) (hs j) (fun k hk => by
      rw [getD_map_range _ hk, hν]) sort ldl f
  refine ⟨?_, ?_, ?_⟩
  · obtain ⟨k1, k2, k3⟩ := key (fun j => rawMomentOfNormal (m j) (v j)) (fun _ => 0) (fun _ => 1) (fun _ => one_ne_zero)
      (fun j k => by rw [h2]; simp)
    rw [← k3]
    simp only [mvn_diag_moment]
    exact congrArg (fun t => [t]) ((C114_independent_coordinates B hB N d hN hd basis full mats hbasis hfull hmats _ k2 k1 sort ldl).2.1 F).symm
  · obtain ⟨k1, k2, k3⟩ := key (fun j => rawMomentOfNormal 0 (v j)) m (fun _ => 1) (fun _ => one_ne_zero)
      (fun j k => by rw [← hshift (m j)]; simp)
    rw [← k3]
    simp only [hcen]
    exact congrArg (fun t => [t]) ((C114_independent_coordinates B hB N d hN hd basis full mats hbasis hfull hmats _ k2 k1 sort ldl).2.2.1 m F).symm
  · obtain ⟨k1, k2, k3⟩ := key (fun _ => rawMomentOfNormal 0 (1 : ℝ≥0)) m (fun j => √(v j : ℝ)) hsv
      (fun j k => by
        rw [h2, integral_gaussianReal_std (m j) (v j) (fun x => ((x - m j) / √(v j : ℝ)) ^ k) (by fun_prop)]
        refine integral_congr_ae (Filter.Eventually.of_forall fun z => ?_)
        simp only
        congr 1
        have := hsv j
        field_simp
        ring)
    rw [← k3]
    have h1 : ∀ mi : Fin d → ℕ, centralMomentsMvnKan (1 : Matrix (Fin d) (Fin d) ℝ) mi
        = ∏ j, rawMomentOfNormal 0 (1 : ℝ≥0) (mi j) := by
      intro mi
      rw [← hcen fun _ => 1]
      simp
    simp only [h1]
    exact congrArg (fun t => [t]) ((C114_independent_coordinates B hB N d hN hd basis full mats hbasis hfull hmats _ k2 k1 sort ldl).2.2.2 m _ F).symm

/-- the hypotheses can be met, for every order. -/
example (N : ℕ) (hN : 1 ≤ N) : theBackend.Valid ∧ (∃ basis, generateMultiIndices 2 (N - 1) 0 = .ok basis) ∧
    (∃ full, generateMultiIndices 2 (2 * N - 1) 0 = .ok full) ∧ (∃ mats, gramAndHankelIndices N 2 = .ok mats) ∧
    ∃ roots : ℕ → ℝ, (∀ i j, i < N → j < N → roots i = roots j → i = j) ∧
      ∀ j, j < N → polyval ((genHermitePolyCoeff N).getLastD []) (roots j) = 0 := by
  obtain ⟨basis, full, mats, h1, h2, h3, _⟩ := C05_gram_hankel_indices N 2 hN (by norm_num)
  exact ⟨theBackend_valid, ⟨basis, h1⟩, ⟨full, h2⟩, ⟨mats, h3⟩, C74_roots_exist N⟩

end Mfs.Props

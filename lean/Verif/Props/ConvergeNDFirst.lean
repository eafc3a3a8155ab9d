import Verif.Props.ConvergeNDStep
import Verif.Props.SsModels

/-!
# C193: the first step for transitions with polynomial moments, and the measurements of the prey-predator model
-/

namespace Mfs.Props

open Matrix Mfs.Spec Mfs.QuadND Mfs.MultiIndex Mfs.FilterND Mfs.StrongND Mfs.Converge Mfs.MomentsND Mfs.SsModels
open MeasureTheory ProbabilityTheory Filter Topology

variable {d : ℕ} {Y : Type}

/-- the rule of the moments of a law integrates every polynomial of degree at most `2N - 1` exactly. -/
theorem rule_exact_poly (B : Backend) (hB : B.Valid) (sort ldl : Bool) {N : ℕ} {basis full : List (List ℕ)} {mats : List (List (List ℤ))}
    (T : Tables N d basis full mats) (μ : Measure (Fin d → ℝ)) [IsProbabilityMeasure μ] (hμ : SomeExpMomentND μ)
    (hne : ∀ q : MvPolynomial (Fin d) ℝ, (∀ᵐ x ∂μ, MvPolynomial.eval x q = 0) → q = 0) (p : MvPolynomial (Fin d) ℝ) (hp : p.totalDegree ≤ 2 * N - 1) :
    integND (momentQuadratureND B (full.map fun α => ∫ x, ∏ j, x j ^ α.getD j 0 ∂μ) mats none none sort ldl)
      (fun x => MvPolynomial.eval (fun j : Fin d => x.getD j 0) p) = ∫ x, MvPolynomial.eval x p ∂μ := by
  have hN := T.hN
  have hint := integrable_poly (μ := μ) hμ
  obtain ⟨hex, _, hnode⟩ := C21_nd_reproduces B hB N d (by omega) T.hd (fun α => ∫ x, ∏ j, x j ^ α.getD j 0 ∂μ) basis full mats
    T.basis_eq T.full_eq T.mats_eq (gram_posDef_of_integrable T μ hint hne) sort ldl
  have e1 : ∀ x : Fin d → ℝ, MvPolynomial.eval x p = ∑ a ∈ p.support, p.coeff a * ∏ j, x j ^ a j := fun x => MvPolynomial.eval_eq' x p
  simp only [e1]
  rw [integND_finsetSum, integral_finsetSum]
  · refine Finset.sum_congr rfl fun a ha => ?_
    rw [integND_mul_left, integral_const_mul]
    congr 1
    have hsum : (List.ofFn fun j => a j).sum ≤ 2 * N - 1 := by
      rw [List.sum_ofFn]
      refine le_trans ?_ ((MvPolynomial.le_totalDegree ha).trans hp)
      rw [Finsupp.sum_fintype _ _ fun _ => rfl]
    have h1 := hex (List.ofFn fun j => a j) ⟨by simp, by omega, hsum⟩
    have h0 : ∫ x : Fin d → ℝ, ∏ j : Fin d, x j ^ (List.replicate d 0).getD j 0 ∂μ = 1 := by simp [List.getD_eq_getElem?_getD]
    simp only [h0, div_one] at h1
    rw [integND_congr (F' := fun x => ∏ j : Fin d, x.getD j 0 ^ a j) fun q hq => ?_] at h1
    · rw [h1]
      simp [List.getD_eq_getElem?_getD]
    · rw [monomial_eq_prod (hnode q hq) (by simp)]
      simp [List.getD_eq_getElem?_getD]
  · intro a _
    have := hint (MvPolynomial.monomial a (p.coeff a))
    simpa [MvPolynomial.eval_monomial, Finsupp.prod_fintype] using this

/-- **C193 (first step).** Let the filter of the raw moments start from the moments of a law `μ0` and let the conditional moments of the transition be
polynomials of the state, that of multi-index `α` of degree at most `|α|` (affine models with any noise whose moments behave so). If `μ` is the law after one
transition, then the first step of the filter converges, as `N` grows, to the exact posterior law of the first measurement. -/
theorem C193_first_step (B : Backend) (hB : B.Valid) (stable : Bool) (μ0 μ : Measure (Fin d → ℝ)) [IsProbabilityMeasure μ0] [IsProbabilityMeasure μ]
    (hμ0 : ∃ c : ℝ, 0 < c ∧ Integrable (fun x => Real.exp (c * ∑ j, |x j|)) μ0)
    (hne0 : ∀ q : MvPolynomial (Fin d) ℝ, (∀ᵐ x ∂μ0, MvPolynomial.eval x q = 0) → q = 0)
    (p : List ℕ → MvPolynomial (Fin d) ℝ) (hp : ∀ α : List ℕ, α.length = d → (p α).totalDegree ≤ α.sum)
    (hμ : ∀ α : List ℕ, α.length = d → ∫ x, ∏ j, x j ^ α.getD j 0 ∂μ = ∫ x, MvPolynomial.eval x (p α) ∂μ0)
    (l : (Fin d → ℝ) → ℝ) (U : UpdateData d μ l) (basis full : ℕ → List (List ℕ)) (mats : ℕ → List (List (List ℤ)))
    (T : ∀ N, 2 ≤ N → Tables N d (basis N) (full N) (mats N)) (pdf : Y → List ℝ → ℝ) (y : Y) (hl : ∀ x, pdf y x = l fun j => x.getD j 0) :
    let P : CondMoments Unit := .multiIndex fun x α _ => MvPolynomial.eval (fun j : Fin d => x.getD j 0) (p α)
    let run := fun N => filterRms B P pdf [y] (full N, mats N) ((full N).map fun α => ∫ x, ∏ j, x j ^ α.getD j 0 ∂μ0) stable
    ∃ (rms : ℕ → List ℝ) (nell : ℕ → ℝ), (∀ N, run N = .ok ([rms N], nell N)) ∧
      (∀ α : List ℕ, α.length = d → Tendsto (fun N => momentAt (full N) (rms N) α) atTop
        (𝓝 ((∫ x, (∏ j, x j ^ α.getD j 0) * l x ∂μ) / ∫ x, l x ∂μ))) ∧
      Tendsto nell atTop (𝓝 (-Real.log (∫ x, l x ∂μ))) := by
  intro P run
  have h := C193_update_rms B hB stable μ l U basis full mats T pdf y hl (fun _ => P) (fun N => (full N).map fun α => ∫ x, ∏ j, x j ^ α.getD j 0 ∂μ0) 0
    fun N hN => by
      rw [wsumVec_row]
      refine List.map_congr_left fun α hα => ?_
      obtain ⟨hα1, _, hα2⟩ := (T N hN).mem_full.1 hα
      rw [hμ α hα1, rule_exact_poly B hB false stable (T N hN) μ0 hμ0 hne0 (p α) ((hp α hα1).trans hα2)]
  rw [zero_sub] at h
  refine ⟨_, _, fun N => ?_, h⟩
  simp [run, filterRms, scan]

/-! ### the measurements of the prey-predator model -/

theorem preyPmf_pos (y : Bool) (x : Fin 2 → ℝ) : 0 < preyPmf (if y then 1 else 0) x := by
  have e : 0 < Real.exp (-x 0 ^ 3 + 1) := Real.exp_pos _
  cases y
  · have : 1 / (1 + Real.exp (-x 0 ^ 3 + 1)) < 1 := by rw [div_lt_one (by positivity)]; linarith
    simp [preyPmf, bernoulliPmf, preyEmission] at this ⊢
    linarith
  · simp [preyPmf, bernoulliPmf, preyEmission]
    positivity

theorem preyPmf_growth (y : Bool) : PolyGrowth fun t => bernoulliPmf (if y then 1 else 0) (preyEmission t) := by
  refine PolyGrowth.of_bounded (C := 1) fun t => ?_
  have h0 : 0 < preyEmission t := by unfold preyEmission; positivity
  have h1 : preyEmission t ≤ 1 := by
    unfold preyEmission
    rw [div_le_one (by positivity)]
    linarith [Real.exp_pos (-t ^ 3 + 1)]
  cases y <;> simp [bernoulliPmf] <;> rw [abs_le] <;> constructor <;> linarith

/-- the hypotheses of C193 hold for the Bernoulli measurements of the prey-predator model and every Gaussian sum with positive definite covariances. -/
theorem updateData_prey (comps : List (Component 2)) (hw : ∀ c ∈ comps, 0 ≤ c.weight) (h1 : (comps.map (·.weight)).sum = 1)
    (hcov : ∀ c ∈ comps, c.cov.PosDef) (y : Bool) : UpdateData 2 (gaussSumLaw comps) (preyPmf (if y then 1 else 0)) := by
  refine ⟨by norm_num, ⟨1, one_pos, gaussSumLaw_exp comps hw fun c h => (hcov c h).posSemidef⟩, gaussSumLaw_ne comps hw h1 hcov, preyPmf_pos y, ?_⟩
  refine ⟨1, fun _ => ![fun t => bernoulliPmf (if y then 1 else 0) (preyEmission t), fun _ => 1], fun _ => ⟨0, 0, le_rfl, by norm_num, fun j => ?_, ?_, ?_,
      fun j h0 _ => ?_⟩, fun x => by simp [preyPmf]⟩
  · have hc : Continuous preyEmission := by
      unfold preyEmission
      exact Continuous.div continuous_const (by fun_prop) fun x => by positivity
    fin_cases j
    · cases y
      · have h2 : Continuous fun t => 1 - preyEmission t := by fun_prop
        simpa [bernoulliPmf] using h2
      · simpa [bernoulliPmf] using hc
    · simpa using continuous_const
  · exact preyPmf_growth y
  · exact preyPmf_growth y
  · fin_cases j
    · exact absurd rfl h0
    · exact ⟨1, fun t => by simp⟩

/-- a prey-predator measurement of a state at rest, distributed as two normal components (tables exist: `exists_tables_seq`). -/
example (basis full : ℕ → List (List ℕ)) (mats : ℕ → List (List (List ℤ))) (T : ∀ N, 2 ≤ N → Tables N 2 (basis N) (full N) (mats N)) (y : Bool) :
    ∃ (rms : ℕ → List ℝ) (nell : ℕ → ℝ),
    (∀ N, filterRms theBackend (.multiIndex fun x α _ => MvPolynomial.eval (fun j : Fin 2 => x.getD j 0) (∏ j : Fin 2, MvPolynomial.X j ^ α.getD j 0))
      (fun (y : Bool) x => preyPmf (if y then 1 else 0) fun j => x.getD j 0) [y] (full N, mats N)
      ((full N).map fun α => ∫ x, ∏ j, x j ^ α.getD j 0 ∂gaussSumLaw [⟨![1, 0], 1, 0.5⟩, ⟨![-1, 0], 1, 0.5⟩]) true = .ok ([rms N], nell N)) ∧
    (∀ α : List ℕ, α.length = 2 → Tendsto (fun N => momentAt (full N) (rms N) α) atTop
      (𝓝 ((∫ x, (∏ j, x j ^ α.getD j 0) * preyPmf (if y then 1 else 0) x ∂gaussSumLaw [⟨![1, 0], 1, 0.5⟩, ⟨![-1, 0], 1, 0.5⟩])
        / ∫ x, preyPmf (if y then 1 else 0) x ∂gaussSumLaw [⟨![1, 0], 1, 0.5⟩, ⟨![-1, 0], 1, 0.5⟩]))) ∧
    Tendsto nell atTop (𝓝 (-Real.log (∫ x, preyPmf (if y then 1 else 0) x ∂gaussSumLaw [⟨![1, 0], 1, 0.5⟩, ⟨![-1, 0], 1, 0.5⟩]))) := by
  have hw : ∀ c ∈ ([⟨![1, 0], 1, 0.5⟩, ⟨![-1, 0], 1, 0.5⟩] : List (Component 2)), 0 ≤ c.weight := by simp; norm_num
  have h1 : (([⟨![1, 0], 1, 0.5⟩, ⟨![-1, 0], 1, 0.5⟩] : List (Component 2)).map (·.weight)).sum = 1 := by norm_num
  have hcov : ∀ c ∈ ([⟨![1, 0], 1, 0.5⟩, ⟨![-1, 0], 1, 0.5⟩] : List (Component 2)), c.cov.PosDef := by simp [PosDef.one]
  have := gaussSumLaw_prob _ hw h1
  have U := updateData_prey _ hw h1 hcov y
  have hdeg : ∀ α : List ℕ, α.length = 2 → (∏ j : Fin 2, (MvPolynomial.X j : MvPolynomial (Fin 2) ℝ) ^ α.getD j 0).totalDegree ≤ α.sum := fun α hα => by
    obtain ⟨a, b, rfl⟩ := List.length_eq_two.1 hα
    refine (MvPolynomial.totalDegree_finsetProd _ _).trans ?_
    simp [Fin.sum_univ_two, MvPolynomial.totalDegree_X_pow]
  obtain ⟨rms, nell, h⟩ := C193_first_step theBackend theBackend_valid true _ _ U.exp_moment U.spread
    (fun α => ∏ j : Fin 2, MvPolynomial.X j ^ α.getD j 0) hdeg (fun α _ => by simp) _ U basis full mats T
    (fun (y : Bool) x => preyPmf (if y then 1 else 0) fun j => x.getD j 0) y fun x => rfl
  exact ⟨rms, nell, h⟩

end Mfs.Props

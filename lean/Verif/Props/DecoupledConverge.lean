import Verif.Props.Decoupled
import Verif.Props.ConvergeLine
import Mathlib.MeasureTheory.Integral.Pi

/-!
# C198: the multidimensional filters converge on decoupled models
-/

namespace Mfs.Props

open Matrix Mfs.MultiIndex Mfs.QuadND Mfs.Spec Mfs.Quad1 Mfs.Filter1 Mfs.Converge MeasureTheory ProbabilityTheory Filter Topology Polynomial

variable {Y : Type} {d : ℕ}

/-- the kernel under which the coordinates move independently. -/
noncomputable def piKernel (K1 : Fin d → Kernel ℝ ℝ) [∀ j, IsMarkovKernel (K1 j)] : Kernel (Fin d → ℝ) (Fin d → ℝ) where
  toFun x := Measure.pi fun j => K1 j (x j)
  measurable' := by
    refine Measurable.measure_of_isPiSystem_of_isProbabilityMeasure generateFrom_pi.symm isPiSystem_pi ?_
    rintro _ ⟨s, hs, rfl⟩
    simp only [Measure.pi_pi]
    refine Finset.measurable_prod _ fun j _ => ?_
    exact ((K1 j).measurable_coe (hs j (Set.mem_univ j))).comp (measurable_pi_apply j)

theorem piKernel_apply (K1 : Fin d → Kernel ℝ ℝ) [∀ j, IsMarkovKernel (K1 j)] (x : Fin d → ℝ) :
    piKernel K1 x = Measure.pi fun j => K1 j (x j) := rfl

instance (K1 : Fin d → Kernel ℝ ℝ) [∀ j, IsMarkovKernel (K1 j)] : IsMarkovKernel (piKernel K1) :=
  ⟨fun x => by rw [piKernel_apply]; infer_instance⟩

/-- the conditional expectations of a product under independent coordinates. -/
theorem markovE_pi (K : Kernel (Fin d → ℝ) (Fin d → ℝ)) (K1 : Fin d → Kernel ℝ ℝ) [∀ j, IsMarkovKernel (K1 j)]
    (hK : ∀ x, K x = Measure.pi fun j => K1 j (x j)) (pdf : Fin d → Y → ℝ → ℝ) (f : Fin d → ℝ → ℝ) (ys : List Y) (x : Fin d → ℝ) :
    markovE K (fun y x => ∏ j, pdf j y (x j)) (fun x => ∏ j, f j (x j)) ys x = ∏ j, markovE (K1 j) (pdf j) (f j) ys (x j) := by
  induction ys generalizing x with
  | nil => rfl
  | cons y ys ih =>
    simp only [markovE, hK, ih, ← Finset.prod_mul_distrib]
    exact integral_fintype_prod_eq_prod (𝕜 := ℝ) fun j z => pdf j y z * markovE (K1 j) (pdf j) (f j) ys z

/-- the moments of a law with infinite support have a positive definite Gram matrix. -/
theorem gramOf_law_posDef {μ : Measure ℝ} (hμ : ExpMoments μ) (hinf : ∀ s : Finset ℝ, μ (s : Set ℝ)ᶜ ≠ 0) (m s : ℝ) (hs : s ≠ 0) (n : ℕ) :
    (gramOf ((List.range n).map fun k => ∫ x, ((x - m) / s) ^ k ∂μ)).PosDef := by
  refine (posDef_hankel_iff ((measLU μ hμ).comp (aeval (C s⁻¹ * (X - C m))).toLinearMap) _ _ (fun k hk => ?_)).2 fun q hq _ => ?_
  · rw [List.length_map, List.length_range] at hk
    rw [getD_range_map _ _ (by omega)]
    change _ = ∫ x, ((X ^ k : ℝ[X]).comp (C s⁻¹ * (X - C m))).eval x ∂μ
    simp only [X_pow_comp, eval_pow, eval_mul, eval_C, eval_sub, eval_X, div_eq_inv_mul]
  · change 0 < measLU μ hμ ((q ^ 2).comp (C s⁻¹ * (X - C m)))
    rw [pow_comp]
    refine measLU_sq_pos hμ hinf _ fun h0 => hq ?_
    have h : q = (q.comp (C s⁻¹ * (X - C m))).comp (C s * X + C m) := by
      rw [comp_assoc]
      have : (C s⁻¹ * (X - C m) : ℝ[X]).comp (C s * X + C m) = X := by
        simp only [mul_comp, C_comp, sub_comp, X_comp, add_sub_cancel_right]
        rw [← mul_assoc, ← C_mul, inv_mul_cancel₀ hs, C_1, one_mul]
      rw [this, comp_X]
    rw [h, h0, zero_comp]

theorem getD_idxOf_map {N : ℕ} (hd : 1 ≤ d) {full : List (List ℕ)} (hfull : generateMultiIndices d (2 * N - 1) 0 = .ok full)
    (α : List ℕ) (hα : α.length = d) (hs : α.sum ≤ 2 * N - 1) (g : List ℕ → ℝ) : (full.map g).getD (full.idxOf α) 0 = g α := by
  obtain ⟨t, ht, -, hmem⟩ := C01_generate_complete d (2 * N - 1) 0 hd (by omega)
  rw [hfull] at ht; cases ht
  have h : α ∈ full := (hmem α).2 ⟨hα, by omega, hs⟩
  have hi := List.idxOf_lt_length_iff.2 h
  rw [List.getD_eq_getElem _ _ (by simpa using hi), List.getElem_map, List.getElem_idxOf hi]

theorem getD_range_rec {β : Type} (n t : ℕ) (ht : t < n) (f : ℕ → β) (b : β) : ((List.range n).map f).getD t b = f t := by
  rw [List.getD_eq_getElem _ _ (by simpa using ht)]
  simp

theorem getD_ofFn_fin (f : Fin d → ℝ) (j : Fin d) : (List.ofFn f).getD j 0 = f j := by
  rw [List.getD_eq_getElem _ _ (by simp)]
  simp

/-- **C198, convergence.** Let the state be a vector whose coordinates are independent at the start and move independently, let the
likelihood be a product over the coordinates, and let every coordinate meet the conditions of C133. Then all runs of the
multidimensional filters succeed, and, as the order `N` grows, the negative log-likelihood converges to minus the logarithm of the exact marginal
likelihood of the vector-valued model and every mixed moment after every measurement (with the means and scales) to that of the exact posterior. -/
theorem C198_converges (B : Backend) (hB : B.Valid) (stable : Bool) (hd : 1 ≤ d) (full : ℕ → List (List ℕ)) (mats : ℕ → List (List (List ℤ)))
    (hfull : ∀ N ≥ 1, generateMultiIndices d (2 * N - 1) 0 = .ok (full N)) (hmats : ∀ N ≥ 1, gramAndHankelIndices N d = .ok (mats N))
    (K : Kernel (Fin d → ℝ) (Fin d → ℝ)) (K1 : Fin d → Kernel ℝ ℝ) [∀ j, IsMarkovKernel (K1 j)]
    (hK : ∀ x, K x = Measure.pi fun j => K1 j (x j)) (hK1 : ∀ j, GoodKernel (K1 j)) (μ : Fin d → Measure ℝ) [∀ j, IsProbabilityMeasure (μ j)]
    (hμ : ∀ j (c : ℝ), Integrable (fun x => Real.exp (c * x)) (μ j)) (hinf : ∀ j, ∀ s : Finset ℝ, μ j (s : Set ℝ)ᶜ ≠ 0)
    (pdf : Fin d → Y → ℝ → ℝ) (hpc : ∀ j y, Continuous (pdf j y)) (hpdf : ∀ j y x, 0 < pdf j y x) (hpb : ∀ j y, ∃ G, ∀ x, pdf j y x ≤ G)
    (ys : List Y) :
    let pdfN : Y → List ℝ → ℝ := fun y x => ∏ j : Fin d, pdf j y (x.getD j 0)
    let M := markovE K fun y x => ∏ j, pdf j y (x j)
    let lik : ℝ := ∫ x, M (fun _ => 1) ys x ∂Measure.pi μ
    let E : ℕ → ((Fin d → ℝ) → ℝ) → ℝ := fun t f =>
      (∫ x, M f (ys.take (t + 1)) x ∂Measure.pi μ) / ∫ x, M (fun _ => 1) (ys.take (t + 1)) x ∂Measure.pi μ
    0 < lik ∧
    (∃ (rec : ℕ → List (List ℝ)) (nell : ℕ → ℝ), (∀ N ≥ 2, FilterND.filterRms B (.multiIndex fun x α _ => ∫ z, ∏ j : Fin d, z j ^ α.getD j 0 ∂K fun j => x.getD j 0) pdfN ys
          (full N, mats N) ((full N).map fun α => ∫ x, ∏ j : Fin d, x j ^ α.getD j 0 ∂Measure.pi μ) stable = .ok (rec N, nell N)) ∧
      Tendsto nell atTop (𝓝 (-Real.log lik)) ∧ ∀ t < ys.length, ∀ α : List ℕ, α.length = d →
        Tendsto (fun N => ((rec N).getD t []).getD ((full N).idxOf α) 0) atTop (𝓝 (E t fun x => ∏ j : Fin d, x j ^ α.getD j 0))) ∧
    (∀ (cm : Fin d → ℝ → ℝ) (m0 : Fin d → ℝ), ∃ (rec : ℕ → List (List ℝ × List ℝ)) (nell : ℕ → ℝ), (∀ N ≥ 2, FilterND.filterCms B
          (.multiIndex fun x α m => ∫ z, ∏ j : Fin d, (z j - m.getD j 0) ^ α.getD j 0 ∂K fun j => x.getD j 0)
          (fun x => List.ofFn fun j : Fin d => cm j (x.getD j 0)) pdfN ys
          (full N, mats N) ((full N).map fun α => ∫ x, ∏ j : Fin d, (x j - m0 j) ^ α.getD j 0 ∂Measure.pi μ) (List.ofFn m0) stable
            = .ok (rec N, nell N)) ∧
      Tendsto nell atTop (𝓝 (-Real.log lik)) ∧ ∀ t < ys.length,
        (∀ j : Fin d, Tendsto (fun N => ((rec N).getD t ([], [])).2.getD j 0) atTop (𝓝 (E t fun x => x j))) ∧
        ∀ α : List ℕ, α.length = d → Tendsto (fun N => ((rec N).getD t ([], [])).1.getD ((full N).idxOf α) 0) atTop
          (𝓝 (E t fun x => ∏ j : Fin d, (x j - E t fun x => x j) ^ α.getD j 0))) ∧
    (∀ (cm cv : Fin d → ℝ → ℝ) (m0 s0 : Fin d → ℝ), (∀ j, s0 j ≠ 0) → (∀ j x, 0 < cv j x) →
      ∃ (rec : ℕ → List (List ℝ × List ℝ × List ℝ)) (nell : ℕ → ℝ), (∀ N ≥ 2, FilterND.filterScms B
          (.multiIndex fun x α a => ∫ z, ∏ j : Fin d, ((z j - a.1.getD j 0) / a.2.getD j 0) ^ α.getD j 0 ∂K fun j => x.getD j 0)
          (fun x => (List.ofFn fun j : Fin d => cm j (x.getD j 0), List.ofFn fun j : Fin d => cv j (x.getD j 0))) pdfN ys
          (full N, mats N) ((full N).map fun α => ∫ x, ∏ j : Fin d, ((x j - m0 j) / s0 j) ^ α.getD j 0 ∂Measure.pi μ) (List.ofFn m0) (List.ofFn s0) stable
            = .ok (rec N, nell N)) ∧
      Tendsto nell atTop (𝓝 (-Real.log lik)) ∧ ∀ t < ys.length,
        let sd : Fin d → ℝ := fun j => Real.sqrt (E t fun x => (x j - E t fun x => x j) ^ 2)
        (∀ j : Fin d, 0 < sd j ∧ Tendsto (fun N => ((rec N).getD t ([], [], [])).2.1.getD j 0) atTop (𝓝 (E t fun x => x j)) ∧
          Tendsto (fun N => ((rec N).getD t ([], [], [])).2.2.getD j 0) atTop (𝓝 (sd j))) ∧
        ∀ α : List ℕ, α.length = d → Tendsto (fun N => ((rec N).getD t ([], [], [])).1.getD ((full N).idxOf α) 0) atTop
          (𝓝 (E t fun x => ∏ j : Fin d, ((x j - E t fun x => x j) / sd j) ^ α.getD j 0))) := by
  intro pdfN M lik E
  -- the exact quantities of the coordinates
  set num1 : Fin d → (ℝ → ℝ) → List Y → ℝ := fun j f zs => ∫ x, markovE (K1 j) (pdf j) f zs x ∂μ j with hnum1
  have hprod : ∀ (f : Fin d → ℝ → ℝ) (zs : List Y), ∫ x, M (fun x => ∏ j, f j (x j)) zs x ∂Measure.pi μ = ∏ j, num1 j (f j) zs := by
    intro f zs
    simp only [M, markovE_pi K K1 hK]
    exact integral_fintype_prod_eq_prod (𝕜 := ℝ) fun j z => markovE (K1 j) (pdf j) (f j) zs z
  have hone : ∀ zs : List Y, ∫ x, M (fun _ => 1) zs x ∂Measure.pi μ = ∏ j, num1 j (fun _ => 1) zs := by
    intro zs
    rw [← hprod]; simp
  have h133 := fun zs j => C133_filters_converge B hB stable (K1 j) (hK1 j).exp (hK1 j).cont (hK1 j).growth (hK1 j).inf (μ j) (hμ j) (hinf j)
    (pdf j) (hpc j) (hpdf j) (hpb j) zs
  have hpos : ∀ zs j, 0 < num1 j (fun _ => 1) zs := fun zs j => (h133 zs j).1
  have hE : ∀ t (f : Fin d → ℝ → ℝ), E t (fun x => ∏ j, f j (x j))
      = ∏ j, (num1 j (f j) (ys.take (t + 1)) / num1 j (fun _ => 1) (ys.take (t + 1))) := by
    intro t f
    simp only [E]
    rw [hprod, hone, Finset.prod_div_distrib]
  have hEj : ∀ t j (f : ℝ → ℝ), E t (fun x => f (x j)) = num1 j f (ys.take (t + 1)) / num1 j (fun _ => 1) (ys.take (t + 1)) := by
    intro t j f
    have h := hE t fun i => if i = j then f else fun _ => 1
    have e : (fun x : Fin d → ℝ => ∏ i, (if i = j then f else fun _ => 1) (x i)) = fun x => f (x j) := by
      funext x
      rw [Finset.prod_eq_single j]
      · simp
      · intro i _ hi; simp [hi]
      · simp
    rw [e] at h
    rw [h, Finset.prod_eq_single j]
    · simp
    · intro i _ hi
      simp only [hi, if_false]
      exact div_self (hpos _ _).ne'
    · simp
  have hlik : -Real.log lik = ∑ j, -Real.log (num1 j (fun _ => 1) ys) := by
    simp only [lik]
    rw [hone, Real.log_prod fun j _ => (hpos ys j).ne', Finset.sum_neg_distrib]
  have h2N : Tendsto (fun N : ℕ => 2 * N) atTop atTop := tendsto_id.const_mul_atTop' (by norm_num)
  -- the multidimensional run
  set L : (j : Fin d) → ℝ → ℝ[X] →ₗ[ℝ] ℝ := fun j x => measLU (K1 j x) ((hK1 j).expMoments x) with hL
  have hLa : ∀ j x p, L j x p = ∫ z, p.eval z ∂K1 j x := fun _ _ _ => rfl
  have hnoise := fun N (hN : 2 ≤ N) (m0 s0 ms s : Fin d → ℝ) (hs : ∀ j, s j ≠ 0) =>
    C198_noise B hB N (by omega) hd (full N) (mats N) (hfull N (by omega)) (hmats N (by omega)) stable pdf hpdf L
      (fun j x => by rw [hLa]; simp) (fun j x q hq _ => measLU_sq_pos _ ((hK1 j).inf x) q hq)
      (fun j => (List.range (2 * N)).map fun k => ∫ x, ((x - ms j) / s j) ^ k ∂μ j) (fun j => by simp)
      (fun j => by rw [getD_range_map _ _ (by omega)]; simp)
      (fun j => gramOf_law_posDef (hμ j) (hinf j) _ _ (hs j) _) m0 s0 ys
  have hinit : ∀ N ≥ 2, ∀ ms s : Fin d → ℝ, ((full N).map fun α => ∫ x, ∏ j : Fin d, ((x j - ms j) / s j) ^ α.getD j 0 ∂Measure.pi μ)
      = (full N).map fun α => ∏ j : Fin d, ((List.range (2 * N)).map fun k => ∫ x, ((x - ms j) / s j) ^ k ∂μ j).getD (α.getD j 0) 0 := by
    intro N hN ms s
    refine List.map_congr_left fun α hα => ?_
    rw [integral_fintype_prod_eq_prod (𝕜 := ℝ) fun j (z : ℝ) => ((z - ms j) / s j) ^ α.getD j 0]
    refine Finset.prod_congr rfl fun j _ => ?_
    rw [getD_range_map _ _ (((mem_full (by omega) hd (hfull N (by omega))).1 α hα).2 j)]
  have hPN : ∀ (x : List ℝ) (α : List ℕ) (m s : Fin d → ℝ), ∫ z, ∏ j : Fin d, ((z j - m j) / s j) ^ α.getD j 0 ∂K (fun j => x.getD j 0)
      = ∏ j : Fin d, L j (x.getD j 0) ((C (s j)⁻¹ * (X - C (m j))) ^ α.getD j 0) := by
    intro x α m s
    rw [hK, integral_fintype_prod_eq_prod (𝕜 := ℝ) fun j (z : ℝ) => ((z - m j) / s j) ^ α.getD j 0]
    refine Finset.prod_congr rfl fun j _ => ?_
    rw [hLa]
    simp only [eval_pow, eval_mul, eval_C, eval_sub, eval_X, div_eq_inv_mul]
  have hev : ∀ α : List ℕ, ∀ᶠ N in atTop, 2 ≤ N ∧ α.sum ≤ 2 * N - 1 := fun α => by
    filter_upwards [eventually_ge_atTop (α.sum + 2)] with N hN
    omega
  have hlik1 : ∀ j, -Real.log (∫ x, markovE (K1 j) (pdf j) (fun _ => 1) ys x ∂μ j) = -Real.log (num1 j (fun _ => 1) ys) := fun _ => rfl
  refine ⟨?_, ?_, ?_, ?_⟩
  · simp only [lik]; rw [hone]; exact Finset.prod_pos fun j _ => hpos ys j
  · set out := fun N j => filterRms B (fun x k => L j x (X ^ k)) (pdf j) ((List.range (2 * N)).map fun k => ∫ x, x ^ k ∂μ j) ys stable with hout
    refine ⟨fun N => (List.range ys.length).map fun t => (full N).map fun α => ∏ j : Fin d, ((out N j).1.getD t []).getD (α.getD j 0) 0,
      fun N => ∑ j, (out N j).2, fun N hN => ?_, ?_, fun t ht α hα => ?_⟩
    · have h := (hnoise N hN 0 0 0 (fun _ => 1) (fun _ => one_ne_zero)).1
      have hi := hinit N hN 0 fun _ => 1
      rw [← hi] at h
      simp only [Pi.zero_apply, sub_zero, div_one] at h
      refine Eq.trans ?_ h
      congr 2
      funext x α _
      have := hPN x α 0 fun _ => 1
      simpa using this
    · rw [hlik]
      refine tendsto_finsetSum _ fun j _ => ?_
      exact (((h133 ys j).2.1 (fun x k => L j x (X ^ k)) fun x k => by rw [hLa]; simp).1).comp h2N
    · rw [hE t fun j x => x ^ α.getD j 0]
      have hlim : Tendsto (fun N => ∏ j : Fin d, ((out N j).1.getD t []).getD (α.getD j 0) 0) atTop
          (𝓝 (∏ j, (num1 j (fun x => x ^ α.getD j 0) (ys.take (t + 1)) / num1 j (fun _ => 1) (ys.take (t + 1))))) :=
        tendsto_finsetProd _ fun j _ =>
          ((((h133 ys j).2.1 (fun x k => L j x (X ^ k)) fun x k => by rw [hLa]; simp).2 t ht).1 (α.getD j 0)).comp h2N
      refine hlim.congr' ?_
      filter_upwards [hev α] with N hN
      simp only [getD_range_rec _ _ ht]
      rw [getD_idxOf_map hd (hfull N (by omega)) α hα hN.2]
  · intro cm m0
    set out := fun N j => filterCms B (fun x k m => L j x ((X - C m) ^ k)) (cm j) (pdf j)
      ((List.range (2 * N)).map fun k => ∫ x, (x - m0 j) ^ k ∂μ j) (m0 j) ys stable with hout
    have h1 := fun j => (h133 ys j).2.2.1 (fun x k m => L j x ((X - C m) ^ k)) (cm j) (m0 j) fun x k m => by rw [hLa]; simp
    refine ⟨fun N => (List.range ys.length).map fun t => ((full N).map fun α => ∏ j : Fin d, ((out N j).1.getD t ([], 0)).1.getD (α.getD j 0) 0,
        List.ofFn fun j => ((out N j).1.getD t ([], 0)).2),
      fun N => ∑ j, (out N j).2, fun N hN => ?_, ?_, fun t ht => ⟨fun j => ?_, fun α hα => ?_⟩⟩
    · have h := (hnoise N hN m0 0 m0 (fun _ => 1) (fun _ => one_ne_zero)).2.1 cm
      have hi := hinit N hN m0 fun _ => 1
      rw [← hi] at h
      simp only [div_one] at h
      refine Eq.trans ?_ h
      congr 2
      funext x α m
      have := hPN x α (fun j => m.getD j 0) fun _ => 1
      simpa using this
    · rw [hlik]
      exact tendsto_finsetSum _ fun j _ => (h1 j).1.comp h2N
    · rw [hEj t j fun x => x]
      refine (((h1 j).2 t ht).1.comp h2N).congr fun N => ?_
      simp only [getD_range_rec _ _ ht]
      rw [getD_ofFn_fin]
      rfl
    · simp only [hEj t _ fun x => x]
      rw [hE t fun j x => (x - num1 j (fun x => x) (ys.take (t + 1)) / num1 j (fun _ => 1) (ys.take (t + 1))) ^ α.getD j 0]
      refine (tendsto_finsetProd Finset.univ fun j _ => (((h1 j).2 t ht).2.1 (α.getD j 0)).comp h2N).congr' ?_
      filter_upwards [hev α] with N hN
      simp only [getD_range_rec _ _ ht]
      rw [getD_idxOf_map hd (hfull N (by omega)) α hα hN.2]
      rfl
  · intro cm cv m0 s0 hs0 hcv
    set out := fun N j => filterScms B (fun x k m c => L j x ((C c⁻¹ * (X - C m)) ^ k)) (cm j) (cv j) (pdf j)
      ((List.range (2 * N)).map fun k => ∫ x, ((x - m0 j) / s0 j) ^ k ∂μ j) (m0 j) (s0 j) ys stable with hout
    have h1 := fun j => (h133 ys j).2.2.2 (fun x k m c => L j x ((C c⁻¹ * (X - C m)) ^ k)) (cm j) (cv j) (m0 j) (s0 j) (hs0 j)
      (fun x k m c => by rw [hLa]; simp [div_eq_inv_mul]) (hcv j)
    refine ⟨fun N => (List.range ys.length).map fun t => ((full N).map fun α => ∏ j : Fin d, ((out N j).1.getD t ([], 0, 0)).1.getD (α.getD j 0) 0,
        List.ofFn fun j => ((out N j).1.getD t ([], 0, 0)).2.1, List.ofFn fun j => ((out N j).1.getD t ([], 0, 0)).2.2),
      fun N => ∑ j, (out N j).2, fun N hN => ?_, ?_, fun t ht => ?_⟩
    · have h := (hnoise N hN m0 s0 m0 s0 hs0).2.2 hN cm cv hcv
      have hi := hinit N hN m0 s0
      rw [← hi] at h
      refine Eq.trans ?_ h
      congr 2
      funext x α a
      exact hPN x α (fun j => a.1.getD j 0) fun j => a.2.getD j 0
    · rw [hlik]
      exact tendsto_finsetSum _ fun j _ => (h1 j).1.comp h2N
    · intro sd
      have hsd : ∀ j, sd j = Real.sqrt (num1 j (fun x => (x - num1 j (fun x => x) (ys.take (t + 1)) / num1 j (fun _ => 1) (ys.take (t + 1))) ^ 2)
          (ys.take (t + 1)) / num1 j (fun _ => 1) (ys.take (t + 1))) := by
        intro j
        simp only [sd, hEj t _ fun x => x]
        rw [hEj t j fun x => (x - num1 j (fun x => x) (ys.take (t + 1)) / num1 j (fun _ => 1) (ys.take (t + 1))) ^ 2]
      refine ⟨fun j => ⟨?_, ?_, ?_⟩, fun α hα => ?_⟩
      · rw [hsd]
        exact Real.sqrt_pos.2 ((h1 j).2 t ht).2.1
      · rw [hEj t j fun x => x]
        refine (((h1 j).2 t ht).1.comp h2N).congr fun N => ?_
        simp only [getD_range_rec _ _ ht]
        rw [getD_ofFn_fin]
        rfl
      · rw [hsd]
        refine (((h1 j).2 t ht).2.2.1.comp h2N).congr fun N => ?_
        simp only [getD_range_rec _ _ ht]
        rw [getD_ofFn_fin]
        rfl
      · simp only [hEj t _ fun x => x, hsd]
        rw [hE t fun j x => ((x - num1 j (fun x => x) (ys.take (t + 1)) / num1 j (fun _ => 1) (ys.take (t + 1))) /
          Real.sqrt (num1 j (fun x => (x - num1 j (fun x => x) (ys.take (t + 1)) / num1 j (fun _ => 1) (ys.take (t + 1))) ^ 2)
            (ys.take (t + 1)) / num1 j (fun _ => 1) (ys.take (t + 1)))) ^ α.getD j 0]
        refine (tendsto_finsetProd Finset.univ fun j _ => (((h1 j).2 t ht).2.2.2.1 (α.getD j 0)).comp h2N).congr' ?_
        filter_upwards [hev α] with N hN
        simp only [getD_range_rec _ _ ht]
        rw [getD_idxOf_map hd (hfull N (by omega)) α hα hN.2]
        rfl

/-- the hypotheses are met in two dimensions by coordinates with different linear-Gaussian dynamics and normal likelihoods. -/
example : (∃ (full : ℕ → List (List ℕ)) (mats : ℕ → List (List (List ℤ))), (∀ N ≥ 1, generateMultiIndices 2 (2 * N - 1) 0 = .ok (full N)) ∧
      ∀ N ≥ 1, gramAndHankelIndices N 2 = .ok (mats N)) ∧
    (∃ K : Kernel (Fin 2 → ℝ) (Fin 2 → ℝ), ∀ x, K x = Measure.pi fun j => linKernel (![0.9, 0.5] j) 1 (x j)) ∧
    (∀ j : Fin 2, GoodKernel (linKernel (![0.9, 0.5] j) 1)) ∧
    (∀ c : ℝ, Integrable (fun x => Real.exp (c * x)) (gaussianReal 0 1)) ∧ (∀ s : Finset ℝ, gaussianReal 0 1 (s : Set ℝ)ᶜ ≠ 0) ∧
    (∀ (j : Fin 2) (y : Fin 2 → ℝ), Continuous (fun x => Experiments.normPdf (y j) x (√1)) ∧ (∀ x, 0 < Experiments.normPdf (y j) x (√1)) ∧
      ∃ G, ∀ x, Experiments.normPdf (y j) x (√1) ≤ G) ∧ ∃ B : Backend, B.Valid := by
  refine ⟨?_, ⟨piKernel fun j => linKernel (![0.9, 0.5] j) 1, piKernel_apply _⟩, fun j => linKernel_good _ one_ne_zero, gaussianReal_expMoments 0 1,
    gaussianReal_inf 0 one_ne_zero, fun j y => ⟨normPdf_continuous (y j) _, fun x => normPdf_pos (y j) x _, _, fun x => normPdf_le (y j) x one_pos⟩,
    _, theBackend_valid⟩
  have h1 : ∀ N : ℕ, ∃ t, generateMultiIndices 2 (2 * N - 1) 0 = .ok t := fun N =>
    let ⟨t, ht, _⟩ := C01_generate_complete 2 (2 * N - 1) 0 (by norm_num) (by omega); ⟨t, ht⟩
  have h2 : ∀ N : ℕ, ∃ t, N ≥ 1 → gramAndHankelIndices N 2 = .ok t := fun N => by
    by_cases hN : 1 ≤ N
    · obtain ⟨_, _, t, _, _, ht, _⟩ := C05_gram_hankel_indices N 2 hN (by norm_num)
      exact ⟨t, fun _ => ht⟩
    · exact ⟨[], fun h => absurd h hN⟩
  choose full hf using h1
  choose mats hm using h2
  exact ⟨full, mats, fun N _ => hf N, hm⟩

end Mfs.Props

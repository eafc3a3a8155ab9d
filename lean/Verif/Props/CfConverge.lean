import Verif.Props.NormalModels
import Verif.Props.PostProcessing
import Verif.Props.OuConverge

/-!
# C136: the errors of the Beneš–Bernoulli experiment tend to zero
-/

namespace Mfs.Props

open Matrix Mfs.Spec Mfs.Quad1 Mfs.Filter1 Mfs.Moments1 Mfs.SsModels Mfs.Experiments Mfs.Converge MeasureTheory ProbabilityTheory Filter Topology
open scoped NNReal

variable {Y : Type}

/-- characteristic function of the exact filtering law. -/
noncomputable def posteriorCf (K : Kernel ℝ ℝ) (pdf : Y → ℝ → ℝ) (μ : Measure ℝ) (ys : List Y) (t : ℕ) (z : ℝ) : ℂ :=
  ⟨posterior K pdf μ ys t fun x => Real.cos (z * x), posterior K pdf μ ys t fun x => Real.sin (z * x)⟩

theorem characteristicFn_eq (B : Backend) (z : ℝ) (ms : List ℝ) (mean scale : ℝ) :
    characteristicFn B z ms mean scale
      = ⟨integ (momentQuadrature B ms mean scale false false) fun x => Real.cos (z * x),
          integ (momentQuadrature B ms mean scale false false) fun x => Real.sin (z * x)⟩ := by
  rw [characteristicFn]
  have h : ∀ x w : ℝ, Complex.exp (Complex.I * z * x) * w = ⟨w * Real.cos (z * x), w * Real.sin (z * x)⟩ := by
    intro x w
    have : Complex.I * z * x = ((z * x : ℝ) : ℂ) * Complex.I := by push_cast; ring
    rw [this]
    generalize z * x = u
    apply Complex.ext
    · rw [Complex.re_mul_ofReal, Complex.exp_ofReal_mul_I_re, mul_comm]
    · rw [Complex.im_mul_ofReal, Complex.exp_ofReal_mul_I_im, mul_comm]
  simp only [h]
  apply Complex.ext
  · simp [integ, Complex.re_sum]
  · simp [integ, Complex.im_sum]

theorem cos_growth (z : ℝ) : ∃ (C : ℝ) (j : ℕ), ∀ x : ℝ, |Real.cos (z * x)| ≤ C * (1 + |x| ^ j) :=
  ⟨1, 0, fun x => (Real.abs_cos_le_one _).trans (by norm_num)⟩

theorem sin_growth (z : ℝ) : ∃ (C : ℝ) (j : ℕ), ∀ x : ℝ, |Real.sin (z * x)| ≤ C * (1 + |x| ^ j) :=
  ⟨1, 0, fun x => (Real.abs_sin_le_one _).trans (by norm_num)⟩

theorem tendsto_complex {f g : ℕ → ℝ} {a b : ℝ} (hf : Tendsto f atTop (𝓝 a)) (hg : Tendsto g atTop (𝓝 b)) :
    Tendsto (fun N => (⟨f N, g N⟩ : ℂ)) atTop (𝓝 ⟨a, b⟩) := by
  have h1 := ((Complex.continuous_ofReal.tendsto a).comp hf).add (((Complex.continuous_ofReal.tendsto b).comp hg).mul_const Complex.I)
  have e : ∀ a b : ℝ, (a : ℂ) + b * Complex.I = ⟨a, b⟩ := fun a b => (Complex.mk_eq_add_mul_I a b).symm
  simp only [Function.comp_apply, e] at h1
  exact h1

theorem tendsto_errs {m : ℕ} (zs : Fin (m + 1) → ℝ) (f : Fin (m + 1) → ℂ) (g : ℕ → Fin (m + 1) → ℂ)
    (h : ∀ i, Tendsto (fun N => g N i) atTop (𝓝 (f i))) :
    Tendsto (fun N => errL1 zs f (g N)) atTop (𝓝 0) ∧ Tendsto (fun N => errL2 zs f (g N)) atTop (𝓝 0) ∧
    Tendsto (fun N => errSup f (g N)) atTop (𝓝 0) := by
  have hd : ∀ i, Tendsto (fun N => ‖f i - g N i‖) atTop (𝓝 0) := fun i => by
    simpa using ((h i).const_sub (f i)).norm
  have htr : ∀ e : ℕ → Fin (m + 1) → ℝ, (∀ i, Tendsto (fun N => e N i) atTop (𝓝 0)) → Tendsto (fun N => Experiments.trapz (e N) zs) atTop (𝓝 0) := by
    intro e he
    have := tendsto_finsetSum (f := fun (i : Fin m) N => (zs i.succ - zs i.castSucc) * (e N i.succ + e N i.castSucc) / 2)
      (a := fun _ => 0) Finset.univ fun i _ => by
        simpa using (((he i.succ).add (he i.castSucc)).const_mul (zs i.succ - zs i.castSucc)).div_const 2
    simpa [Experiments.trapz] using this
  refine ⟨htr _ hd, ?_, ?_⟩
  · have := (htr (fun N i => ‖f i - g N i‖ ^ 2) fun i => by simpa using (hd i).pow 2).sqrt
    simpa [errL2] using this
  · refine squeeze_zero (g := fun N => ∑ i, ‖f i - g N i‖) (fun N => ?_) (fun N => ?_) ?_
    · exact (norm_nonneg _).trans (Finset.le_sup' (fun i => ‖f i - g N i‖) (Finset.mem_univ (0 : Fin (m + 1))))
    · exact Finset.sup'_le _ _ fun i hi => Finset.single_le_sum (f := fun i => ‖f i - g N i‖) (fun j _ => norm_nonneg _) hi
    · have := tendsto_finsetSum (f := fun (i : Fin (m + 1)) N => ‖f i - g N i‖) (a := fun _ => 0) Finset.univ fun i _ => hd i
      simpa using this

theorem RawConverges.cf {B : Backend} {K : Kernel ℝ ℝ} {pdf : Y → ℝ → ℝ} {μ : Measure ℝ} {ys : List Y} {a : ℕ → List (List ℝ) × ℝ}
    (h : RawConverges B K pdf μ ys a) {t : ℕ} (ht : t < ys.length) (z : ℝ) :
    Tendsto (fun N => characteristicFn B z ((a N).1.getD t [])) atTop (𝓝 (posteriorCf K pdf μ ys t z)) := by
  simp only [characteristicFn_eq]
  exact tendsto_complex ((h.2.2 t ht).2 _ false false (by fun_prop) (cos_growth z)) ((h.2.2 t ht).2 _ false false (by fun_prop) (sin_growth z))

theorem CentralConverges.cf {B : Backend} {K : Kernel ℝ ℝ} {pdf : Y → ℝ → ℝ} {μ : Measure ℝ} {ys : List Y}
    {a : ℕ → List (List ℝ × ℝ) × ℝ} (h : CentralConverges B K pdf μ ys a) {t : ℕ} (ht : t < ys.length) (z : ℝ) :
    Tendsto (fun N => characteristicFn B z ((a N).1.getD t ([], 0)).1 ((a N).1.getD t ([], 0)).2) atTop (𝓝 (posteriorCf K pdf μ ys t z)) := by
  simp only [characteristicFn_eq]
  exact tendsto_complex ((h.2.2 t ht).2.2 _ false false (by fun_prop) (cos_growth z)) ((h.2.2 t ht).2.2 _ false false (by fun_prop) (sin_growth z))

/-- **C136.** In the Beneš–Bernoulli experiment with `--normal`, in the modes `raw` and `central`: provided that the mean and the variance
computed by the package `tme` are continuous and grow at most linearly and the variance is positive, the errors that `compute_errs.py`
reports for the moment filter, with respect to the exact filter of the chain with these normal transitions, tend to zero as `N` grows:
the absolute error of the mean and the `L¹`, `L²` and supremum errors of the characteristic function, on any grid, at every time. -/
theorem C136_benes_errors (B : Backend) (hB : B.Valid) (stable : Bool) (expect : (ℝ → ℝ) → ℝ → ℝ) (meanCov : ℝ → ℝ × ℝ)
    (hc : Continuous meanCov) (hv : ∀ x, 0 < (meanCov x).2) (A : ℝ) (hA : ∀ x, |(meanCov x).1| ≤ A * (1 + |x|) ∧ (meanCov x).2 ≤ A * (1 + |x|))
    (ys : List Bool) {m : ℕ} (zs : Fin (m + 1) → ℝ) (t : ℕ) (ht : t < ys.length) :
    let K := normalKernel (fun x => (meanCov x).1) (fun x => (meanCov x).2.toNNReal) (by fun_prop) (by fun_prop)
    let μ := mixture [⟨-0.5, 0.05, 0.5⟩, ⟨0.5, 0.05, 0.5⟩]
    let F := fun N => sdeCondMomentsTmeNormal expect meanCov N
    let lik := fun (y : Bool) (x : ℝ) => if y then 1 / (1 + Real.exp (-x ^ 3 / 5)) else 1 - 1 / (1 + Real.exp (-x ^ 3 / 5))
    let trueMean := posterior K lik μ ys t fun x => x
    let trueCf := fun i => posteriorCf K lik μ ys t (zs i)
    ∀ out : ℕ → List (ℝ × (Fin (m + 1) → ℂ)),
      (out = (fun N => postRaw B zs (filterRms B (F N).raw benesBool (init1 N).rms ys stable).1) ∨
        out = fun N => postCentral B zs (filterCms B (F N).central (F N).mean benesBool (init1 N).cms (init1 N).mean ys stable).1) →
      let o := fun N => (out N).getD t (0, fun _ => 0)
      (∀ N, (out N).length = ys.length) ∧
      Tendsto (fun N => |trueMean - (o N).1|) atTop (𝓝 0) ∧ Tendsto (fun N => errL1 zs trueCf (o N).2) atTop (𝓝 0) ∧
      Tendsto (fun N => errL2 zs trueCf (o N).2) atTop (𝓝 0) ∧ Tendsto (fun N => errSup trueCf (o N).2) atTop (𝓝 0) := by
  intro K μ F lik trueMean trueCf out hout
  have hlik : benesBool = lik := benesBool_eq
  obtain ⟨ha, hb⟩ := C135_tme_normal_converges B hB stable expect meanCov hc hv A hA _ init1_ok.1 init1_ok.2.1 init1_ok.2.2 benesBool
    benesBool_continuous benesBool_pos (fun y => ⟨1, benesBool_le y⟩) ys
  change RawConverges B K benesBool μ ys (fun N => filterRms B (F N).raw benesBool (init1 N).rms ys stable) at ha
  change CentralConverges B K benesBool μ ys
    (fun N => filterCms B (F N).central (F N).mean benesBool (init1 N).cms (init1 N).mean ys stable) at hb
  replace ha : RawConverges B K lik μ ys (fun N => filterRms B (F N).raw benesBool (init1 N).rms ys stable) := by rw [← hlik]; exact ha
  replace hb : CentralConverges B K lik μ ys
    (fun N => filterCms B (F N).central (F N).mean benesBool (init1 N).cms (init1 N).mean ys stable) := by rw [← hlik]; exact hb
  rcases hout with rfl | rfl
  · intro o
    refine ⟨fun N => by beta_reduce; rw [postRaw, List.length_map, filterRms_eq, length_traj], ?_⟩
    have hlt : ∀ N, t < (filterRms B (F N).raw benesBool (init1 N).rms ys stable).1.length := fun N => by rw [filterRms_eq, length_traj]; exact ht
    have ho : ∀ N, o N = _ := fun N => getD_map_of_lt _ (filterRms B (F N).raw benesBool (init1 N).rms ys stable).1 t (hlt N) (0, fun _ => 0) []
    have hmean : Tendsto (fun N => (o N).1) atTop (𝓝 trueMean) := by
      have h := (ha.2.2 t ht).1 1
      simp only [pow_one] at h
      refine h.congr' ?_
      filter_upwards [eventually_ge_atTop 1] with N hN
      rw [ho]
      have hl : (init1 N).rms.length = 2 * N := by simp [init1, GaussianSum1D.new]
      refine (jget_eq ?_).symm
      rw [filterRms_eq]
      obtain ⟨p, y, e⟩ := traj_getD (g := nextRms B stable (F N).raw benesBool (init1 N).rms.length) (init1 N).rms ys t ht []
      rw [e, nextRms, List.length_map, List.length_range, hl]
      omega
    refine ⟨by simpa using (hmean.const_sub trueMean).abs, tendsto_errs zs trueCf _ fun i => ?_⟩
    refine (ha.cf ht (zs i)).congr fun N => ?_
    rw [ho]
  · intro o
    refine ⟨fun N => by beta_reduce; rw [postCentral, List.length_map, filterCms_eq, length_traj], ?_⟩
    have hlt : ∀ N, t < (filterCms B (F N).central (F N).mean benesBool (init1 N).cms (init1 N).mean ys stable).1.length := fun N => by
      rw [filterCms_eq, length_traj]; exact ht
    have ho : ∀ N, o N = _ := fun N => getD_map_of_lt _
      (filterCms B (F N).central (F N).mean benesBool (init1 N).cms (init1 N).mean ys stable).1 t (hlt N) (0, fun _ => 0) ([], 0)
    have hmean : Tendsto (fun N => (o N).1) atTop (𝓝 trueMean) := by
      refine (hb.2.2 t ht).1.congr fun N => ?_
      rw [ho]
    refine ⟨by simpa using (hmean.const_sub trueMean).abs, tendsto_errs zs trueCf _ fun i => ?_⟩
    refine (hb.cf ht (zs i)).congr fun N => ?_
    rw [ho]

/-- the hypotheses: order one of the expansion, `x + tanh(x) dt` and `dt`. -/
example : Continuous (fun x : ℝ => (x + benesDrift x * 0.01, (0.01 : ℝ))) ∧
    (∀ x : ℝ, |x + benesDrift x * 0.01| ≤ 2 * (1 + |x|) ∧ (0.01 : ℝ) ≤ 2 * (1 + |x|)) ∧ ∃ B : Backend, B.Valid := by
  refine ⟨?_, fun x => ⟨?_, ?_⟩, _, theBackend_valid⟩
  · have := contDiff_benesDrift.continuous
    fun_prop
  · have h1 := abs_tanh_le x
    have h2 := abs_add_le x (benesDrift x * 0.01)
    have h3 : |benesDrift x * 0.01| ≤ 1 := by
      rw [benesDrift, abs_mul, abs_of_pos (by norm_num : (0 : ℝ) < 0.01)]
      linarith
    linarith [abs_nonneg x]
  · linarith [abs_nonneg x]

end Mfs.Props

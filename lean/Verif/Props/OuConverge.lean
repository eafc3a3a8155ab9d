import Verif.Model.ConvergenceMf
import Verif.Lemmas.ScalarKalman
import Verif.Props.NormalModels

/-!
# C134: the convergence experiment converges
-/

namespace Mfs.Props

open Matrix Mfs.Spec Mfs.Quad1 Mfs.Filter1 Mfs.Moments1 Mfs.Experiments Mfs.Converge MeasureTheory ProbabilityTheory Filter Topology
open scoped NNReal

theorem integral_sub_sq_gaussian (m c : ℝ) {v : ℝ} (hv : 0 ≤ v) : ∫ x, (x - c) ^ 2 ∂gaussianReal m v.toNNReal = v + (m - c) ^ 2 := by
  rw [integral_sq_gaussian, Real.coe_toNNReal _ hv]

theorem tendsto_errKl {m v : ℕ → ℝ} {trueM trueV : ℝ} (hv : 0 < trueV) (hm : Tendsto m atTop (𝓝 trueM)) (hvt : Tendsto v atTop (𝓝 trueV)) :
    Tendsto (fun N => errKl (m N) (v N) trueM trueV) atTop (𝓝 0) := by
  have hl := (Real.continuousAt_log hv.ne').tendsto.comp hvt
  have h1 := (Real.continuous_exp.tendsto _).comp (hl.sub_const (Real.log trueV))
  have h2 := ((hm.const_sub trueM).pow 2).div_const trueV
  have h3 := ((((h1.sub_const 1).add h2).add_const (Real.log trueV)).sub hl).const_mul 0.5
  refine Tendsto.congr (fun N => ?_) (Eq.mp (congrArg _ (congrArg 𝓝 ?_)) h3)
  · rfl
  · simp

theorem tendsto_errors {o : ℕ → ℝ × ℝ} {tm : ℝ × ℝ} (hv : 0 < tm.2) (h1 : Tendsto (fun N => (o N).1) atTop (𝓝 tm.1))
    (h2 : Tendsto (fun N => (o N).2) atTop (𝓝 tm.2)) :
    Tendsto (fun N => |(o N).1 - tm.1|) atTop (𝓝 0) ∧ Tendsto (fun N => |(o N).2 - tm.2|) atTop (𝓝 0) ∧
    Tendsto (fun N => errKl (o N).1 (o N).2 tm.1 tm.2) atTop (𝓝 0) :=
  ⟨by simpa using (h1.sub_const tm.1).abs, by simpa using (h2.sub_const tm.2).abs, tendsto_errKl hv h1 h2⟩

theorem length_scan_out {C Y O : Type} (f : C → Y → C × O) (c : C) (ys : List Y) : (scan f c ys).2.length = ys.length := by
  induction ys generalizing c with
  | nil => rfl
  | cons y ys ih => simp [scan, ih]

theorem getD_map_of_lt {α β : Type} (g : α → β) (l : List α) (t : ℕ) (ht : t < l.length) (d' : β) (d : α) :
    (l.map g).getD t d' = g (l.getD t d) := by
  simp [List.getD_eq_getElem?_getD, ht]

theorem traj_getD {S Y : Type} {g : S → Y → S} (s : S) (ys : List Y) (t : ℕ) (ht : t < ys.length) (d : S) :
    ∃ p y, (traj g s ys).getD t d = g p y := by
  induction ys generalizing s t with
  | nil => simp at ht
  | cons y ys ih =>
    cases t with
    | zero => exact ⟨s, y, by simp [traj]⟩
    | succ t =>
      obtain ⟨p, z, e⟩ := ih (g s y) t (by simpa using ht)
      exact ⟨p, z, by rw [← e]; simp [traj]⟩

/-- **C134.** In the convergence experiment (an Ornstein–Uhlenbeck state observed in normal noise; `F` and `Sigma`, `R`, `var0`
positive are otherwise arbitrary), the negative log-likelihoods of the raw and of the central moment filter converge, as the number
`2 N` of moments grows, to the one returned by the script's Kalman filter; the means and variances reported by the script converge
to the Kalman ones at every time, so that all three errors (of the mean, of the variance, and the Kullback–Leibler error) tend to
zero. `df` is SciPy's double factorial with `(-1)!! = 1`. -/
theorem C134_ou_converges (B : Backend) (hB : B.Valid) (df : ℤ → ℕ) (hdf : ∀ n : ℕ, df n = n.doubleFactorial) (hdf1 : df (-1) = 1)
    (F Sigma R mean0 var0 : ℝ) (hS : 0 < Sigma) (hR : 0 < R) (hv0 : 0 < var0) (ys : List ℝ) :
    let true_ := kf F Sigma R mean0 var0 ys
    Tendsto (fun N => (filterRms B (condRaw F Sigma N) (condPdf R) (mfRms0 mean0 var0 N) ys).2) atTop (𝓝 true_.2) ∧
    Tendsto (fun N => (filterCms B (condCentral F Sigma N) (condMean F) (condPdf R) (mfCms0 df var0 N) mean0 ys).2) atTop (𝓝 true_.2) ∧
    ∀ out : ℕ → List (ℝ × ℝ), (out = (fun N => mfRaw B F Sigma R mean0 var0 N ys) ∨ out = fun N => mfCentral B df F Sigma R mean0 var0 N ys) →
      (∀ N, (out N).length = true_.1.length) ∧
      ∀ t < ys.length,
        let tm := true_.1.getD t (0, 0)
        let o := fun N => (out N).getD t (0, 0)
        Tendsto (fun N => |(o N).1 - tm.1|) atTop (𝓝 0) ∧ Tendsto (fun N => |(o N).2 - tm.2|) atTop (𝓝 0) ∧
        Tendsto (fun N => errKl (o N).1 (o N).2 tm.1 tm.2) atTop (𝓝 0) := by
  intro true_
  have hS0 : Sigma.toNNReal ≠ 0 := by rw [Ne, Real.toNNReal_eq_zero, not_le]; exact hS
  have hvN : var0.toNNReal ≠ 0 := by rw [Ne, Real.toNNReal_eq_zero, not_le]; exact hv0
  have key := normal_converges B hB false (fun x => F * x) (fun _ => Sigma) (by fun_prop) (by fun_prop) (fun _ => hS) (|F| + Sigma)
    (fun x => by
      rw [abs_mul]
      nlinarith [abs_nonneg x, abs_nonneg F, mul_nonneg (abs_nonneg x) hS.le])
    (fun x => by
      nlinarith [abs_nonneg x, abs_nonneg F, mul_nonneg (abs_nonneg x) (abs_nonneg F), mul_nonneg (abs_nonneg x) hS.le])
    (gaussianReal mean0 var0.toNNReal) (gaussianReal_expMoments _ _) (gaussianReal_inf _ hvN) (condPdf R)
    (fun y => normPdf_continuous y _) (fun y x => normPdf_pos y x _) (fun y => ⟨_, fun x => normPdf_le y x hR⟩)
    (condRaw F Sigma) (fun N x k hk => jget_map_range _ hk) (condCentral F Sigma) (fun N x c k hk => jget_map_range _ hk)
    (condMean F) mean0 ys
  obtain ⟨⟨-, k1, k2'⟩, -, k3, k4'⟩ := key
  have k2 := fun t ht => (k2' t ht).1
  have k4 := fun t ht => (k4' t ht).imp_right And.left
  simp only [posterior] at k2 k4
  have er : ∀ N, ((List.range (2 * N)).map fun k => ∫ x, x ^ k ∂gaussianReal mean0 var0.toNNReal) = mfRms0 mean0 var0 N := by
    intro N
    refine List.map_congr_left fun k _ => ?_
    rw [rawNormal_raw _ _ hv0.le]
  have ec : ∀ N, ((List.range (2 * N)).map fun k => ∫ x, (x - mean0) ^ k ∂gaussianReal mean0 var0.toNNReal) = mfCms0 df var0 N := by
    intro N
    refine List.map_congr_left fun k _ => ?_
    have h := C39_normal_moments.2.2 df hdf mean0 var0.toNNReal k
    rw [Real.coe_toNNReal _ hv0.le] at h
    rcases eq_or_ne k 0 with rfl | hk
    · exact (h.2.2 hdf1).symm
    · exact (h.1 hk).symm
  have hcarry : ∀ (f : ℝ → ℝ) (_ : Measurable f) (_ : PolyGrowth f) (zs : List ℝ),
      ∫ x, markovE (normalKernel (fun x => F * x) (fun _ => Sigma.toNNReal) (by fun_prop) (by fun_prop)) (condPdf R) f zs x
        ∂gaussianReal mean0 var0.toNNReal
      = Real.exp (0 - (scan (kfBody F Sigma R) (mean0, var0, 0) zs).1.2.2)
        * ∫ x, f x ∂gaussianReal (scan (kfBody F Sigma R) (mean0, var0, 0) zs).1.1 (scan (kfBody F Sigma R) (mean0, var0, 0) zs).1.2.1.toNNReal :=
    fun f hf hg zs => (kf_markovE F hS hR hf hg zs mean0 var0 0 hv0).2
  have hpos : ∀ zs, 0 < (scan (kfBody F Sigma R) (mean0, var0, 0) zs).1.2.1 := fun zs =>
    (kf_markovE F hS hR measurable_const (PolyGrowth.const 1) zs mean0 var0 0 hv0).1
  have hone := fun zs => hcarry (fun _ => 1) measurable_const (PolyGrowth.const 1) zs
  simp only [integral_const, smul_eq_mul, mul_one, measureReal_def, measure_univ, ENNReal.toReal_one, zero_sub] at hone hcarry
  have hE : ∀ (f : ℝ → ℝ) (_ : Measurable f) (_ : PolyGrowth f) (t : ℕ), t < ys.length →
      (∫ x, markovE (normalKernel (fun x => F * x) (fun _ => Sigma.toNNReal) (by fun_prop) (by fun_prop)) (condPdf R) f (ys.take (t + 1)) x
        ∂gaussianReal mean0 var0.toNNReal)
        / (∫ x, markovE (normalKernel (fun x => F * x) (fun _ => Sigma.toNNReal) (by fun_prop) (by fun_prop)) (condPdf R) (fun _ => 1)
          (ys.take (t + 1)) x ∂gaussianReal mean0 var0.toNNReal)
      = ∫ x, f x ∂gaussianReal (true_.1.getD t (0, 0)).1 (true_.1.getD t (0, 0)).2.toNNReal := by
    intro f hf hg t ht
    rw [hcarry f hf hg, hone, mul_div_cancel_left₀ _ (Real.exp_pos _).ne']
    have : true_.1.getD t (0, 0) = _ := kf_getD F Sigma R ys (mean0, var0, 0) t ht (0, 0)
    rw [this]
  have hvpos : ∀ t < ys.length, 0 < (true_.1.getD t (0, 0)).2 := by
    intro t ht
    have : true_.1.getD t (0, 0) = _ := kf_getD F Sigma R ys (mean0, var0, 0) t ht (0, 0)
    rw [this]
    exact hpos _
  have hnell : -Real.log (∫ x, markovE (normalKernel (fun x => F * x) (fun _ => Sigma.toNNReal) (by fun_prop) (by fun_prop)) (condPdf R)
      (fun _ => 1) ys x ∂gaussianReal mean0 var0.toNNReal) = true_.2 := by
    rw [hone, Real.log_exp, neg_neg]
    rfl
  have hid : ∀ t < ys.length, ∫ x, x ∂gaussianReal (true_.1.getD t (0, 0)).1 (true_.1.getD t (0, 0)).2.toNNReal = (true_.1.getD t (0, 0)).1 :=
    fun t _ => integral_id_gaussianReal
  simp only [er] at k1 k2
  simp only [ec] at k3 k4
  rw [hnell] at k1 k3
  have hlenk : true_.1.length = ys.length := length_scan_out _ _ _
  refine ⟨k1, k3, ?_⟩
  rintro out (rfl | rfl)
  · refine ⟨fun N => ?_, fun t ht => ?_⟩
    · beta_reduce
      rw [hlenk, mfRaw, List.length_map, filterRms_eq, length_traj]
    · intro tm o
      set r := fun N => (filterRms B (condRaw F Sigma N) (condPdf R) (mfRms0 mean0 var0 N) ys).1.getD t [] with hr
      have hrl : ∀ N, (r N).length = 2 * N := by
        intro N
        rw [hr]
        simp only [filterRms_eq]
        obtain ⟨p, y, e⟩ := traj_getD (g := nextRms B false (condRaw F Sigma N) (condPdf R) (mfRms0 mean0 var0 N).length)
          (mfRms0 mean0 var0 N) ys t ht []
        rw [e, nextRms, List.length_map, List.length_range, mfRms0, List.length_map, List.length_range]
      have ho : ∀ N ≥ 2, o N = ((r N).getD 1 0, (r N).getD 2 0 - (r N).getD 1 0 ^ 2) := by
        intro N hN
        have : o N = _ := getD_map_of_lt _ (filterRms B (condRaw F Sigma N) (condPdf R) (mfRms0 mean0 var0 N) ys).1 t
          (by rw [filterRms_eq, length_traj]; exact ht) (0, 0) []
        rw [this, ← jget_eq (by rw [hrl]; omega), ← jget_eq (by rw [hrl]; omega)]
      have t1 : Tendsto (fun N => (r N).getD 1 0) atTop (𝓝 tm.1) := by
        have h := k2 t ht 1
        rw [hE _ (by fun_prop) (PolyGrowth.pow 1) t ht] at h
        simp only [pow_one] at h
        rw [hid t ht] at h
        exact h
      have t2 : Tendsto (fun N => (r N).getD 2 0 - (r N).getD 1 0 ^ 2) atTop (𝓝 tm.2) := by
        have h := k2 t ht 2
        rw [hE _ (by fun_prop) (PolyGrowth.pow 2) t ht] at h
        have e := integral_sub_sq_gaussian tm.1 0 (hvpos t ht).le
        simp only [sub_zero] at e
        change Tendsto _ _ (𝓝 (∫ x, x ^ 2 ∂gaussianReal tm.1 tm.2.toNNReal)) at h
        rw [show ∫ x, x ^ 2 ∂gaussianReal tm.1 tm.2.toNNReal = tm.2 + tm.1 ^ 2 from e] at h
        have h' := h.sub (t1.pow 2)
        rw [add_sub_cancel_right] at h'
        exact h'
      exact tendsto_errors (hvpos t ht) (o := o)
        (t1.congr' (by filter_upwards [eventually_ge_atTop 2] with N hN; rw [ho N hN]))
        (t2.congr' (by filter_upwards [eventually_ge_atTop 2] with N hN; rw [ho N hN]))
  · refine ⟨fun N => ?_, fun t ht => ?_⟩
    · beta_reduce
      rw [hlenk, mfCentral, List.length_map, filterCms_eq, length_traj]
    · intro tm o
      set r := fun N => (filterCms B (condCentral F Sigma N) (condMean F) (condPdf R) (mfCms0 df var0 N) mean0 ys).1.getD t ([], 0) with hr
      have hrl : ∀ N, (r N).1.length = 2 * N := by
        intro N
        rw [hr]
        simp only [filterCms_eq]
        obtain ⟨p, y, e⟩ := traj_getD (g := nextCms B false (condCentral F Sigma N) (condMean F) (condPdf R) (mfCms0 df var0 N).length)
          (mfCms0 df var0 N, mean0) ys t ht ([], 0)
        rw [e, nextCms, List.length_map, List.length_range, mfCms0, List.length_map, List.length_range]
      have ho : ∀ N ≥ 2, o N = ((r N).2, (r N).1.getD 2 0) := by
        intro N hN
        have : o N = _ := getD_map_of_lt _ (filterCms B (condCentral F Sigma N) (condMean F) (condPdf R) (mfCms0 df var0 N) mean0 ys).1 t
          (by rw [filterCms_eq, length_traj]; exact ht) (0, 0) ([], 0)
        rw [this, ← jget_eq (by rw [hrl]; omega)]
      obtain ⟨c1, c2⟩ := k4 t ht
      have em := hE (fun x => x) (by fun_prop) (by simpa using PolyGrowth.pow 1) t ht
      rw [hid t ht] at em
      rw [em] at c1
      simp only [em] at c2
      have t2 : Tendsto (fun N => (r N).1.getD 2 0) atTop (𝓝 tm.2) := by
        have h := c2 2
        rw [hE _ (by fun_prop) (PolyGrowth.sub_pow _ 2) t ht] at h
        have e : ∫ x, (x - tm.1) ^ 2 ∂gaussianReal tm.1 tm.2.toNNReal = tm.2 := by
          rw [integral_sub_sq_gaussian _ _ (hvpos t ht).le]
          ring
        rw [e] at h
        exact h
      exact tendsto_errors (hvpos t ht) (o := o)
        (c1.congr' (by filter_upwards [eventually_ge_atTop 2] with N hN; rw [ho N hN]))
        (t2.congr' (by filter_upwards [eventually_ge_atTop 2] with N hN; rw [ho N hN]))

/-- the constants of the script: `ell = 1`, `sigma = 0.5`, `dt = 0.1`, unit measurement noise. -/
example : 0 < ouSigma 1 0.5 0.1 ∧ (0 : ℝ) < 1 ∧ (0 : ℝ) < 0.5 ^ 2 ∧ (∃ df : ℤ → ℕ, (∀ n : ℕ, df n = n.doubleFactorial) ∧ df (-1) = 1) ∧
    ∃ B : Backend, B.Valid := by
  refine ⟨?_, one_pos, by norm_num, ⟨fun z => if z < 0 then 1 else z.toNat.doubleFactorial, fun n => by simp, by simp⟩, _, theBackend_valid⟩
  rw [ouSigma]
  have : Real.exp (-2 * 0.1 / 1) < 1 := by
    rw [← Real.exp_zero, Real.exp_lt_exp]
    norm_num
  nlinarith

end Mfs.Props

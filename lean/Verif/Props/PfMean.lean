import Verif.Props.PfCollapse
import Mathlib.Algebra.Order.Chebyshev

/-!
# C181: the errors of means and variances of the convergence experiment tend to zero in mean
-/

namespace Mfs.Props

open Mfs.Smc Mfs.Spec Mfs.Prng Mfs.Experiments Mfs.Converge Mfs.Lemmas MeasureTheory ProbabilityTheory Filter Topology
open scoped NNReal ENNReal

variable {K : Type}

/-- the average fourth power of the particles. -/
noncomputable def avg4 {n : ℕ} (s : Fin n → ℝ) : ℝ := (∑ i, s i ^ 4) / n

theorem avg4_nonneg {n : ℕ} (s : Fin n → ℝ) : 0 ≤ avg4 s := div_nonneg (Finset.sum_nonneg fun _ _ => by positivity) (Nat.cast_nonneg n)

theorem add_pow_four (x y : ℝ) : (x + y) ^ 4 ≤ 8 * (x ^ 4 + y ^ 4) := by
  nlinarith [sq_nonneg (x - y), sq_nonneg (x ^ 2 - y ^ 2), sq_nonneg (x + y), sq_nonneg (x ^ 2 - 2 * x * y + y ^ 2), sq_nonneg (x*y)]

/-- the weights favour the ancestors close to the measurement, so weighting does not increase the average distance. -/
theorem pfW_dist {F Sigma R : ℝ} (hS : 0 < Sigma) (hR : 0 < R) {n : ℕ} [NeZero n] (a : Fin n → ℝ) (y : ℝ) :
    ∑ i, pfW F Sigma R a y i * (F * a i - y) ^ 4 ≤ (∑ i, (F * a i - y) ^ 4) / n := by
  have hn : (0 : ℝ) < n := by exact_mod_cast NeZero.pos n
  have hs := pfW_sum_pos (F := F) hS hR a y
  set f : Fin n → ℝ := fun i => gaussianPDFReal (F * a i) (Sigma + R).toNNReal y with hf
  set g : Fin n → ℝ := fun i => (F * a i - y) ^ 4 with hg
  have hanti : AntivaryOn f g (Finset.univ : Finset (Fin n)) := by
    intro i _ j _ hij
    simp only [hf, gaussianPDFReal]
    refine mul_le_mul_of_nonneg_left (Real.exp_le_exp.2 ?_) (by positivity)
    have h2 : (F * a i - y) ^ 2 ≤ (F * a j - y) ^ 2 := by
      by_contra hlt
      push Not at hlt
      have : (F * a j - y) ^ 4 ≤ (F * a i - y) ^ 4 := by nlinarith [sq_nonneg (F * a j - y), sq_nonneg (F * a i - y)]
      exact absurd hij (not_lt.2 this)
    rw [neg_div, neg_div]
    refine neg_le_neg (div_le_div_of_nonneg_right ?_ (by positivity))
    nlinarith
  have h := hanti.card_mul_sum_le_sum_mul_sum
  simp only [Finset.card_univ, Fintype.card_fin] at h
  rw [le_div_iff₀ hn]
  have e : ∑ i, pfW F Sigma R a y i * (F * a i - y) ^ 4 = (∑ i, f i * g i) / ∑ i, f i := by
    rw [Finset.sum_div]
    exact Finset.sum_congr rfl fun i _ => by simp only [pfW, hf, hg]; ring
  rw [e, div_mul_eq_mul_div, div_le_iff₀ hs]
  nlinarith

variable [MeasurableSpace K]

/-- resampling does not change averages of nonnegative functions in mean. -/
theorem stratified_mean {G : Gen K} {ρ : Measure K} (hG : IdealGen G ρ) {n : ℕ} [NeZero n] (w : Fin n → ℝ) (hw : ∀ i, 0 ≤ w i) (h1 : ∑ i, w i = 1)
    (φ : ℝ → ℝ) (hφ : ∀ x, 0 ≤ φ x) (s : Fin n → ℝ) :
    ∫⁻ k, ENNReal.ofReal ((∑ j, φ (gather s (Prng.systematicOrStratified G ssCount false w k) j)) / n) ∂ρ = ∑ i, ENNReal.ofReal (w i * φ (s i)) := by
  have := hG.prob
  have hn : (0 : ℝ) < n := by exact_mod_cast NeZero.pos n
  obtain ⟨hm, hlt, hmean, -⟩ := idealGen_stratified hG n
  have hmj : ∀ j (i : ℕ), MeasurableSet {k | Prng.systematicOrStratified G ssCount false w k j = i} := fun j i => by
    have : Measurable fun k => Prng.systematicOrStratified G ssCount false w k j := (measurable_pi_apply j).comp (hm.comp (measurable_const.prodMk measurable_id))
    exact this (measurableSet_singleton i)
  have e : ∀ k, ENNReal.ofReal ((∑ j, φ (gather s (Prng.systematicOrStratified G ssCount false w k) j)) / n)
      = ∑ i : Fin n, ∑ j, Set.indicator {k | Prng.systematicOrStratified G ssCount false w k j = i} (fun _ => ENNReal.ofReal (φ (s i) / n)) k := fun k => by
    rw [Finset.sum_comm, Finset.sum_div, ENNReal.ofReal_sum_of_nonneg fun j _ => div_nonneg (hφ _) hn.le]
    refine Finset.sum_congr rfl fun j _ => ?_
    rw [Finset.sum_eq_single (⟨_, hlt w k j⟩ : Fin n)]
    · rw [Set.indicator_of_mem (by simp), gather_of_lt _ _ _ (hlt w k j)]
    · intro i _ hi
      refine Set.indicator_of_notMem (fun h => hi ?_) _
      ext
      exact (show _ = _ from h).symm
    · simp
  simp only [e]
  have hind : ∀ i j : Fin n, Measurable fun k =>
      Set.indicator {k | Prng.systematicOrStratified G ssCount false w k j = i} (fun _ => ENNReal.ofReal (φ (s i) / n)) k := fun i j =>
    measurable_const.indicator (hmj j i)
  rw [lintegral_finsetSum _ fun i _ => Finset.measurable_sum _ fun j _ => hind i j]
  refine Finset.sum_congr rfl fun i _ => ?_
  rw [lintegral_finsetSum _ fun j _ => hind i j]
  simp only [lintegral_indicator_const (hmj _ _)]
  rw [← Finset.mul_sum, hmean w hw h1 i, ← ENNReal.ofReal_mul (div_nonneg (hφ _) hn.le)]
  congr 1
  field_simp

/-- fourth moments of normal laws. -/
theorem gaussian_four (m : ℝ) {v : ℝ} (hv : 0 ≤ v) :
    ∫⁻ x, ENNReal.ofReal (x ^ 4) ∂gaussianReal m v.toNNReal ≤ ENNReal.ofReal (8 * (m ^ 4 + v ^ 2 * ∫ z, z ^ 4 ∂gaussianReal 0 1)) := by
  have hi : Integrable (fun z : ℝ => z ^ 4) (gaussianReal 0 1) := by
    have := memLp_id_gaussianReal (μ := 0) (v := 1) 4
    have h := this.integrable_norm_pow (by norm_num)
    refine h.congr (ae_of_all _ fun z => ?_)
    simp [Even.pow_abs (by decide : Even 4)]
  rw [← map_affine_gaussian m hv, lintegral_map (by fun_prop) (by fun_prop)]
  have h2 : ∫ z, 8 * (m ^ 4 + v ^ 2 * z ^ 4) ∂gaussianReal 0 1 = 8 * (m ^ 4 + v ^ 2 * ∫ z, z ^ 4 ∂gaussianReal 0 1) := by
    rw [integral_const_mul, integral_add (integrable_const _) (hi.const_mul _), integral_const_mul]
    simp
  have hi8 : Integrable (fun z : ℝ => 8 * (m ^ 4 + v ^ 2 * z ^ 4)) (gaussianReal 0 1) := ((integrable_const _).add (hi.const_mul _)).const_mul _
  rw [← h2, ofReal_integral_eq_lintegral_ofReal hi8 (ae_of_all _ fun z => by positivity)]
  refine lintegral_mono fun z => ENNReal.ofReal_le_ofReal ((add_pow_four _ _).trans_eq ?_)
  have : √v ^ 4 = v ^ 2 := by
    rw [show (4 : ℕ) = 2 * 2 from rfl, pow_mul, Real.sq_sqrt hv]
  rw [mul_pow, this]

/-- one step of the particle filter multiplies the expected average fourth power by no more than a constant, up to the measurement. -/
theorem step_four {G : Gen K} {ρ : Measure K} (hG : IdealGen G ρ) {F Sigma R : ℝ} (hS : 0 < Sigma) (hR : 0 < R) :
    ∃ α : ℝ, 1 ≤ α ∧ ∀ (n : ℕ) [NeZero n] (a : Fin n → ℝ) (y : ℝ),
      ∫⁻ k, ENNReal.ofReal (avg4 (pfStep G F Sigma R a (y, k))) ∂ρ ≤ ENNReal.ofReal (α * (avg4 a + (1 + y ^ 4))) := by
  have := hG.prob
  set c := ∫ z, z ^ 4 ∂gaussianReal 0 1 with hc
  have hc0 : 0 ≤ c := integral_nonneg fun z => by positivity
  refine ⟨1 + 64 + 512 + 512 * F ^ 4 + 8 * Sigma ^ 2 * c, by nlinarith [pow_nonneg (sq_nonneg F) 2, mul_nonneg (sq_nonneg Sigma) hc0, show F ^ 4 = (F ^ 2) ^ 2 by ring], fun n _ a y => ?_⟩
  have hn : (0 : ℝ) < n := by exact_mod_cast NeZero.pos n
  set m : Fin n → ℝ := fun i => (proposalMeanVar F Sigma R (a i) y).1 with hm
  set v : Fin n → ℝ := fun i => (proposalMeanVar F Sigma R (a i) y).2 with hv
  have hv0 : ∀ i, 0 ≤ v i := fun i => (proposal_var_pos (F := F) hS hR (a i) y).le
  have hlaw := idealGen_normals_fst hG n m v hv0
  have hw1 : ∑ i, pfW F Sigma R a y i = 1 := by
    simp only [pfW, ← Finset.sum_div]
    exact div_self (pfW_sum_pos hS hR a y).ne'
  have hwn := pfW_nonneg (F := F) hS hR a y
  have hmk : Measurable fun k => ((fun i : Fin n => m i + √(v i) * G.normal k n i), G.fst k) :=
    (measurable_pi_lambda _ fun i => ((hG.measurable_normal _ _).const_mul _).const_add _).prodMk (hG.measurable_key 2 0)
  have hq : Measurable fun s : Fin n → ℝ => ENNReal.ofReal (avg4 s) := by
    refine ENNReal.measurable_ofReal.comp ?_
    show Measurable fun s : Fin n → ℝ => (∑ i, s i ^ 4) / n
    fun_prop
  have hg : Measurable fun p : (Fin n → ℝ) × K => ENNReal.ofReal (avg4 (gather p.1 (Prng.systematicOrStratified G ssCount false (pfW F Sigma R a y) p.2))) :=
    hq.comp (measurable_gather.comp (measurable_fst.prodMk ((idealGen_stratified hG n).1.comp (measurable_const.prodMk measurable_snd))))
  calc ∫⁻ k, ENNReal.ofReal (avg4 (pfStep G F Sigma R a (y, k))) ∂ρ
      = ∫⁻ p, ENNReal.ofReal (avg4 (gather p.1 (Prng.systematicOrStratified G ssCount false (pfW F Sigma R a y) p.2)))
          ∂((Measure.pi fun i => gaussianReal (m i) (v i).toNNReal).prod ρ) := by
        rw [← hlaw, lintegral_map hg hmk]
        exact lintegral_congr fun k => by rw [pfStep_eq G hS hR]; rfl
    _ = ∫⁻ s, ∑ i, ENNReal.ofReal (pfW F Sigma R a y i * s i ^ 4) ∂(Measure.pi fun i => gaussianReal (m i) (v i).toNNReal) := by
        rw [lintegral_prod _ hg.aemeasurable]
        exact lintegral_congr fun s => stratified_mean hG _ hwn hw1 (fun x => x ^ 4) (fun x => by positivity) s
    _ = ∑ i, ENNReal.ofReal (pfW F Sigma R a y i) * ∫⁻ x, ENNReal.ofReal (x ^ 4) ∂gaussianReal (m i) (v i).toNNReal := by
        rw [lintegral_finsetSum _ fun i _ => by fun_prop]
        refine Finset.sum_congr rfl fun i _ => ?_
        simp only [ENNReal.ofReal_mul (hwn i)]
        rw [lintegral_const_mul _ (by fun_prop)]
        congr 1
        have := (measurePreserving_eval (fun i => gaussianReal (m i) (v i).toNNReal) i).lintegral_comp (f := fun x : ℝ => ENNReal.ofReal (x ^ 4)) (by fun_prop)
        exact this
    _ ≤ ∑ i, ENNReal.ofReal (pfW F Sigma R a y i) * ENNReal.ofReal (8 * (m i ^ 4 + v i ^ 2 * c)) :=
        Finset.sum_le_sum fun i _ => mul_le_mul_right (gaussian_four (m i) (hv0 i)) _
    _ = ENNReal.ofReal (∑ i, pfW F Sigma R a y i * (8 * (m i ^ 4 + v i ^ 2 * c))) := by
        rw [ENNReal.ofReal_sum_of_nonneg fun i _ => mul_nonneg (hwn i) (by positivity)]
        exact Finset.sum_congr rfl fun i _ => (ENNReal.ofReal_mul (hwn i)).symm
    _ ≤ _ := by
        refine ENNReal.ofReal_le_ofReal ?_
        have hK0 : 0 ≤ Sigma / (Sigma + R) := by positivity
        have hK1 : Sigma / (Sigma + R) ≤ 1 := by rw [div_le_one (by positivity)]; linarith
        have hmi : ∀ i, m i ^ 4 ≤ 8 * (y ^ 4 + (F * a i - y) ^ 4) := fun i => by
          have e : m i = y + (1 - Sigma / (Sigma + R)) * (F * a i - y) := by simp only [hm, proposalMeanVar]; ring
          rw [e]
          refine (add_pow_four _ _).trans ?_
          rw [mul_pow]
          have : (1 - Sigma / (Sigma + R)) ^ 4 ≤ 1 := pow_le_one₀ (by linarith) (by linarith)
          nlinarith [pow_nonneg (sq_nonneg (F * a i - y)) 2, show (F * a i - y) ^ 4 = ((F * a i - y) ^ 2) ^ 2 by ring]
        have hvi : ∀ i, v i ^ 2 ≤ Sigma ^ 2 := fun i => by
          have : v i ≤ Sigma := by
            simp only [hv, proposalMeanVar]
            nlinarith
          exact pow_le_pow_left₀ (hv0 i) this 2
        have h1 : ∑ i, pfW F Sigma R a y i * (8 * (m i ^ 4 + v i ^ 2 * c))
            ≤ ∑ i, (pfW F Sigma R a y i * (64 * y ^ 4 + 8 * Sigma ^ 2 * c) + 64 * (pfW F Sigma R a y i * (F * a i - y) ^ 4)) := by
          refine Finset.sum_le_sum fun i _ => ?_
          have h := mul_le_mul_of_nonneg_left (add_le_add (hmi i) (mul_le_mul_of_nonneg_right (hvi i) hc0)) (hwn i)
          nlinarith
        rw [Finset.sum_add_distrib, ← Finset.sum_mul, hw1, one_mul, ← Finset.mul_sum] at h1
        have h2 := pfW_dist (F := F) hS hR a y
        have h3 : (∑ i, (F * a i - y) ^ 4) / n ≤ 8 * F ^ 4 * avg4 a + 8 * y ^ 4 := by
          rw [avg4, div_le_iff₀ hn]
          have : ∀ i, (F * a i - y) ^ 4 ≤ 8 * F ^ 4 * a i ^ 4 + 8 * y ^ 4 := fun i => by
            have := add_pow_four (F * a i) (-y)
            rw [← sub_eq_add_neg] at this
            refine this.trans_eq ?_
            ring
          refine (Finset.sum_le_sum fun i _ => this i).trans_eq ?_
          rw [Finset.sum_add_distrib, ← Finset.mul_sum]
          simp only [Finset.sum_const, Finset.card_univ, Fintype.card_fin, nsmul_eq_mul]
          field_simp
        have ha := avg4_nonneg a
        have hy : 0 ≤ y ^ 4 := by positivity
        have hF : 0 ≤ F ^ 4 := by positivity
        have hSc : 0 ≤ Sigma ^ 2 * c := by positivity
        nlinarith [mul_nonneg hF ha, mul_nonneg hF hy, mul_nonneg hSc ha, mul_nonneg hSc hy]

/-- bounds on one step add up over many. -/
theorem fold_bound {C Y : Type} [MeasurableSpace C] (ρ : Measure K) [IsProbabilityMeasure ρ] {g : C → Y × K → C} (hg : ∀ y, Measurable fun p : C × K => g p.1 (y, p.2))
    {Q : C → ℝ≥0∞} (hQ : Measurable Q) {α : ℝ≥0∞} (hα : 1 ≤ α) (b : Y → ℝ≥0∞) (hstep : ∀ y a, ∫⁻ k, Q (g a (y, k)) ∂ρ ≤ α * (Q a + b y)) (ys : List Y) (a : C) :
    ∫⁻ keys, Q ((ys.zip (List.ofFn keys)).foldl g a) ∂(Measure.pi fun _ : Fin ys.length => ρ) ≤ α ^ ys.length * (Q a + (ys.map b).sum) := by
  induction ys generalizing a with
  | nil => simp
  | cons y ys ih =>
    have hmp := (measurePreserving_piFinSuccAbove (fun _ : Fin (ys.length + 1) => ρ) 0).symm
    have hm : Measurable fun keys : Fin (y :: ys).length → K => Q (((y :: ys).zip (List.ofFn keys)).foldl g a) :=
      hQ.comp ((measurable_foldl hg (y :: ys)).comp (measurable_const.prodMk measurable_id))
    have e : ∫⁻ keys, Q (((y :: ys).zip (List.ofFn keys)).foldl g a) ∂(Measure.pi fun _ : Fin (y :: ys).length => ρ)
        = ∫⁻ p, Q ((ys.zip (List.ofFn p.2)).foldl g (g a (y, p.1))) ∂(ρ.prod (Measure.pi fun _ : Fin ys.length => ρ)) := by
      rw [show (Measure.pi fun _ : Fin (y :: ys).length => ρ) = Measure.pi fun _ : Fin (ys.length + 1) => ρ from rfl, ← hmp.map_eq,
        lintegral_map hm hmp.measurable]
      refine lintegral_congr fun p => ?_
      have : List.ofFn ((MeasurableEquiv.piFinSuccAbove (fun _ : Fin (ys.length + 1) => K) 0).symm p) = p.1 :: List.ofFn p.2 := by
        rw [List.ofFn_succ]
        simp [MeasurableEquiv.piFinSuccAbove]
      have h2 : (y :: ys).zip (List.ofFn ((MeasurableEquiv.piFinSuccAbove (fun _ : Fin (ys.length + 1) => K) 0).symm p)) = (y, p.1) :: ys.zip (List.ofFn p.2) := by
        rw [this, List.zip_cons_cons]
      exact congrArg (fun l => Q (List.foldl g a l)) h2
    have hmS : Measurable fun p : K × (Fin ys.length → K) => Q ((ys.zip (List.ofFn p.2)).foldl g (g a (y, p.1))) :=
      hQ.comp ((measurable_foldl hg ys).comp (((hg y).comp (measurable_const.prodMk measurable_fst)).prodMk measurable_snd))
    have hmy : Measurable fun k => Q (g a (y, k)) := hQ.comp ((hg y).comp (measurable_const.prodMk measurable_id))
    rw [e, lintegral_prod _ hmS.aemeasurable]
    calc ∫⁻ k, ∫⁻ ks, Q ((ys.zip (List.ofFn ks)).foldl g (g a (y, k))) ∂(Measure.pi fun _ : Fin ys.length => ρ) ∂ρ
        ≤ ∫⁻ k, α ^ ys.length * (Q (g a (y, k)) + (ys.map b).sum) ∂ρ := lintegral_mono fun k => ih _
      _ = α ^ ys.length * ((∫⁻ k, Q (g a (y, k)) ∂ρ) + (ys.map b).sum) := by
          rw [lintegral_const_mul _ (hmy.add_const _), lintegral_add_left hmy, lintegral_const, measure_univ, mul_one]
      _ ≤ α ^ ys.length * (α * (Q a + b y) + α * (ys.map b).sum) :=
          mul_le_mul_right (add_le_add (hstep y a) (le_mul_of_one_le_left zero_le hα)) _
      _ = α ^ (y :: ys).length * (Q a + ((y :: ys).map b).sum) := by
          rw [List.length_cons, List.map_cons, List.sum_cons, pow_succ]
          ring

/-- the size of the data. -/
noncomputable def dataSize (mean0 : ℝ) (ys : List ℝ) : ℝ := |mean0| + (ys.map fun y => |y|).sum

theorem list_abs_sum_nonneg (ys : List ℝ) : 0 ≤ (ys.map fun y => |y|).sum := List.sum_nonneg fun x hx => by
  obtain ⟨y, -, rfl⟩ := List.mem_map.1 hx
  exact abs_nonneg y

theorem dataSize_nonneg (mean0 : ℝ) (ys : List ℝ) : 0 ≤ dataSize mean0 ys := add_nonneg (abs_nonneg _) (list_abs_sum_nonneg ys)

theorem le_dataSize (mean0 : ℝ) {ys : List ℝ} {y : ℝ} (hy : y ∈ ys) : |y| ≤ dataSize mean0 ys := by
  have : |y| ≤ (ys.map fun y => |y|).sum := List.single_le_sum (fun x hx => by
    obtain ⟨z, -, rfl⟩ := List.mem_map.1 hx
    exact abs_nonneg z) _ (List.mem_map.2 ⟨y, hy, rfl⟩)
  have := abs_nonneg mean0
  rw [dataSize]
  linarith

/-- the expected average fourth power of the particles, for any number of particles. -/
theorem samples_four {G : Gen K} {ρ : Measure K} (hG : IdealGen G ρ) {F Sigma R var0 : ℝ} (mean0 : ℝ) (hS : 0 < Sigma) (hR : 0 < R) (hv0 : 0 < var0) (T : ℕ) :
    ∃ C : ℝ, 0 ≤ C ∧ ∀ (n : ℕ) [NeZero n] (ys : List ℝ), ys.length = T → ∀ t < T,
      ∫⁻ key, ENNReal.ofReal (avg4 ((pfSamples G ssCount F Sigma R mean0 var0 n ys key).getD t (pfInit G mean0 var0 key))) ∂ρ
        ≤ ENNReal.ofReal (C * (1 + dataSize mean0 ys ^ 4)) := by
  have := hG.prob
  obtain ⟨α, hα, hstep⟩ := step_four hG (F := F) hS hR
  set c0 := 8 * (mean0 ^ 4 + var0 ^ 2 * ∫ z, z ^ 4 ∂gaussianReal 0 1) with hc0
  have hc00 : 0 ≤ c0 := by
    have : 0 ≤ ∫ z, z ^ 4 ∂gaussianReal 0 1 := integral_nonneg fun z => by positivity
    positivity
  refine ⟨α ^ T * (c0 + T), by positivity, fun n _ ys hT t ht => ?_⟩
  have hn : (0 : ℝ) < n := by exact_mod_cast NeZero.pos n
  have htl : t < ys.length := by omega
  have hl : (ys.take (t + 1)).length = t + 1 := by rw [List.length_take, min_eq_left htl]
  have hle : (ys.take (t + 1)).length ≤ ys.length := by rw [hl]; exact htl
  have hq : Measurable fun s : Fin n → ℝ => ENNReal.ofReal (avg4 s) := by
    refine ENNReal.measurable_ofReal.comp ?_
    show Measurable fun s : Fin n → ℝ => (∑ i, s i ^ 4) / n
    fun_prop
  have hlaw := ideal_take (ν := ρ) hle (idealGen_normals hG ys.length n (fun _ => mean0) (fun _ => var0) fun _ => hv0.le)
  have hmk : Measurable fun key => ((fun i : Fin n => mean0 + √var0 * G.normal key n i), fun i : Fin (ys.take (t + 1)).length => G.key key ys.length (Fin.castLE hle i)) :=
    (measurable_pi_lambda _ fun i => ((hG.measurable_normal _ _).const_mul _).const_add _).prodMk (measurable_pi_lambda _ fun i => hG.measurable_key _ _)
  have hgm := measurable_pfStep hG hS hR (F := F) (n := n)
  have hbound := fold_bound ρ hgm hq (α := ENNReal.ofReal α) (by rw [ENNReal.one_le_ofReal]; exact hα) (fun y => ENNReal.ofReal (1 + y ^ 4)) (fun y a => by
    refine (hstep n a y).trans_eq ?_
    rw [ENNReal.ofReal_mul (by linarith), ENNReal.ofReal_add (avg4_nonneg _) (by positivity)]) (ys.take (t + 1))
  have hmQ : Measurable fun p : (Fin n → ℝ) × (Fin (ys.take (t + 1)).length → K) =>
      ENNReal.ofReal (avg4 (((ys.take (t + 1)).zip (List.ofFn p.2)).foldl (pfStep G F Sigma R) p.1)) := hq.comp (measurable_foldl hgm _)
  have hinit : ∫⁻ a, ENNReal.ofReal (avg4 a) ∂(Measure.pi fun _ : Fin n => gaussianReal mean0 var0.toNNReal) ≤ ENNReal.ofReal c0 := by
    have e : ∀ a : Fin n → ℝ, ENNReal.ofReal (avg4 a) = ENNReal.ofReal (1 / n) * ∑ i, ENNReal.ofReal (a i ^ 4) := fun a => by
      rw [← ENNReal.ofReal_sum_of_nonneg fun i _ => by positivity, ← ENNReal.ofReal_mul (by positivity), avg4, div_eq_mul_one_div, mul_comm]
    simp only [e]
    rw [lintegral_const_mul _ (by fun_prop), lintegral_finsetSum _ fun i _ => by fun_prop]
    have h1 : ∀ i : Fin n, ∫⁻ a, ENNReal.ofReal (a i ^ 4) ∂(Measure.pi fun _ : Fin n => gaussianReal mean0 var0.toNNReal) ≤ ENNReal.ofReal c0 := fun i => by
      have := (measurePreserving_eval (fun _ : Fin n => gaussianReal mean0 var0.toNNReal) i).lintegral_comp (f := fun x : ℝ => ENNReal.ofReal (x ^ 4)) (by fun_prop)
      exact this.trans_le (gaussian_four mean0 hv0.le)
    refine (mul_le_mul_right (Finset.sum_le_sum fun i _ => h1 i) _).trans_eq ?_
    rw [Finset.sum_const, Finset.card_univ, Fintype.card_fin, nsmul_eq_mul, ← mul_assoc, ← ENNReal.ofReal_natCast, ← ENNReal.ofReal_mul (by positivity),
      one_div_mul_cancel hn.ne', ENNReal.ofReal_one, one_mul]
  have hsum : ((ys.take (t + 1)).map fun y => ENNReal.ofReal (1 + y ^ 4)).sum ≤ ENNReal.ofReal (T * (1 + dataSize mean0 ys ^ 4)) := by
    have : ((ys.take (t + 1)).map fun y => ENNReal.ofReal (1 + y ^ 4)).sum ≤ (ys.take (t + 1)).length • ENNReal.ofReal (1 + dataSize mean0 ys ^ 4) := by
      refine (List.sum_le_card_nsmul _ (ENNReal.ofReal (1 + dataSize mean0 ys ^ 4)) fun x hx => ?_).trans_eq (by rw [List.length_map])
      obtain ⟨y, hy, rfl⟩ := List.mem_map.1 hx
      refine ENNReal.ofReal_le_ofReal (add_le_add le_rfl ?_)
      rw [← Even.pow_abs (by decide : Even 4) y]
      exact pow_le_pow_left₀ (abs_nonneg _) (le_dataSize mean0 (List.mem_of_mem_take hy)) 4
    refine this.trans ?_
    rw [nsmul_eq_mul, ← ENNReal.ofReal_natCast, ← ENNReal.ofReal_mul (by positivity)]
    refine ENNReal.ofReal_le_ofReal (mul_le_mul_of_nonneg_right ?_ (by positivity))
    rw [hl]
    exact_mod_cast ht
  calc ∫⁻ key, ENNReal.ofReal (avg4 ((pfSamples G ssCount F Sigma R mean0 var0 n ys key).getD t (pfInit G mean0 var0 key))) ∂ρ
      = ∫⁻ p, ENNReal.ofReal (avg4 (((ys.take (t + 1)).zip (List.ofFn p.2)).foldl (pfStep G F Sigma R) p.1))
          ∂((Measure.pi fun _ : Fin n => gaussianReal mean0 var0.toNNReal).prod (Measure.pi fun _ : Fin (ys.take (t + 1)).length => ρ)) := by
        rw [← hlaw, lintegral_map hmQ hmk]
        exact lintegral_congr fun key => by rw [pfSamples_fold G hG.length F Sigma R mean0 var0 n ys key t htl hle]; rfl
    _ = ∫⁻ a, ∫⁻ ks, ENNReal.ofReal (avg4 (((ys.take (t + 1)).zip (List.ofFn ks)).foldl (pfStep G F Sigma R) a))
          ∂(Measure.pi fun _ : Fin (ys.take (t + 1)).length => ρ) ∂(Measure.pi fun _ : Fin n => gaussianReal mean0 var0.toNNReal) := lintegral_prod _ hmQ.aemeasurable
    _ ≤ ∫⁻ a, ENNReal.ofReal α ^ (ys.take (t + 1)).length * (ENNReal.ofReal (avg4 a) + ((ys.take (t + 1)).map fun y => ENNReal.ofReal (1 + y ^ 4)).sum)
          ∂(Measure.pi fun _ : Fin n => gaussianReal mean0 var0.toNNReal) := lintegral_mono fun a => hbound a
    _ = ENNReal.ofReal α ^ (ys.take (t + 1)).length * ((∫⁻ a, ENNReal.ofReal (avg4 a) ∂(Measure.pi fun _ : Fin n => gaussianReal mean0 var0.toNNReal))
          + ((ys.take (t + 1)).map fun y => ENNReal.ofReal (1 + y ^ 4)).sum) := by
        rw [lintegral_const_mul _ (hq.add_const _), lintegral_add_left hq, lintegral_const, measure_univ, mul_one]
    _ ≤ ENNReal.ofReal α ^ T * (ENNReal.ofReal c0 + ENNReal.ofReal (T * (1 + dataSize mean0 ys ^ 4))) := by
        refine mul_le_mul' (pow_le_pow_right₀ (by rw [ENNReal.one_le_ofReal]; exact hα) (by omega)) (add_le_add hinit hsum)
    _ ≤ _ := by
        rw [← ENNReal.ofReal_add hc00 (by positivity), ← ENNReal.ofReal_pow (by linarith), ← ENNReal.ofReal_mul (by positivity)]
        refine ENNReal.ofReal_le_ofReal ?_
        rw [mul_assoc]
        refine mul_le_mul_of_nonneg_left ?_ (by positivity)
        have : 0 ≤ dataSize mean0 ys ^ 4 := by positivity
        nlinarith [mul_nonneg hc00 this]

omit [MeasurableSpace K] in
/-- bounds on the Kalman filter of the script. -/
theorem kf_bound (F : ℝ) {Sigma R : ℝ} (hS : 0 < Sigma) (hR : 0 < R) (ys : List ℝ) (c : ℝ × ℝ × ℝ) (hc : 0 ≤ c.2.1) (t : ℕ) (ht : t < ys.length) :
    |((scan (kfBody F Sigma R) c ys).2.getD t (0, 0)).1| ≤ (1 + |F|) ^ ys.length * (|c.1| + (ys.map fun y => |y|).sum) ∧
    0 ≤ ((scan (kfBody F Sigma R) c ys).2.getD t (0, 0)).2 ∧ ((scan (kfBody F Sigma R) c ys).2.getD t (0, 0)).2 ≤ R := by
  induction ys generalizing c t with
  | nil => simp at ht
  | cons y ys ih =>
    have hvp : 0 < F * c.2.1 * F + Sigma := by nlinarith [mul_nonneg hc (sq_nonneg F)]
    set vp := F * c.2.1 * F + Sigma with hvpd
    have hk0 : 0 ≤ vp / (vp + R) := by positivity
    have hk1 : vp / (vp + R) ≤ 1 := by rw [div_le_one (by positivity)]; linarith
    have hv : vp - vp * (vp / (vp + R)) = vp * R / (vp + R) := by field_simp; ring
    have hv0 : 0 ≤ vp - vp * (vp / (vp + R)) := by rw [hv]; positivity
    have hvR : vp - vp * (vp / (vp + R)) ≤ R := by
      rw [hv, div_le_iff₀ (by positivity)]
      nlinarith
    have hm : |F * c.1 + vp / (vp + R) * (y - F * c.1)| ≤ |F| * |c.1| + |y| := by
      have e : F * c.1 + vp / (vp + R) * (y - F * c.1) = (1 - vp / (vp + R)) * (F * c.1) + vp / (vp + R) * y := by ring
      rw [e]
      refine (abs_add_le _ _).trans ?_
      rw [abs_mul, abs_mul (vp / (vp + R)), abs_mul F, abs_of_nonneg hk0, abs_of_nonneg (by linarith : 0 ≤ 1 - vp / (vp + R))]
      have := mul_nonneg (abs_nonneg F) (abs_nonneg c.1)
      have := abs_nonneg y
      nlinarith
    have hs := list_abs_sum_nonneg ys
    have hpow : (1 : ℝ) ≤ (1 + |F|) ^ ys.length := one_le_pow₀ (by linarith [abs_nonneg F])
    have hstep : |F| * |c.1| + |y| + (ys.map fun y => |y|).sum ≤ (1 + |F|) * (|c.1| + (|y| + (ys.map fun y => |y|).sum)) := by
      nlinarith [abs_nonneg F, abs_nonneg c.1, abs_nonneg y, mul_nonneg (abs_nonneg F) (abs_nonneg y), mul_nonneg (abs_nonneg F) hs]
    cases t with
    | zero =>
      refine ⟨?_, hv0, hvR⟩
      show |F * c.1 + vp / (vp + R) * (y - F * c.1)| ≤ _
      refine hm.trans ?_
      rw [List.length_cons, pow_succ, List.map_cons, List.sum_cons, mul_assoc]
      calc |F| * |c.1| + |y| ≤ (1 + |F|) * (|c.1| + (|y| + (ys.map fun y => |y|).sum)) := by linarith
        _ ≤ _ := le_mul_of_one_le_left (by positivity) hpow
    | succ t =>
      have h := ih (kfBody F Sigma R c y).1 hv0 t (by simpa using ht)
      refine ⟨h.1.trans ?_, h.2⟩
      rw [List.length_cons, pow_succ, List.map_cons, List.sum_cons, mul_assoc]
      refine mul_le_mul_of_nonneg_left (le_trans ?_ hstep) (by positivity)
      exact add_le_add hm le_rfl

omit [MeasurableSpace K] in
/-- mean and variance of the particles against their average fourth power. -/
theorem meanVar_four {n : ℕ} [NeZero n] (s : Fin n → ℝ) : (sampleMeanVar s).1 ^ 2 ≤ 1 + avg4 s ∧ (sampleMeanVar s).2 ^ 2 ≤ avg4 s := by
  have hn : (0 : ℝ) < n := by exact_mod_cast NeZero.pos n
  have h2 : (∑ i, s i) ^ 2 ≤ n * ∑ i, s i ^ 2 := by
    have := sq_sum_le_card_mul_sum_sq (s := Finset.univ) (f := s)
    simpa using this
  have h4 : (∑ i, s i ^ 2) ^ 2 ≤ n * ∑ i, s i ^ 4 := by
    have := sq_sum_le_card_mul_sum_sq (s := Finset.univ) (f := fun i => s i ^ 2)
    simpa [← pow_mul] using this
  have hq : ((∑ i, s i ^ 2) / n) ^ 2 ≤ avg4 s := by
    rw [avg4, div_pow, div_le_div_iff₀ (by positivity) hn]
    nlinarith
  have hv0 := sampleVar_nonneg s
  have hv := sampleMeanVar_snd s 0
  simp only [sub_zero] at hv
  have ha : 0 ≤ (∑ i, s i ^ 2) / n := div_nonneg (Finset.sum_nonneg fun _ _ => sq_nonneg _) hn.le
  constructor
  · nlinarith [sq_nonneg ((∑ i, s i ^ 2) / n - 1), avg4_nonneg s]
  · refine le_trans (pow_le_pow_left₀ hv0 ?_ 2) hq
    rw [hv]
    nlinarith [sq_nonneg (sampleMeanVar s).1]

/-- convergence in probability with bounded second moments is convergence in mean. -/
theorem tendsto_mean_of_prob {Ω : Type} [MeasurableSpace Ω] (μ : Measure Ω) [IsProbabilityMeasure μ] (f : ℕ → Ω → ℝ) (hf0 : ∀ n ω, 0 ≤ f n ω) (hm : ∀ n, Measurable (f n))
    {C : ℝ} (hC : 0 ≤ C) (h2 : ∀ n, ∫⁻ ω, ENNReal.ofReal (f n ω ^ 2) ∂μ ≤ ENNReal.ofReal C)
    (hp : ∀ ε > 0, Tendsto (fun n => μ.real {ω | ε ≤ f n ω}) atTop (𝓝 0)) :
    (∀ n, Integrable (f n) μ) ∧ Tendsto (fun n => ∫ ω, f n ω ∂μ) atTop (𝓝 0) := by
  have hi2 : ∀ n, Integrable (fun ω => f n ω ^ 2) μ := fun n => by
    refine ⟨((hm n).pow_const 2).aestronglyMeasurable, ?_⟩
    rw [hasFiniteIntegral_iff_ofReal (ae_of_all _ fun ω => sq_nonneg _)]
    exact (h2 n).trans_lt ENNReal.ofReal_lt_top
  have hI2 : ∀ n, ∫ ω, f n ω ^ 2 ∂μ ≤ C := fun n => by
    rw [integral_eq_lintegral_of_nonneg_ae (ae_of_all _ fun ω => sq_nonneg _) ((hm n).pow_const 2).aestronglyMeasurable]
    exact ENNReal.toReal_le_of_le_ofReal hC (h2 n)
  have hi : ∀ n, Integrable (f n) μ := fun n =>
    Integrable.mono' ((integrable_const (1 : ℝ)).add (hi2 n)) (hm n).aestronglyMeasurable (ae_of_all _ fun ω => by
      rw [Real.norm_of_nonneg (hf0 n ω)]
      simp only [Pi.add_apply]
      nlinarith [sq_nonneg (f n ω - 1)])
  refine ⟨hi, ?_⟩
  rw [Metric.tendsto_atTop]
  intro η hη
  set δ := η / (3 * (C + 1)) with hδ
  have hδ0 : 0 < δ := by positivity
  have hδC : δ * C ≤ η / 3 := by
    rw [hδ, div_mul_eq_mul_div, div_le_div_iff₀ (by positivity) (by norm_num)]
    nlinarith
  obtain ⟨N, hN⟩ := Metric.tendsto_atTop.1 (hp (η / 3) (by positivity)) (δ * (η / 3)) (by positivity)
  refine ⟨N, fun n hn => ?_⟩
  have hP := hN n hn
  rw [Real.dist_eq, sub_zero, abs_of_nonneg measureReal_nonneg] at hP
  rw [Real.dist_eq, sub_zero, abs_of_nonneg (integral_nonneg (hf0 n))]
  have hms : MeasurableSet {ω | η / 3 ≤ f n ω} := measurableSet_le measurable_const (hm n)
  have hind : Integrable (Set.indicator {ω | η / 3 ≤ f n ω} fun _ => (1 : ℝ)) μ := (integrable_const 1).indicator hms
  have hle : ∫ ω, f n ω ∂μ ≤ ∫ ω, (η / 3 + (δ / 2 * f n ω ^ 2 + 1 / (2 * δ) * Set.indicator {ω | η / 3 ≤ f n ω} (fun _ => (1 : ℝ)) ω)) ∂μ := by
    refine integral_mono (hi n) ((integrable_const _).add (((hi2 n).const_mul _).add (hind.const_mul _))) fun ω => ?_
    by_cases h : ω ∈ {ω | η / 3 ≤ f n ω}
    · simp only [Set.indicator_of_mem h]
      have : f n ω ≤ δ / 2 * f n ω ^ 2 + 1 / (2 * δ) * 1 := by
        have e : δ / 2 * f n ω ^ 2 + 1 / (2 * δ) * 1 - f n ω = (δ * f n ω - 1) ^ 2 / (2 * δ) := by field_simp; ring
        have : 0 ≤ (δ * f n ω - 1) ^ 2 / (2 * δ) := by positivity
        linarith
      linarith
    · simp only [Set.indicator_of_notMem h]
      have h' : f n ω < η / 3 := not_le.1 h
      have : 0 ≤ δ / 2 * f n ω ^ 2 := by positivity
      linarith
  refine hle.trans_lt ?_
  have hsum : Integrable (fun ω => δ / 2 * f n ω ^ 2 + 1 / (2 * δ) * Set.indicator {ω | η / 3 ≤ f n ω} (fun _ => (1 : ℝ)) ω) μ :=
    ((hi2 n).const_mul _).add (hind.const_mul _)
  rw [integral_add (integrable_const _) hsum, integral_add ((hi2 n).const_mul _) (hind.const_mul _), integral_const_mul,
    integral_const_mul, integral_indicator_const _ hms, integral_const, probReal_univ, smul_eq_mul, smul_eq_mul, one_mul, mul_one]
  have h3 : δ / 2 * ∫ ω, f n ω ^ 2 ∂μ ≤ η / 6 := by nlinarith [mul_le_mul_of_nonneg_left (hI2 n) hδ0.le]
  have h4 : 1 / (2 * δ) * μ.real {ω | η / 3 ≤ f n ω} ≤ η / 6 := by
    rw [one_div_mul_eq_div, div_le_iff₀ (by positivity)]
    nlinarith
  linarith

/-- second moments of the errors for given measurements. -/
theorem errors_sq {G : Gen K} {ρ : Measure K} (hG : IdealGen G ρ) {ss : List ℝ → ℝ → ℕ} (hss : Resampling.SearchSorted ss) {F Sigma R var0 : ℝ} (mean0 : ℝ)
    (hS : 0 < Sigma) (hR : 0 < R) (hv0 : 0 < var0) (T : ℕ) :
    ∃ C : ℝ, 0 ≤ C ∧ ∀ (n : ℕ) [NeZero n] (ys : List ℝ), ys.length = T → ∀ t < T,
      ∫⁻ key, ENNReal.ofReal (((pfErrors G ss F Sigma R mean0 var0 n ys key).getD t (0, 0, 0)).1 ^ 2) ∂ρ ≤ ENNReal.ofReal (C * (1 + dataSize mean0 ys ^ 4)) ∧
      ∫⁻ key, ENNReal.ofReal (((pfErrors G ss F Sigma R mean0 var0 n ys key).getD t (0, 0, 0)).2.1 ^ 2) ∂ρ ≤ ENNReal.ofReal (C * (1 + dataSize mean0 ys ^ 4)) := by
  have := hG.prob
  obtain ⟨C, hC, h⟩ := samples_four hG (F := F) mean0 hS hR hv0 T
  set A := 2 + 2 * (1 + |F|) ^ (2 * T) + 2 * R ^ 2 with hA
  have hA0 : 0 ≤ A := by positivity
  refine ⟨2 * C + A, by positivity, fun n _ ys hT t ht => ?_⟩
  have htl : t < ys.length := by omega
  set s := fun key => (pfSamples G ssCount F Sigma R mean0 var0 n ys key).getD t (pfInit G mean0 var0 key) with hs
  set tm := (kf F Sigma R mean0 var0 ys).1.getD t (0, 0) with htm
  have hD := dataSize_nonneg mean0 ys
  have hk : |tm.1| ≤ (1 + |F|) ^ T * dataSize mean0 ys ∧ 0 ≤ tm.2 ∧ tm.2 ≤ R := by
    have := kf_bound F hS hR ys (mean0, var0, 0) hv0.le t htl
    rw [hT] at this
    exact this
  have h1 : tm.1 ^ 2 ≤ (1 + |F|) ^ (2 * T) * (1 + dataSize mean0 ys ^ 4) := by
    rw [← sq_abs]
    refine (pow_le_pow_left₀ (abs_nonneg _) hk.1 2).trans ?_
    rw [mul_pow, ← pow_mul, mul_comm T 2]
    refine mul_le_mul_of_nonneg_left ?_ (by positivity)
    nlinarith [sq_nonneg (dataSize mean0 ys ^ 2 - 1)]
  have h2 : tm.2 ^ 2 ≤ R ^ 2 := pow_le_pow_left₀ hk.2.1 hk.2.2 2
  have he : ∀ key, ((pfErrors G ss F Sigma R mean0 var0 n ys key).getD t (0, 0, 0)).1 ^ 2 ≤ 2 * avg4 (s key) + A * (1 + dataSize mean0 ys ^ 4) ∧
      ((pfErrors G ss F Sigma R mean0 var0 n ys key).getD t (0, 0, 0)).2.1 ^ 2 ≤ 2 * avg4 (s key) + A * (1 + dataSize mean0 ys ^ 4) := fun key => by
    have e := (pfErrors_getD G hG.length ss F Sigma R mean0 var0 n ys key t htl).2
    rw [pfSamples_ss G hss] at e
    rw [e]
    obtain ⟨hm, hv⟩ := meanVar_four (s key)
    have hD4 : 0 ≤ dataSize mean0 ys ^ 4 := by positivity
    have hF : 0 ≤ (1 + |F|) ^ (2 * T) := by positivity
    have hR2 : 0 ≤ R ^ 2 := by positivity
    constructor
    · show |(sampleMeanVar (s key)).1 - tm.1| ^ 2 ≤ _
      rw [sq_abs]
      nlinarith [sq_nonneg ((sampleMeanVar (s key)).1 + tm.1), mul_nonneg hR2 hD4, mul_nonneg hF hD4]
    · show |(sampleMeanVar (s key)).2 - tm.2| ^ 2 ≤ _
      rw [sq_abs]
      nlinarith [sq_nonneg ((sampleMeanVar (s key)).2 + tm.2), mul_nonneg hR2 hD4, mul_nonneg hF hD4]
  have hfin : ∫⁻ key, ENNReal.ofReal (2 * avg4 (s key) + A * (1 + dataSize mean0 ys ^ 4)) ∂ρ ≤ ENNReal.ofReal ((2 * C + A) * (1 + dataSize mean0 ys ^ 4)) := by
    have e : ∀ key, ENNReal.ofReal (2 * avg4 (s key) + A * (1 + dataSize mean0 ys ^ 4)) = 2 * ENNReal.ofReal (avg4 (s key)) + ENNReal.ofReal (A * (1 + dataSize mean0 ys ^ 4)) :=
      fun key => by
        rw [ENNReal.ofReal_add (by have := avg4_nonneg (s key); positivity) (by positivity), ENNReal.ofReal_mul (by norm_num), ENNReal.ofReal_ofNat]
    simp only [e]
    rw [lintegral_add_right _ measurable_const, lintegral_const, measure_univ, mul_one, lintegral_const_mul' _ _ (by norm_num)]
    refine (add_le_add (mul_le_mul_right (h n ys hT t ht) _) le_rfl).trans_eq ?_
    rw [← ENNReal.ofReal_ofNat, ← ENNReal.ofReal_mul (by norm_num), ← ENNReal.ofReal_add (by positivity) (by positivity)]
    congr 1
    ring
  exact ⟨(lintegral_mono fun key => ENNReal.ofReal_le_ofReal (he key).1).trans hfin, (lintegral_mono fun key => ENNReal.ofReal_le_ofReal (he key).2).trans hfin⟩

omit [MeasurableSpace K] in
theorem pfErrors_nonneg (G : Gen K) (ss : List ℝ → ℝ → ℕ) (F Sigma R mean0 var0 : ℝ) (n : ℕ) [NeZero n] (ys : List ℝ) (key : K) (t : ℕ) :
    0 ≤ ((pfErrors G ss F Sigma R mean0 var0 n ys key).getD t (0, 0, 0)).1 ∧ 0 ≤ ((pfErrors G ss F Sigma R mean0 var0 n ys key).getD t (0, 0, 0)).2.1 := by
  rcases lt_or_ge t (pfErrors G ss F Sigma R mean0 var0 n ys key).length with h | h
  · rw [List.getD_eq_getElem _ _ h]
    simp [pfErrors]
  · rw [List.getD_eq_default _ _ h]
    simp

/-- **C181.** For any given measurements the expected errors of mean and variance tend to zero as the number of particles grows. -/
theorem C181_errors {G : Gen K} {ρ : Measure K} (hG : IdealGen G ρ) {ss : List ℝ → ℝ → ℕ} (hss : Resampling.SearchSorted ss) {F Sigma R mean0 var0 : ℝ}
    (hS : 0 < Sigma) (hR : 0 < R) (hv0 : 0 < var0) (ys : List ℝ) (t : ℕ) (ht : t < ys.length) :
    let e := fun n key => (pfErrors G ss F Sigma R mean0 var0 (n + 1) ys key).getD t (0, 0, 0)
    (∀ n, Integrable (fun key => (e n key).1) ρ ∧ Integrable (fun key => (e n key).2.1) ρ) ∧
    Tendsto (fun n => ∫ key, (e n key).1 ∂ρ) atTop (𝓝 0) ∧ Tendsto (fun n => ∫ key, (e n key).2.1 ∂ρ) atTop (𝓝 0) := by
  intro e
  have := hG.prob
  obtain ⟨C, hC, h⟩ := errors_sq hG hss (F := F) mean0 hS hR hv0 ys.length
  have hm : ∀ n, Measurable (e n) := fun n => by
    have h := (measurable_pfErrors hG hss F Sigma R mean0 var0 (n + 1) ys.length t ht).comp (measurable_prodMk_left (x := ys.get))
    simp only [Function.comp_def, List.ofFn_get] at h
    exact h
  have hp := fun ε hε => (C179_errors hG hss (F := F) (mean0 := mean0) hS hR hv0 ys).2 t ht ε hε
  have h1 := tendsto_mean_of_prob ρ (fun n key => (e n key).1) (fun n key => (pfErrors_nonneg G ss F Sigma R mean0 var0 (n + 1) ys key t).1)
    (fun n => (hm n).fst) (C := C * (1 + dataSize mean0 ys ^ 4)) (by positivity) (fun n => (h (n + 1) ys rfl t ht).1) fun ε hε => (hp ε hε).1
  have h2 := tendsto_mean_of_prob ρ (fun n key => (e n key).2.1) (fun n key => (pfErrors_nonneg G ss F Sigma R mean0 var0 (n + 1) ys key t).2)
    (fun n => (hm n).snd.fst) (C := C * (1 + dataSize mean0 ys ^ 4)) (by positivity) (fun n => (h (n + 1) ys rfl t ht).2) fun ε hε => (hp ε hε).2.1
  exact ⟨fun n => ⟨h1.1 n, h2.1 n⟩, h1.2, h2.2⟩

omit [MeasurableSpace K] in
/-- the simulated data have fourth moments. -/
theorem dataSize_integrable (B : Backend) (ell sigma dt R mean0 : ℝ) (T : ℕ) :
    Integrable (fun z : (Fin T → ℝ) × (Fin T → ℝ) => dataSize mean0 (List.ofFn fun i => ouSimulate B ell sigma dt z.1 i + √R * z.2 i) ^ 4)
      ((Measure.pi fun _ : Fin T => gaussianReal 0 1).prod (Measure.pi fun _ : Fin T => gaussianReal 0 1)) := by
  set μ := (Measure.pi fun _ : Fin T => gaussianReal 0 1).prod (Measure.pi fun _ : Fin T => gaussianReal 0 1) with hμ
  have hz : ∀ i : Fin T, MemLp (fun z : Fin T → ℝ => z i) 4 (Measure.pi fun _ : Fin T => gaussianReal 0 1) := fun i =>
    (memLp_id_gaussianReal (μ := 0) (v := 1) 4).comp_measurePreserving (measurePreserving_eval (fun _ : Fin T => gaussianReal 0 1) i)
  have hz1 : ∀ i : Fin T, MemLp (fun z : (Fin T → ℝ) × (Fin T → ℝ) => z.1 i) 4 μ := fun i => (hz i).comp_measurePreserving measurePreserving_fst
  have hz2 : ∀ i : Fin T, MemLp (fun z : (Fin T → ℝ) × (Fin T → ℝ) => z.2 i) 4 μ := fun i => (hz i).comp_measurePreserving measurePreserving_snd
  have hy4 : ∀ i, MemLp (fun z : (Fin T → ℝ) × (Fin T → ℝ) => ouSimulate B ell sigma dt z.1 i + √R * z.2 i) 4 μ := fun i => by
    simp only [ouSimulate, Matrix.mulVec, dotProduct]
    exact (memLp_finsetSum _ fun j _ => (hz1 j).const_mul _).add ((hz2 i).const_mul _)
  have hs : MemLp (fun z : (Fin T → ℝ) × (Fin T → ℝ) => ∑ i, |ouSimulate B ell sigma dt z.1 i + √R * z.2 i|) 4 μ := memLp_finsetSum _ fun i _ => (hy4 i).abs
  have hsize : MemLp (fun z : (Fin T → ℝ) × (Fin T → ℝ) => |mean0| + ∑ i, |ouSimulate B ell sigma dt z.1 i + √R * z.2 i|) 4 μ := (memLp_const |mean0|).add hs
  have h4 := hsize.integrable_norm_pow (by norm_num)
  refine h4.congr (ae_of_all _ fun z => ?_)
  simp only [dataSize, List.map_ofFn, List.sum_ofFn, Real.norm_eq_abs]
  exact Even.pow_abs (by decide : Even 4) _

theorem ouSigma_pos' {ell sigma dt : ℝ} (hell : 0 < ell) (hsigma : sigma ≠ 0) (hdt : 0 < dt) : 0 < ouSigma ell sigma dt := by
  have : Real.exp (-2 * dt / ell) < 1 := by
    rw [Real.exp_lt_one_iff]
    have : 0 < 2 * dt / ell := by positivity
    have e : -2 * dt / ell = -(2 * dt / ell) := by ring
    linarith
  rw [ouSigma]
  exact mul_pos (by positivity) (by linarith)

/-- second moments of the errors of the script. -/
theorem script_sq {G : Gen K} {ρ : Measure K} (hG : IdealGen G ρ) {ss : List ℝ → ℝ → ℕ} (hss : Resampling.SearchSorted ss) (B : Backend)
    {ell sigma dt R mean0 var0 : ℝ} (hell : 0 < ell) (hsigma : sigma ≠ 0) (hdt : 0 < dt) (hR : 0 < R) (hv0 : 0 < var0) (T t : ℕ) (ht : t < T) :
    ∃ C : ℝ, 0 ≤ C ∧ ∀ n, Measurable (fun key => (pfScript G ss B ell sigma dt R mean0 var0 (n + 1) T key).getD t (0, 0, 0)) ∧
      ∫⁻ key, ENNReal.ofReal (((pfScript G ss B ell sigma dt R mean0 var0 (n + 1) T key).getD t (0, 0, 0)).1 ^ 2) ∂ρ ≤ ENNReal.ofReal C ∧
      ∫⁻ key, ENNReal.ofReal (((pfScript G ss B ell sigma dt R mean0 var0 (n + 1) T key).getD t (0, 0, 0)).2.1 ^ 2) ∂ρ ≤ ENNReal.ofReal C := by
  have := hG.prob
  have hS := ouSigma_pos' hell hsigma hdt
  obtain ⟨C, hC, h⟩ := errors_sq hG hss (F := ouF ell dt) mean0 hS hR hv0 T
  have hdi := dataSize_integrable B ell sigma dt R mean0 T
  have hlaw := pfScript_law hG T
  set μ := (Measure.pi fun _ : Fin T => gaussianReal 0 1).prod (Measure.pi fun _ : Fin T => gaussianReal 0 1) with hμ
  set yf : (Fin T → ℝ) × (Fin T → ℝ) → Fin T → ℝ := fun z i => ouSimulate B ell sigma dt z.1 i + √R * z.2 i with hyf
  have hym : Measurable yf := by
    refine measurable_pi_lambda _ fun i => ?_
    simp only [hyf, ouSimulate, Matrix.mulVec, dotProduct]
    fun_prop
  set D := fun key => (((fun i : Fin T => G.normal (G.key key 2 0) T i), fun i : Fin T => G.normal (G.key key 2 1) T i), G.fst (G.key key 2 1)) with hD
  have hDm : Measurable D :=
    ((measurable_pi_lambda _ fun i : Fin T => (hG.measurable_normal T i).comp (hG.measurable_key 2 0)).prodMk
      (measurable_pi_lambda _ fun i : Fin T => (hG.measurable_normal T i).comp (hG.measurable_key 2 1))).prodMk ((hG.measurable_key 2 0).comp (hG.measurable_key 2 1))
  have hint : Integrable (fun z => C * (1 + dataSize mean0 (List.ofFn (yf z)) ^ 4)) μ := ((integrable_const (1 : ℝ)).add hdi).const_mul C
  refine ⟨∫ z, C * (1 + dataSize mean0 (List.ofFn (yf z)) ^ 4) ∂μ, integral_nonneg fun z => by positivity, fun n => ?_⟩
  obtain ⟨E, hE⟩ : ∃ E : ((Fin T → ℝ) × (Fin T → ℝ)) × K → ℝ × ℝ × ℝ,
      E = fun p => (pfErrors G ss (ouF ell dt) (ouSigma ell sigma dt) R mean0 var0 (n + 1) (List.ofFn (yf p.1)) p.2).getD t (0, 0, 0) := ⟨_, rfl⟩
  have hEm : Measurable E := by
    rw [hE]
    exact (measurable_pfErrors hG hss (ouF ell dt) (ouSigma ell sigma dt) R mean0 var0 (n + 1) T t ht).comp ((hym.comp measurable_fst).prodMk measurable_snd)
  have he : (fun key => (pfScript G ss B ell sigma dt R mean0 var0 (n + 1) T key).getD t (0, 0, 0)) = fun key => E (D key) := by
    rw [hE]
    rfl
  have hmom : ∀ (φ : ℝ × ℝ × ℝ → ℝ), Measurable φ → (∀ z, ∫⁻ key, ENNReal.ofReal (φ (E (z, key)) ^ 2) ∂ρ ≤ ENNReal.ofReal (C * (1 + dataSize mean0 (List.ofFn (yf z)) ^ 4))) →
      ∫⁻ key, ENNReal.ofReal (φ (E (D key)) ^ 2) ∂ρ ≤ ENNReal.ofReal (∫ z, C * (1 + dataSize mean0 (List.ofFn (yf z)) ^ 4) ∂μ) := by
    intro φ hφ hb
    have hmE : Measurable fun p => ENNReal.ofReal (φ (E p) ^ 2) := ENNReal.measurable_ofReal.comp ((hφ.comp hEm).pow_const 2)
    rw [ofReal_integral_eq_lintegral_ofReal hint (ae_of_all _ fun z => by positivity), ← lintegral_map hmE hDm, hlaw, lintegral_prod _ hmE.aemeasurable]
    exact lintegral_mono fun z => hb z
  have e' : ∀ key, (pfScript G ss B ell sigma dt R mean0 var0 (n + 1) T key).getD t (0, 0, 0) = E (D key) := fun key => congrFun he key
  simp only [e']
  refine ⟨hEm.comp hDm, hmom (fun x => x.1) measurable_fst fun z => ?_, hmom (fun x => x.2.1) (measurable_fst.comp measurable_snd) fun z => ?_⟩
  · rw [hE]
    exact (h (n + 1) (List.ofFn (yf z)) (by simp) t ht).1
  · rw [hE]
    exact (h (n + 1) (List.ofFn (yf z)) (by simp) t ht).2

omit [MeasurableSpace K] in
theorem pfScript_nonneg (G : Gen K) (ss : List ℝ → ℝ → ℕ) (B : Backend) (ell sigma dt R mean0 var0 : ℝ) (n : ℕ) [NeZero n] (T t : ℕ) (key : K) :
    0 ≤ ((pfScript G ss B ell sigma dt R mean0 var0 n T key).getD t (0, 0, 0)).1 ∧ 0 ≤ ((pfScript G ss B ell sigma dt R mean0 var0 n T key).getD t (0, 0, 0)).2.1 :=
  pfErrors_nonneg G ss _ _ R mean0 var0 n _ _ t

/-- **C181.** The expected errors of mean and variance that the script saves, from a random key, tend to zero as the number of particles grows. -/
theorem C181_script {G : Gen K} {ρ : Measure K} (hG : IdealGen G ρ) {ss : List ℝ → ℝ → ℕ} (hss : Resampling.SearchSorted ss) (B : Backend)
    {ell sigma dt R mean0 var0 : ℝ} (hell : 0 < ell) (hsigma : sigma ≠ 0) (hdt : 0 < dt) (hR : 0 < R) (hv0 : 0 < var0) (T t : ℕ) (ht : t < T) :
    let e := fun n key => (pfScript G ss B ell sigma dt R mean0 var0 (n + 1) T key).getD t (0, 0, 0)
    (∀ n, Integrable (fun key => (e n key).1) ρ ∧ Integrable (fun key => (e n key).2.1) ρ) ∧
    Tendsto (fun n => ∫ key, (e n key).1 ∂ρ) atTop (𝓝 0) ∧ Tendsto (fun n => ∫ key, (e n key).2.1 ∂ρ) atTop (𝓝 0) := by
  intro e
  have := hG.prob
  obtain ⟨C, hC, h⟩ := script_sq hG hss B (mean0 := mean0) hell hsigma hdt hR hv0 T t ht
  have hp := fun ε hε => (C179_script hG hss B (mean0 := mean0) hell hsigma hdt hR hv0 T).2 t ht ε hε
  have h1 := tendsto_mean_of_prob ρ (fun n key => (e n key).1) (fun n key => (pfScript_nonneg G ss B ell sigma dt R mean0 var0 (n + 1) T t key).1)
    (fun n => (h n).1.fst) hC (fun n => (h n).2.1) fun ε hε => (hp ε hε).1
  have h2 := tendsto_mean_of_prob ρ (fun n key => (e n key).2.1) (fun n key => (pfScript_nonneg G ss B ell sigma dt R mean0 var0 (n + 1) T t key).2)
    (fun n => (h n).1.snd.fst) hC (fun n => (h n).2.2) fun ε hε => (hp ε hε).2.1
  exact ⟨fun n => ⟨h1.1 n, h2.1 n⟩, h1.2, h2.2⟩

/-- each of the keys of the Monte Carlo runs is again a random key. -/
theorem idealGen_key {G : Gen K} {ρ : Measure K} (hG : IdealGen G ρ) {num k : ℕ} (hk : k < num) : ρ.map (fun main => G.key main num k) = ρ := by
  have := hG.prob
  have h := congrArg (fun m => (m.map Prod.snd).map (fun x => x ⟨k, hk⟩)) (hG.normals num 0)
  simp only [Measure.map_snd_prod, measure_univ, one_smul] at h
  have hmn : Measurable fun k => ((fun i : Fin 0 => G.normal k 0 i), fun i : Fin num => G.key k num i) :=
    (measurable_pi_lambda _ fun i => hG.measurable_normal _ _).prodMk (measurable_pi_lambda _ fun i => hG.measurable_key _ _)
  rw [Measure.map_map measurable_snd hmn, Measure.map_map (measurable_pi_apply _) (measurable_snd.comp hmn), (measurePreserving_eval (fun _ : Fin num => ρ) ⟨k, hk⟩).map_eq] at h
  exact h

/-- **C181.** The curves that are plotted for the particle filter (averages over any number of Monte Carlo runs) tend to zero in mean as the number of particles grows. -/
theorem C181_curves {G : Gen K} {ρ : Measure K} (hG : IdealGen G ρ) {ss : List ℝ → ℝ → ℕ} (hss : Resampling.SearchSorted ss) (B : Backend)
    {ell sigma dt R mean0 var0 : ℝ} (hell : 0 < ell) (hsigma : sigma ≠ 0) (hdt : 0 < dt) (hR : 0 < R) (hv0 : 0 < var0) (T t : ℕ) (ht : t < T) (runs maxMcs : ℕ → ℕ)
    (hr : ∀ n, 0 < runs n) (hle : ∀ n, runs n ≤ maxMcs n) :
    let curve := fun n main => pfCurves G ss B ell sigma dt R mean0 var0 (n + 1) T t (runs n) (maxMcs n) main
    (∀ n main, 0 ≤ (curve n main).1 ∧ 0 ≤ (curve n main).2) ∧ (∀ n, Integrable (fun main => (curve n main).1) ρ ∧ Integrable (fun main => (curve n main).2) ρ) ∧
    Tendsto (fun n => ∫ main, (curve n main).1 ∂ρ) atTop (𝓝 0) ∧ Tendsto (fun n => ∫ main, (curve n main).2 ∂ρ) atTop (𝓝 0) := by
  intro curve
  obtain ⟨hi, h1, h2⟩ := C181_script hG hss B (mean0 := mean0) hell hsigma hdt hR hv0 T t ht
  have main : ∀ (f : K → ℝ), Integrable f ρ → ∀ n, Integrable (fun main => (∑ k ∈ Finset.range (runs n), f (G.key main (maxMcs n) k)) / runs n) ρ ∧
      ∫ main, (∑ k ∈ Finset.range (runs n), f (G.key main (maxMcs n) k)) / runs n ∂ρ = ∫ key, f key ∂ρ := by
    intro f hf n
    have hk : ∀ k ∈ Finset.range (runs n), k < maxMcs n := fun k hk => (Finset.mem_range.1 hk).trans_le (hle n)
    have hfi : ∀ k ∈ Finset.range (runs n), Integrable (fun main => f (G.key main (maxMcs n) k)) ρ := fun k hkr => by
      have h := hf
      rw [← idealGen_key hG (hk k hkr)] at h
      exact h.comp_measurable (hG.measurable_key _ _)
    refine ⟨(integrable_finsetSum _ hfi).div_const _, ?_⟩
    have hfk : ∀ k ∈ Finset.range (runs n), ∫ main, f (G.key main (maxMcs n) k) ∂ρ = ∫ key, f key ∂ρ := fun k hkr => by
      have h := hf.aestronglyMeasurable
      rw [← idealGen_key hG (hk k hkr)] at h
      have := integral_map (hG.measurable_key (maxMcs n) k).aemeasurable h
      rw [idealGen_key hG (hk k hkr)] at this
      exact this.symm
    have hr' : (runs n : ℝ) ≠ 0 := by exact_mod_cast (hr n).ne'
    rw [integral_div, integral_finsetSum _ hfi, Finset.sum_congr rfl hfk, Finset.sum_const, Finset.card_range, nsmul_eq_mul, mul_div_cancel_left₀ _ hr']
  refine ⟨fun n m => ⟨div_nonneg (Finset.sum_nonneg fun k _ => (pfScript_nonneg G ss B ell sigma dt R mean0 var0 (n + 1) T t _).1) (Nat.cast_nonneg _),
    div_nonneg (Finset.sum_nonneg fun k _ => (pfScript_nonneg G ss B ell sigma dt R mean0 var0 (n + 1) T t _).2) (Nat.cast_nonneg _)⟩,
    fun n => ⟨(main _ (hi n).1 n).1, (main _ (hi n).2 n).1⟩, h1.congr fun n => ((main _ (hi n).1 n).2).symm, h2.congr fun n => ((main _ (hi n).2 n).2).symm⟩

/-! ## The hypotheses can be met -/

/-- the experiment as it stands, with 10000 runs out of a million keys. -/
example (B : Backend) (T t : ℕ) (ht : t < T) :
    Tendsto (fun n => ∫ main, (pfCurves treeGen ssCount B 1 0.5 1e-1 1 0 (0.5 ^ 2) (n + 1) T t 10000 1000000 main).1 ∂treeLaw) atTop (𝓝 0) :=
  (C181_curves treeGen_ideal (fun _ _ _ => rfl) B one_pos (by norm_num) (by norm_num) one_pos (by norm_num) T t ht (fun _ => 10000) (fun _ => 1000000)
    (fun _ => by norm_num) fun _ => by norm_num).2.2.1

end Mfs.Props

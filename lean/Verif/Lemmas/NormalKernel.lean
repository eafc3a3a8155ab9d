import Verif.Spec.NormalKernel
import Verif.Lemmas.ConvergeU
import Verif.Lemmas.GaussReal

/-!
# Normal transition kernels with means and variances of linear growth
-/

namespace Mfs.Converge

open Mfs.Spec MeasureTheory ProbabilityTheory Filter Topology
open scoped NNReal

variable {m : ℝ → ℝ} {v : ℝ → ℝ≥0} {hm : Measurable m} {hv : Measurable v}

theorem normalKernel_apply (x : ℝ) : normalKernel m v hm hv x = gaussianReal (m x) (v x) := rfl

instance : IsMarkovKernel (normalKernel m v hm hv) := ⟨fun x => by rw [normalKernel_apply]; infer_instance⟩

theorem PolyGrowth.add {f g : ℝ → ℝ} (hf : PolyGrowth f) (hg : PolyGrowth g) : PolyGrowth fun x => f x + g x := by
  obtain ⟨C, j, hC0, hC⟩ := hf.nonneg
  obtain ⟨C', j', hC0', hC'⟩ := hg.nonneg
  refine ⟨2 * (C + C'), j + j', fun x => (abs_add_le _ _).trans ?_⟩
  have key : ∀ i i' : ℕ, |x| ^ i ≤ 1 + |x| ^ (i + i') := by
    intro i i'
    rcases le_total |x| 1 with h | h
    · have h1 : |x| ^ i ≤ 1 := pow_le_one₀ (abs_nonneg _) h
      have h2 : 0 ≤ |x| ^ (i + i') := by positivity
      linarith
    · have := pow_le_pow_right₀ h (Nat.le_add_right i i')
      linarith
  have k1 := key j j'
  have k2 := key j' j
  rw [add_comm j' j] at k2
  have h0 : 0 ≤ |x| ^ (j + j') := by positivity
  have a1 := hC x
  have a2 := hC' x
  have b1 : C * (1 + |x| ^ j) ≤ C * (2 * (1 + |x| ^ (j + j'))) := mul_le_mul_of_nonneg_left (by linarith) hC0
  have b2 : C' * (1 + |x| ^ j') ≤ C' * (2 * (1 + |x| ^ (j + j'))) := mul_le_mul_of_nonneg_left (by linarith) hC0'
  linarith

theorem PolyGrowth.mul {f g : ℝ → ℝ} (hf : PolyGrowth f) (hg : PolyGrowth g) : PolyGrowth fun x => f x * g x := by
  obtain ⟨C, j, hC0, hC⟩ := hf.nonneg
  obtain ⟨C', j', hC0', hC'⟩ := hg.nonneg
  refine ⟨4 * (C * C'), j + j', fun x => ?_⟩
  rw [abs_mul]
  refine (mul_le_mul (hC x) (hC' x) (abs_nonneg _) (by positivity)).trans ?_
  have key : (1 + |x| ^ j) * (1 + |x| ^ j') ≤ 4 * (1 + |x| ^ (j + j')) := by
    rw [pow_add]
    rcases le_total |x| 1 with h | h
    · have h1 : |x| ^ j ≤ 1 := pow_le_one₀ (abs_nonneg _) h
      have h2 : |x| ^ j' ≤ 1 := pow_le_one₀ (abs_nonneg _) h
      have h3 : 0 ≤ |x| ^ j := by positivity
      have h4 : 0 ≤ |x| ^ j' := by positivity
      nlinarith
    · have h1 : 1 ≤ |x| ^ j := one_le_pow₀ h
      have h2 : 1 ≤ |x| ^ j' := one_le_pow₀ h
      nlinarith
  calc C * (1 + |x| ^ j) * (C' * (1 + |x| ^ j')) = C * C' * ((1 + |x| ^ j) * (1 + |x| ^ j')) := by ring
    _ ≤ C * C' * (4 * (1 + |x| ^ (j + j'))) := mul_le_mul_of_nonneg_left key (by positivity)
    _ = _ := by ring

theorem PolyGrowth.npow {f : ℝ → ℝ} (hf : PolyGrowth f) (k : ℕ) : PolyGrowth fun x => f x ^ k := by
  induction k with
  | zero => simpa using PolyGrowth.const 1
  | succ k ih =>
    simp only [pow_succ]
    exact ih.mul hf

theorem PolyGrowth.sum {ι : Type} {s : Finset ι} {f : ι → ℝ → ℝ} (hf : ∀ i ∈ s, PolyGrowth (f i)) : PolyGrowth fun x => ∑ i ∈ s, f i x := by
  classical
  induction s using Finset.induction_on with
  | empty => simpa using PolyGrowth.const 0
  | insert i s hi ih =>
    simp only [Finset.sum_insert hi]
    exact (hf i (Finset.mem_insert_self i s)).add (ih fun j hj => hf j (Finset.mem_insert_of_mem hj))

theorem gaussianReal_inf (m : ℝ) {v : ℝ≥0} (hv : v ≠ 0) (s : Finset ℝ) : gaussianReal m v (s : Set ℝ)ᶜ ≠ 0 := by
  have := nullSingletonClass_gaussianReal (μ := m) hv
  have h0 : gaussianReal m v (s : Set ℝ) = 0 := s.finite_toSet.measure_zero _
  rw [measure_compl s.measurableSet (measure_ne_top _ _), h0, measure_univ]
  simp

theorem gaussianReal_expMoments (m : ℝ) (v : ℝ≥0) : ExpMoments (gaussianReal m v) := fun c => integrable_exp_mul_gaussianReal c

theorem goodKernel_normal (hmc : Continuous m) (hvc : Continuous v) (hv0 : ∀ x, v x ≠ 0) {A : ℝ} (hmA : ∀ x, |m x| ≤ A * (1 + |x|))
    (hvA : ∀ x, (v x : ℝ) ≤ A * (1 + |x|)) : GoodKernel (normalKernel m v hm hv) := by
  have hA : 0 ≤ A := by
    have := (abs_nonneg _).trans (hmA 0)
    simpa using this
  have hsqrt : PolyGrowth fun x => √(v x : ℝ) := by
    refine ⟨1 + A, 1, fun x => ?_⟩
    rw [abs_of_nonneg (Real.sqrt_nonneg _), pow_one]
    have h1 : √(v x : ℝ) ≤ 1 + v x := by
      rw [Real.sqrt_le_left (by positivity)]
      nlinarith [(v x).2, sq_nonneg (v x : ℝ)]
    have h2 := hvA x
    nlinarith [abs_nonneg x]
  have hmg : PolyGrowth m := ⟨A, 1, fun x => by rw [pow_one]; exact hmA x⟩
  have hmom : ∀ k : ℕ, (fun x => ∫ z, z ^ k ∂normalKernel m v hm hv x) = fun x =>
      ∑ j ∈ Finset.range (k + 1), k.choose j * m x ^ j * √(v x : ℝ) ^ (k - j) * ∫ z : ℝ, z ^ (k - j) ∂gaussianReal 0 1 :=
    fun k => funext fun x => gauss_moment (m x) (v x) k
  refine ⟨fun c => ?_, fun k => ?_, fun k => ?_, fun x s => ?_⟩
  · refine ⟨Real.exp ((|c| + c ^ 2 / 2) * A), (|c| + c ^ 2 / 2) * A, fun x => ⟨integrable_exp_mul_gaussianReal c, ?_⟩⟩
    have h1 : ∫ z, Real.exp (c * z) ∂normalKernel m v hm hv x = Real.exp (m x * c + v x * c ^ 2 / 2) := by
      have := congrFun (mgf_id_gaussianReal (μ := m x) (v := v x)) c
      exact this
    rw [h1, ← Real.exp_add, Real.exp_le_exp]
    have h2 : m x * c ≤ |c| * (A * (1 + |x|)) := by
      refine (le_abs_self _).trans ?_
      rw [abs_mul, mul_comm]
      exact mul_le_mul_of_nonneg_left (hmA x) (abs_nonneg _)
    have h3 : v x * c ^ 2 / 2 ≤ c ^ 2 / 2 * (A * (1 + |x|)) := by
      have := mul_le_mul_of_nonneg_left (hvA x) (show 0 ≤ c ^ 2 / 2 by positivity)
      linarith
    linarith
  · rw [hmom]
    exact continuous_finsetSum _ fun j _ => by fun_prop
  · rw [hmom]
    exact PolyGrowth.sum fun j _ => (((PolyGrowth.const _).mul (hmg.npow j)).mul (hsqrt.npow _)).mul (PolyGrowth.const _)
  · exact gaussianReal_inf _ (hv0 x) s

end Mfs.Converge

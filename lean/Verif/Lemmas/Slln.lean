import Verif.Lemmas.Rejection
import Mathlib.Probability.StrongLaw

/-!
# Averages over accepted independent draws
-/

namespace Mfs.Lemmas

open MeasureTheory ProbabilityTheory Measure Filter Topology

variable {D : Type} [MeasurableSpace D] {Ω : Type} [MeasurableSpace Ω]

/-- the strong law for functions of independent draws with the same law. -/
theorem slln_infinitePi (P : Measure Ω) (ρ : Measure D) [IsProbabilityMeasure ρ] (data : Ω → ℕ → D) (hd : Measurable data)
    (hlaw : P.map data = infinitePi fun _ : ℕ => ρ) (h : D → ℝ) (hh : Measurable h) (hi : Integrable h ρ) :
    ∀ᵐ ω ∂P, Tendsto (fun n : ℕ => (∑ i ∈ Finset.range n, h (data ω i)) / n) atTop (𝓝 (∫ d, h d ∂ρ)) := by
  have hmap : ∀ i, (infinitePi fun _ : ℕ => ρ).map (fun x => x i) = ρ := fun i => infinitePi_map_eval (fun _ : ℕ => ρ) i
  have hind : iIndepFun (fun (i : ℕ) (x : ℕ → D) => h (x i)) (infinitePi fun _ : ℕ => ρ) :=
    iIndepFun_infinitePi (X := fun _ => h) fun _ => hh
  have hid : ∀ i, IdentDistrib (fun x : ℕ → D => h (x i)) (fun x => h (x 0)) (infinitePi fun _ : ℕ => ρ) (infinitePi fun _ : ℕ => ρ) := fun i => by
    have : IdentDistrib (fun x : ℕ → D => x i) (fun x => x 0) (infinitePi fun _ : ℕ => ρ) (infinitePi fun _ : ℕ => ρ) :=
      ⟨(measurable_pi_apply i).aemeasurable, (measurable_pi_apply 0).aemeasurable, by rw [hmap, hmap]⟩
    exact this.comp hh
  have hint : Integrable (fun x : ℕ → D => h (x 0)) (infinitePi fun _ : ℕ => ρ) := by
    have := hi
    rw [← hmap 0] at this
    exact this.comp_measurable (measurable_pi_apply 0)
  have key := strong_law_ae_real (fun (i : ℕ) (x : ℕ → D) => h (x i)) hint (fun i j hij => hind.indepFun hij) hid
  have he : ∫ x : ℕ → D, h (x 0) ∂(infinitePi fun _ : ℕ => ρ) = ∫ d, h d ∂ρ := by
    conv_rhs => rw [← hmap 0]
    rw [integral_map (measurable_pi_apply 0).aemeasurable hh.aestronglyMeasurable]
  simp only [he] at key
  rw [← hlaw] at key
  exact ae_of_ae_map hd.aemeasurable key

/-- averages over the draws in a set converge to the conditional expectation. -/
theorem slln_cond (P : Measure Ω) (ρ : Measure D) [IsProbabilityMeasure ρ] (data : Ω → ℕ → D) (hd : Measurable data)
    (hlaw : P.map data = infinitePi fun _ : ℕ => ρ) (G : Set D) [DecidablePred (· ∈ G)] (hG : MeasurableSet G) (hG0 : ρ G ≠ 0) (h : D → ℝ)
    (hh : Measurable h) (hi : IntegrableOn h G ρ) :
    ∀ᵐ ω ∂P, Tendsto (fun n : ℕ => (((Finset.range n).filter fun i => data ω i ∈ G).card : ℝ) / n) atTop (𝓝 (ρ.real G)) ∧
      Tendsto (fun n : ℕ => (∑ i ∈ (Finset.range n).filter fun i => data ω i ∈ G, h (data ω i)) / ((Finset.range n).filter fun i => data ω i ∈ G).card) atTop
        (𝓝 (∫ d, h d ∂ρ[|G])) := by
  have h1 := slln_infinitePi P ρ data hd hlaw (G.indicator fun _ => 1) (measurable_const.indicator hG) ((integrable_const 1).indicator hG)
  have h2 := slln_infinitePi P ρ data hd hlaw (G.indicator h) (hh.indicator hG) ((integrable_indicator_iff hG).2 hi)
  filter_upwards [h1, h2] with ω k1 k2
  rw [integral_indicator hG] at k1 k2
  have e1 : ∀ n, (∑ i ∈ Finset.range n, G.indicator (fun _ => (1 : ℝ)) (data ω i)) = ((Finset.range n).filter fun i => data ω i ∈ G).card := fun n => by
    rw [Finset.card_filter, Nat.cast_sum]
    exact Finset.sum_congr rfl fun i _ => by simp [Set.indicator_apply]
  have e2 : ∀ n, (∑ i ∈ Finset.range n, G.indicator h (data ω i)) = ∑ i ∈ (Finset.range n).filter fun i => data ω i ∈ G, h (data ω i) := fun n => by
    rw [Finset.sum_filter]
    exact Finset.sum_congr rfl fun i _ => by simp [Set.indicator_apply]
  simp only [e1, setIntegral_const, smul_eq_mul, mul_one] at k1
  simp only [e2] at k2
  have hr : ρ.real G ≠ 0 := by
    rw [Measure.real, ENNReal.toReal_ne_zero]
    exact ⟨hG0, measure_ne_top _ _⟩
  refine ⟨k1, ?_⟩
  have hc : ∫ d, h d ∂ρ[|G] = (∫ d in G, h d ∂ρ) / ρ.real G := by
    rw [ProbabilityTheory.cond, integral_smul_measure, ENNReal.toReal_inv, smul_eq_mul, div_eq_inv_mul]
    rfl
  rw [hc]
  refine (k2.div k1 hr).congr' ?_
  filter_upwards [eventually_gt_atTop 0] with n hn
  have : (n : ℝ) ≠ 0 := Nat.cast_ne_zero.2 hn.ne'
  exact div_div_div_cancel_right₀ this _ _

end Mfs.Lemmas

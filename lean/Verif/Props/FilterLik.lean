import Verif.Props.Filter1
import Mathlib.Topology.Algebra.InfiniteSum.Real
import Mathlib.Topology.Algebra.InfiniteSum.Constructions
import Mathlib.MeasureTheory.Integral.Bochner.SumMeasure
import Mathlib.Algebra.BigOperators.Fin

/-!
# Properties C99 and C100: the filter as a predictive distribution over measurements
-/

namespace Mfs.Props

open Matrix Mfs.Spec Mfs.Quad1 Mfs.Filter1

variable {Y : Type}

/-! ## C99 -/

/-- if every step's likelihoods are positive and sum to one, the likelihoods of all sequences of a given length do. -/
theorem hasSum_liks {S : Type} {next : S → Y → S} {lik : S → Y → ℝ} (Inv : S → Prop)
    (hnext : ∀ s y, Inv s → Inv (next s y)) (hpos : ∀ s y, Inv s → 0 < lik s y)
    (hsum : ∀ s, Inv s → HasSum (lik s) 1) (T : ℕ) (s : S) (hs : Inv s) :
    HasSum (fun ys : Fin T → Y => Real.exp (((liks next lik s (List.ofFn ys)).map Real.log).sum)) 1 := by
  induction T generalizing s with
  | zero =>
    simp only [List.ofFn_zero, liks, List.map_nil, List.sum_nil, Real.exp_zero]
    exact hasSum_unique (fun _ : Fin 0 → Y => (1 : ℝ))
  | succ T ih =>
    rw [← (Fin.consEquiv (fun _ : Fin (T + 1) => Y)).hasSum_iff]
    have he : (fun ys : Fin (T + 1) → Y => Real.exp (((liks next lik s (List.ofFn ys)).map Real.log).sum))
        ∘ (Fin.consEquiv (fun _ : Fin (T + 1) => Y))
        = fun q : Y × (Fin T → Y) => lik s q.1
          * Real.exp (((liks next lik (next s q.1) (List.ofFn q.2)).map Real.log).sum) := by
      funext q
      simp only [Function.comp_apply, Fin.consEquiv_apply, List.ofFn_succ, Fin.cons_zero, Fin.cons_succ, liks,
        List.map_cons, List.sum_cons]
      rw [Real.exp_add, Real.exp_log (hpos s _ hs)]
    rw [he]
    set F : Y × (Fin T → Y) → ℝ := fun q => lik s q.1
          * Real.exp (((liks next lik (next s q.1) (List.ofFn q.2)).map Real.log).sum) with hF
    have hfib : ∀ y, HasSum (fun b => F (y, b)) (lik s y) := by
      intro y
      have := (ih (next s y) (hnext s y hs)).mul_left (lik s y)
      rwa [mul_one] at this
    have hsm : Summable F := by
      rw [summable_prod_of_nonneg (fun q => mul_nonneg (hpos s _ hs).le (Real.exp_pos _).le)]
      exact ⟨fun y => (hfib y).summable, by
        have : (fun y => ∑' b, F (y, b)) = lik s := by funext y; exact (hfib y).tsum_eq
        rw [this]; exact (hsum s hs).summable⟩
    have h1 := hsm.hasSum.prod_fiberwise hfib
    rw [← h1.unique (hsum s hs)]
    exact hsm.hasSum

theorem integ_pos_of_pos (B : Backend) (hB : B.Valid) (ms : List ℝ) (hl : 2 ≤ ms.length) (mean scale : ℝ)
    (sort ldl : Bool) (f : ℝ → ℝ) (hf : ∀ x, 0 < f x) : 0 < integ (momentQuadrature B ms mean scale sort ldl) f := by
  have hw := C09_weights_probability B hB ms hl mean scale sort ldl
  refine lt_of_le_of_ne (Finset.sum_nonneg fun i _ => mul_nonneg (hw.1 i) (hf _).le) fun h0 => ?_
  have h1 := (Finset.sum_eq_zero_iff_of_nonneg fun i _ => mul_nonneg (hw.1 i) (hf _).le).1 h0.symm
  have h2 : ∑ i, (momentQuadrature B ms mean scale sort ldl).1 i = 0 :=
    Finset.sum_eq_zero fun i hi => (mul_eq_zero.1 (h1 i hi)).resolve_right (hf _).ne'
  rw [hw.2] at h2
  exact one_ne_zero h2

theorem hasSum_integ (B : Backend) (hB : B.Valid) (ms : List ℝ) (hl : 2 ≤ ms.length) (mean scale : ℝ)
    (sort ldl : Bool) (pdf : Y → ℝ → ℝ) (hsum : ∀ x, HasSum (fun y => pdf y x) 1) :
    HasSum (fun y => integ (momentQuadrature B ms mean scale sort ldl) (pdf y)) 1 := by
  have hw := C09_weights_probability B hB ms hl mean scale sort ldl
  have := hasSum_sum (s := Finset.univ) (f := fun i y => (momentQuadrature B ms mean scale sort ldl).1 i
    * pdf y ((momentQuadrature B ms mean scale sort ldl).2 i)) (a := fun i => (momentQuadrature B ms mean scale sort ldl).1 i)
    (fun i _ => by simpa using (hsum ((momentQuadrature B ms mean scale sort ldl).2 i)).mul_left _)
  rw [hw.2] at this
  exact this

/-- **C99.** For discrete measurements (finite or countable) whose probability mass function is positive and sums to one at
every state, the numbers `exp(-nell)` that a filter assigns to all measurement sequences of length `T` sum to one: the
filter defines a probability law on measurement sequences. This needs no validity of the moments: it holds for any initial
vector with at least two entries and any conditional moment functions. -/
theorem C99_likelihood_normalised (B : Backend) (hB : B.Valid) (stable : Bool) (pdf : Y → ℝ → ℝ)
    (hpos : ∀ y x, 0 < pdf y x) (hsum : ∀ x, HasSum (fun y => pdf y x) 1) (T : ℕ) :
    (∀ (P : ℝ → ℕ → ℝ) (rms0 : List ℝ), 2 ≤ rms0.length →
      HasSum (fun ys : Fin T → Y => Real.exp (-(filterRms B P pdf rms0 (List.ofFn ys) stable).2)) 1) ∧
    (∀ (P : ℝ → ℕ → ℝ → ℝ) (cm : ℝ → ℝ) (cms0 : List ℝ) (m0 : ℝ), 2 ≤ cms0.length →
      HasSum (fun ys : Fin T → Y => Real.exp (-(filterCms B P cm pdf cms0 m0 (List.ofFn ys) stable).2)) 1) ∧
    (∀ (P : ℝ → ℕ → ℝ → ℝ → ℝ) (cm cv : ℝ → ℝ) (scms0 : List ℝ) (m0 s0 : ℝ), 2 ≤ scms0.length →
      HasSum (fun ys : Fin T → Y => Real.exp (-(filterScms B P cm cv pdf scms0 m0 s0 (List.ofFn ys) stable).2)) 1) := by
  refine ⟨?_, ?_, ?_⟩
  · intro P rms0 hl
    simp only [filterRms_eq, neg_neg]
    have hlen : ∀ s, 2 ≤ (predRms B stable P rms0.length s).length := fun s => by simpa [predRms] using hl
    have h1 : ∀ s y, 0 < likRms B stable P pdf rms0.length s y := fun s y => by
      rw [likRms]
      exact integ_pos_of_pos B hB _ (hlen s) _ _ _ _ _ (hpos y)
    have h2 : ∀ s, HasSum (likRms B stable P pdf rms0.length s) 1 := fun s => by
      unfold likRms
      exact hasSum_integ B hB _ (hlen s) _ _ _ _ pdf hsum
    exact hasSum_liks (fun _ => True) (fun _ _ _ => trivial) (fun s y _ => h1 s y) (fun s _ => h2 s) T rms0 trivial
  · intro P cm cms0 m0 hl
    simp only [filterCms_eq, neg_neg]
    have hlen : ∀ s, 2 ≤ (predCms B stable P cm cms0.length s).1.length := fun s => by simpa [predCms] using hl
    have h1 : ∀ s y, 0 < likCms B stable P cm pdf cms0.length s y := fun s y => by
      rw [likCms]
      exact integ_pos_of_pos B hB _ (hlen s) _ _ _ _ _ (hpos y)
    have h2 : ∀ s, HasSum (likCms B stable P cm pdf cms0.length s) 1 := fun s => by
      unfold likCms
      exact hasSum_integ B hB _ (hlen s) _ _ _ _ pdf hsum
    exact hasSum_liks (fun _ => True) (fun _ _ _ => trivial) (fun s y _ => h1 s y) (fun s _ => h2 s) T (cms0, m0) trivial
  · intro P cm cv scms0 m0 s0 hl
    simp only [filterScms_eq, neg_neg]
    have hlen : ∀ s, 2 ≤ (predScms B stable P cm cv scms0.length s).1.length := fun s => by simpa [predScms] using hl
    have h1 : ∀ s y, 0 < likScms B stable P cm cv pdf scms0.length s y := fun s y => by
      rw [likScms]
      exact integ_pos_of_pos B hB _ (hlen s) _ _ _ _ _ (hpos y)
    have h2 : ∀ s, HasSum (likScms B stable P cm cv pdf scms0.length s) 1 := fun s => by
      unfold likScms
      exact hasSum_integ B hB _ (hlen s) _ _ _ _ pdf hsum
    exact hasSum_liks (fun _ => True) (fun _ _ _ => trivial) (fun s y _ => h1 s y) (fun s _ => h2 s) T (scms0, m0, s0) trivial

/-- a logistic Bernoulli measurement meets the hypotheses. -/
example : (∀ (y : Bool) (x : ℝ), 0 < (fun (y : Bool) (x : ℝ) => if y then 1 / (1 + Real.exp x) else
      1 - 1 / (1 + Real.exp x)) y x) ∧
    ∀ x : ℝ, HasSum (fun y : Bool => (fun (y : Bool) (x : ℝ) => if y then 1 / (1 + Real.exp x) else
      1 - 1 / (1 + Real.exp x)) y x) 1 := by
  constructor
  · intro y x
    have h := Real.exp_pos x
    cases y
    · simp only [Bool.false_eq_true, if_false, sub_pos]
      rw [div_lt_one (by linarith)]
      linarith
    · simp only [if_true]
      positivity
  · intro x
    convert hasSum_fintype (fun y : Bool => if y then 1 / (1 + Real.exp x) else 1 - 1 / (1 + Real.exp x)) using 1
    simp

/-! ## C100 -/

open MeasureTheory in
/-- **C100.** For a measurement density `pdf` (with respect to any measure `ν`: Lebesgue, counting, …) which integrates to
one at every state, the predictive density `exp(-nell)` of one measurement integrates to one, and the posterior moments
averaged over the predictive distribution give back the predicted moments (law of total expectation), provided the
predicted moments are valid and normalised. -/
theorem C100_total_expectation (B : Backend) (hB : B.Valid) (stable : Bool) [MeasurableSpace Y] (ν : Measure Y)
    (pdf : Y → ℝ → ℝ) (hpos : ∀ y x, 0 < pdf y x) (hint : ∀ x, Integrable (fun y => pdf y x) ν)
    (hone : ∀ x, ∫ y, pdf y x ∂ν = 1) (P : ℝ → ℕ → ℝ) (rms0 : List ℝ) (hl : 2 ≤ rms0.length) :
    ∫ y, Real.exp (-(filterRms B P pdf rms0 [y] stable).2) ∂ν = 1 ∧
    ((gramOf ((List.range rms0.length).map fun k => integ (momentQuadrature B rms0 0 1 false stable) fun x => P x k)).PosDef →
      (∀ x, P x 0 = 1) → ∀ k < 2 * (rms0.length / 2),
      ∫ y, Real.exp (-(filterRms B P pdf rms0 [y] stable).2)
          * ((filterRms B P pdf rms0 [y] stable).1.getD 0 []).getD k 0 ∂ν
        = integ (momentQuadrature B rms0 0 1 false stable) fun x => P x k) := by
  set r := momentQuadrature B (predRms B stable P rms0.length rms0) 0 1 false stable with hr
  have hlen : (predRms B stable P rms0.length rms0).length = rms0.length := by simp [predRms]
  have hw := C09_weights_probability B hB (predRms B stable P rms0.length rms0) (by rw [hlen]; exact hl) 0 1 false stable
  have hlik : ∀ y, Real.exp (-(filterRms B P pdf rms0 [y] stable).2) = integ r (pdf y) := by
    intro y
    rw [filterRms_eq]
    simp only [liks, List.map_cons, List.map_nil, List.sum_cons, List.sum_nil, add_zero, neg_neg]
    rw [likRms, Real.exp_log (integ_pos_of_pos B hB _ (by rw [hlen]; exact hl) _ _ _ _ _ (hpos y))]
  have havg : ∀ f : ℝ → ℝ, ∫ y, integ r (fun x => f x * pdf y x) ∂ν = integ r f := by
    intro f
    simp only [integ]
    rw [integral_finsetSum _ (fun i _ => (((hint _).const_mul (f (r.2 i))).const_mul (r.1 i)))]
    refine Finset.sum_congr rfl fun i _ => ?_
    rw [integral_const_mul, integral_const_mul, hone, mul_one]
  constructor
  · simp only [hlik]
    have := havg fun _ => 1
    simp only [one_mul] at this
    rw [this, integ]
    simp only [mul_one]
    exact hw.2
  · intro hpd hP k hk
    have hk' : k < rms0.length := by omega
    have e : ∀ y, Real.exp (-(filterRms B P pdf rms0 [y] stable).2)
          * ((filterRms B P pdf rms0 [y] stable).1.getD 0 []).getD k 0 = integ r (fun x => x ^ k * pdf y x) := by
      intro y
      rw [hlik, filterRms_eq]
      simp only [traj, List.getD_cons_zero]
      rw [nextRms, getD_map_range _ hk']
      have hZ : likRms B stable P pdf rms0.length rms0 y = integ r (pdf y) := rfl
      rw [hZ, mul_div_cancel₀]
      exact (integ_pos_of_pos B hB _ (by rw [hlen]; exact hl) _ _ _ _ _ (hpos y)).ne'
    simp only [e]
    rw [havg]
    have hrep := C08_reproduces_moments B hB (predRms B stable P rms0.length rms0) hpd false stable k (by rw [hlen]; exact hk)
    rw [hr, hrep]
    have h0 : (predRms B stable P rms0.length rms0).getD 0 0 = 1 := by
      rw [predRms, getD_map_range _ (by omega)]
      simp only [hP]
      rw [integ]
      simp only [mul_one]
      exact (C09_weights_probability B hB rms0 hl 0 1 false stable).2
    rw [h0, div_one, predRms, getD_map_range _ hk']

open MeasureTheory in
/-- hypotheses of C100: a noisy sign measurement, counting measure on its two values, a state that does not move. -/
example : (∀ (y : Bool) (x : ℝ), 0 < (fun (y : Bool) (x : ℝ) => if y = decide (0 < x) then (3 / 4 : ℝ) else 1 / 4) y x) ∧
    (∀ x : ℝ, ∫ y : Bool, (fun (y : Bool) (x : ℝ) => if y = decide (0 < x) then (3 / 4 : ℝ) else 1 / 4) y x
      ∂Measure.count = 1) ∧
    (gramOf ((List.range ([1, 0, 1, 0] : List ℝ).length).map fun k =>
      integ (momentQuadrature theBackend [1, 0, 1, 0] 0 1 false false) fun x => x ^ k)).PosDef := by
  refine ⟨?_, ?_, ?_⟩
  · intro y x
    beta_reduce
    split <;> norm_num
  · intro x
    rw [integral_fintype (Integrable.of_finite)]
    by_cases hx : 0 < x <;> simp [hx, Measure.real] <;> norm_num
  · have := predRms_identity theBackend theBackend_valid false [1, 0, 1, 0] gramOf_example rfl rfl
    simp only [predRms] at this
    rw [this]
    exact gramOf_example

end Mfs.Props

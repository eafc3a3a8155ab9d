import Verif.Model.Prng
import Verif.Lemmas.GaussReal
import Verif.Lemmas.Backend
import Mathlib.MeasureTheory.Integral.Pi
import Mathlib.Analysis.SpecialFunctions.Pow.Real

/-!
# The simulator of the prey--predator model (C162)
-/

namespace Mfs.Props

open Mfs.SsModels Mfs.Prng MeasureTheory ProbabilityTheory

/-- the growth rate of a species, drift over state. -/
noncomputable def growth (alp beta delta gamma : ℝ) (x : Fin 2 → ℝ) : Fin 2 → ℝ := ![alp - beta * x 1, delta * x 0 - gamma]

theorem milstein_factor (alp beta delta gamma sigma ddt : ℝ) (x w : Fin 2 → ℝ) (i : Fin 2) :
    preyMilstein alp beta delta gamma sigma ddt x w i =
      x i * ((1 + sigma * w i) ^ 2 / 2 + (1 / 2 + (growth alp beta delta gamma x i - sigma ^ 2 / 2) * ddt)) := by
  fin_cases i <;> simp [preyMilstein, preyDrift, growth] <;> ring

/-- **C162, partial.** A step from a positive population is positive whatever the noise exactly when
`1/2 + (growth - sigma²/2) ddt` is positive. -/
theorem C162_positive_partial (alp beta delta gamma sigma ddt : ℝ) (hσ : sigma ≠ 0) (x : Fin 2 → ℝ) (i : Fin 2) (hx : 0 < x i) :
    (∀ w, 0 < preyMilstein alp beta delta gamma sigma ddt x w i) ↔
      0 < 1 / 2 + (growth alp beta delta gamma x i - sigma ^ 2 / 2) * ddt := by
  constructor
  · intro h
    have := h fun _ => -1 / sigma
    rw [milstein_factor, mul_div_cancel₀ _ hσ] at this
    have := (mul_pos_iff_of_pos_left hx).1 this
    linarith
  · intro h w
    rw [milstein_factor]
    exact mul_pos hx (by positivity)

/-- **C162, refuted.** With the constants of the model and the step of `simulate`, two steps from `(1, 1)` can make the prey negative. -/
theorem C162_positive_refuted : ∃ w₁ w₂ : Fin 2 → ℝ,
    preyMilstein 4 4 4 4 (1 / 10) (1 / 100000) (preyMilstein 4 4 4 4 (1 / 10) (1 / 100000) ![1, 1] w₁) w₂ 0 < 0 := by
  refine ⟨![0, 10000], ![-10, 0], ?_⟩
  norm_num [preyMilstein, preyDrift]

theorem scan_mem {A B : Type} (P : A → Prop) (f : A → B → A) (hf : ∀ a b, P a → P (f a b)) (l : List B) (a : A) (ha : P a) :
    P (scan (fun a b => (f a b, ())) a l).1 := by
  induction l generalizing a with
  | nil => exact ha
  | cons b l ih => exact ih _ (hf a b ha)

theorem scan_mem_out {A B : Type} (P : A → Prop) (f : A → B → A) (hf : ∀ a b, P a → P (f a b)) (l : List B) (a : A) (ha : P a) :
    ∀ x ∈ (scan (fun a b => (f a b, f a b)) a l).2, P x := by
  induction l generalizing a with
  | nil => intro x hx; simp [scan] at hx
  | cons b l ih =>
    intro x hx
    simp only [scan, List.mem_cons] at hx
    rcases hx with rfl | hx
    · exact hf a b ha
    · exact ih _ (hf a b ha) x hx

/-- **C162.** A set of states that every step of the integrator preserves contains the whole simulated trajectory when it contains the
initial state, for every generator. -/
theorem C162_invariant {K : Type} (G : Gen K) (ss : List ℝ → ℝ → ℕ) (B : Backend) (comps : List (MomentsND.Component 2))
    (alp beta delta gamma sigma dt : ℝ) (T : ℕ) (key : K) (steps : ℕ) (P : (Fin 2 → ℝ) → Prop)
    (hP : ∀ x w, P x → P (preyMilstein alp beta delta gamma sigma (dt / steps) x w)) :
    let r := preySimulate G ss B comps alp beta delta gamma sigma dt T key steps
    P r.1 → ∀ x ∈ r.2.1, P x := by
  intro r h0
  exact scan_mem_out P _ (fun x dws hx => scan_mem P _ hP dws x hx) _ _ h0

/-- **C162.** So an extinct species stays extinct, and without predation of the prey (`beta = 0`) positive populations stay positive when
the step is small. -/
theorem C162_runs {K : Type} (G : Gen K) (ss : List ℝ → ℝ → ℕ) (B : Backend) (comps : List (MomentsND.Component 2))
    (alp beta delta gamma sigma dt : ℝ) (T : ℕ) (key : K) (steps : ℕ) :
    let r := preySimulate G ss B comps alp beta delta gamma sigma dt T key steps
    r.2.1.length = T ∧ r.2.2.length = T ∧ (∀ i, r.1 i = 0 → ∀ x ∈ r.2.1, x i = 0) ∧
    (beta = 0 → 0 ≤ delta → 0 ≤ dt → 0 < 1 / 2 + (alp - sigma ^ 2 / 2) * (dt / steps) → 0 < 1 / 2 - (gamma + sigma ^ 2 / 2) * (dt / steps) →
      (∀ i, 0 < r.1 i) → ∀ x ∈ r.2.1, ∀ i, 0 < x i) := by
  have hlen : ∀ {A B C : Type} (f : A → B → A × C) (l : List B) (a : A), (scan f a l).2.length = l.length := by
    intro A B C f l
    induction l with
    | nil => intro a; rfl
    | cons b l ih => intro a; simp [scan, ih]
  refine ⟨by simp [preySimulate, hlen], by simp [preySimulate], fun i h0 => ?_, fun hb hd hdt h1 h2 h0 => ?_⟩
  · exact C162_invariant G ss B comps alp beta delta gamma sigma dt T key steps (fun x => x i = 0)
      (fun x w hx => by rw [milstein_factor, hx, zero_mul]) h0
  · refine C162_invariant G ss B comps alp beta delta gamma sigma dt T key steps (fun x => ∀ i, 0 < x i) (fun x w hx i => ?_) h0
    rw [milstein_factor]
    refine mul_pos (hx i) (add_pos_of_nonneg_of_pos (by positivity) ?_)
    fin_cases i
    · simpa [growth, hb] using h1
    · have : 0 ≤ delta * x 0 * (dt / steps) := by have := hx 0; positivity
      simp [growth]; simp at h2; nlinarith

theorem scan_fst_append {A B : Type} (f : A → B → A) (l l' : List B) (a : A) :
    (scan (fun a b => (f a b, ())) a (l ++ l')).1 =
      (scan (fun a b => (f a b, ())) (scan (fun a b => (f a b, ())) a l).1 l').1 := by
  induction l generalizing a with
  | nil => rfl
  | cons b l ih => exact ih _

theorem scan_fst_fixed {A B : Type} (f : A → B → A) (l : List B) (a : A) (h : ∀ b ∈ l, f a b = a) :
    (scan (fun a b => (f a b, ())) a l).1 = a := by
  induction l with
  | nil => rfl
  | cons b l ih =>
    have hb := h b (by simp)
    have := ih fun b' hb' => h b' (by simp [hb'])
    simpa [scan, hb] using this

theorem preySimulate_first {K : Type} (G : Gen K) (ss : List ℝ → ℝ → ℕ) (B : Backend) (comps : List (MomentsND.Component 2))
    (alp beta delta gamma sigma dt : ℝ) (T : ℕ) (key : K) (steps : ℕ) :
    (preySimulate G ss B comps alp beta delta gamma sigma dt (T + 1) key steps).2.1.getD 0 0 =
      (scan (fun x ddw => (preyMilstein alp beta delta gamma sigma (dt / steps) x ddw, ())) (samplerND G ss B comps (n := 1) (G.key key 3 0) 0)
        ((List.range steps).map fun s => fun j : Fin 2 =>
          Real.sqrt (dt / steps) * G.normal (G.key key 3 1) ((T + 1) * steps * 2) ((0 * steps + s) * 2 + j))).1 := by
  simp only [preySimulate, List.range_succ_eq_map, List.map_cons, scan, List.getD_cons_zero]

/-- **C162, refuted.** There are draws for which `simulate`, with the model as it is (its constants, initial law, times and integration
steps), returns a negative prey. -/
theorem C162_simulate_refuted (ss : List ℝ → ℝ → ℕ) (B : Backend) : ∃ G : Gen ℕ, (∀ k n, (G.split k n).length = n) ∧
    ((preySimulate G ss B [⟨![1, 1], (0.001 : ℝ) • 1, 0.5⟩, ⟨![1, 1], (0.002 : ℝ) • 1, 0.5⟩] 4 4 4 4 0.1 0.001 2000 0).2.1.getD 0 0) 0 < 0 := by
  set ddt : ℝ := 0.001 / (100 : ℕ) with hddt
  have hd : ddt = 1 / 100000 := by rw [hddt]; norm_num
  have hr : 0 < Real.sqrt ddt := Real.sqrt_pos.2 (by rw [hd]; norm_num)
  set ws : ℝ := (-1 + Real.sqrt (1 + 0.1 ^ 2 * ddt)) / 0.1 with hws
  let w : ℕ → ℝ := fun n => if n = 196 ∨ n = 199 then 0 else if n = 197 then 10000 else if n = 198 then -10 else ws
  let G : Gen ℕ := ⟨fun k n => (List.range n).map fun i => 4 * k + i + 1, fun _ _ _ => 0, fun k _ i => if k = 2 then w i / Real.sqrt ddt else 0⟩
  have hfix : ∀ u : Fin 2 → ℝ, (∀ j, u j = ws) → preyMilstein 4 4 4 4 0.1 ddt ![1, 1] u = ![1, 1] := by
    intro u hu
    have hq : Real.sqrt (1 + 0.1 ^ 2 * ddt) ^ 2 = 1 + 0.1 ^ 2 * ddt := Real.sq_sqrt (by rw [hd]; norm_num)
    have : (1 + 0.1 * ws) ^ 2 = 1 + 0.1 ^ 2 * ddt := by
      rw [← hq, hws]; congr 1; field_simp; ring
    funext j
    rw [milstein_factor, hu, this]
    fin_cases j <;> simp [growth] <;> ring
  refine ⟨G, fun k n => by simp [G], ?_⟩
  have hk1 : G.key 0 3 1 = 2 := rfl
  have hk0 : G.fst (G.key 0 3 0) = 5 := rfl
  have hx0 : samplerND G ss B [⟨![1, 1], (0.001 : ℝ) • 1, 0.5⟩, ⟨![1, 1], (0.002 : ℝ) • 1, 0.5⟩] (n := 1) (G.key 0 3 0) 0 = ![1, 1] := by
    simp only [samplerND, hk0]
    have hz : (fun j : Fin 2 => G.normal 5 (1 * 2) (((0 : Fin 1) : ℕ) * 2 + (j : ℕ))) = 0 := by funext j; simp [G]
    rw [hz, Matrix.mulVec_zero, add_zero]
    generalize choice G ss _ _ _ _ = q
    rcases q with _ | q
    · rfl
    · simp
  let L : ℕ → Fin 2 → ℝ := fun s j => w (s * 2 + j)
  have hL : ∀ N, (fun s => fun j : Fin 2 => Real.sqrt ddt * G.normal (G.key 0 3 1) N ((0 * 100 + s) * 2 + j)) = L := by
    intro N
    funext s j
    simp only [hk1, G, L, if_true, zero_mul, zero_add]
    field_simp
  have hr100 : (List.range 100).map L = (List.range 98).map L ++ [L 98, L 99] := by
    rw [show (100 : ℕ) = 98 + 1 + 1 by norm_num, List.range_succ, List.range_succ, List.append_assoc, List.map_append]; rfl
  have hin : (scan (fun x ddw => (preyMilstein 4 4 4 4 0.1 ddt x ddw, ())) ![1, 1] ((List.range 98).map L ++ [L 98, L 99])).1 =
      preyMilstein 4 4 4 4 0.1 ddt (preyMilstein 4 4 4 4 0.1 ddt ![1, 1] (L 98)) (L 99) := by
    rw [scan_fst_append, scan_fst_fixed _ ((List.range 98).map L)]
    · rfl
    · intro b hb
      obtain ⟨s, hs, rfl⟩ := List.mem_map.1 hb
      have hs := List.mem_range.1 hs
      refine hfix _ fun j => ?_
      have hj := j.2
      simp only [L, w]
      rw [if_neg (by omega), if_neg (by omega), if_neg (by omega)]
  have hout : (preySimulate G ss B [⟨![1, 1], (0.001 : ℝ) • 1, 0.5⟩, ⟨![1, 1], (0.002 : ℝ) • 1, 0.5⟩] 4 4 4 4 0.1 0.001 2000 0).2.1.getD 0 0 =
      preyMilstein 4 4 4 4 0.1 ddt (preyMilstein 4 4 4 4 0.1 ddt ![1, 1] (L 98)) (L 99) := by
    have h := preySimulate_first G ss B [⟨![1, 1], (0.001 : ℝ) • 1, 0.5⟩, ⟨![1, 1], (0.002 : ℝ) • 1, 0.5⟩] 4 4 4 4 0.1 0.001 1999 0 100
    rw [hx0, ← hddt, hL, hr100, hin] at h
    simp only [Nat.reduceAdd] at h
    exact h
  rw [hout, hd]
  norm_num [preyMilstein, preyDrift, L, w]

theorem scan_fst_foldl {A B : Type} (f : A → B → A) (l : List B) (a : A) : (scan (fun a b => (f a b, ())) a l).1 = l.foldl f a := by
  induction l generalizing a with
  | nil => rfl
  | cons b l ih => exact ih _

theorem scan_out_getD {A B : Type} (f : A → B → A) (l : List B) (a d : A) (b0 : B) (t : ℕ) (ht : t < l.length) :
    (scan (fun a b => (f a b, f a b)) a l).2.getD t d =
      f (if t = 0 then a else (scan (fun a b => (f a b, f a b)) a l).2.getD (t - 1) d) (l.getD t b0) := by
  induction l generalizing a t with
  | nil => simp at ht
  | cons b l ih =>
    rcases t with _ | t
    · simp [scan]
    · have := ih (f a b) t (by simpa using ht)
      simp only [scan, List.getD_cons_succ, Nat.add_sub_cancel, Nat.succ_ne_zero, if_false]
      rw [this]
      rcases t with _ | t
      · simp
      · simp

/-- **C162.** The state at time `t` comes from that at time `t - 1` (the initial state for `t = 0`) by `steps` Milstein steps of length
`dt / steps`, whose noises are `√(dt / steps)` times normal draws; no draw is used twice and none is left over. -/
theorem C162_recursion {K : Type} (G : Gen K) (ss : List ℝ → ℝ → ℕ) (B : Backend) (comps : List (MomentsND.Component 2))
    (alp beta delta gamma sigma dt : ℝ) (T : ℕ) (key : K) (steps : ℕ) :
    let r := preySimulate G ss B comps alp beta delta gamma sigma dt T key steps
    ∃ draw : Fin T × Fin steps × Fin 2 → Fin (T * steps * 2), draw.Bijective ∧
      ∀ t : Fin T, r.2.1.getD t 0 = (List.finRange steps).foldl (fun x s => preyMilstein alp beta delta gamma sigma (dt / steps) x fun j =>
        Real.sqrt (dt / steps) * G.normal (G.key key 3 1) (T * steps * 2) (draw (t, s, j)))
          (if (t : ℕ) = 0 then r.1 else r.2.1.getD (t - 1) 0) := by
  intro r
  have hlt : ∀ (t : Fin T) (s : Fin steps) (j : Fin 2), ((t : ℕ) * steps + s) * 2 + j < T * steps * 2 := by
    intro t s j
    have h1 : ((t : ℕ) + 1) * steps ≤ T * steps := Nat.mul_le_mul_right _ t.2
    have h2 : ((t : ℕ) + 1) * steps = t * steps + steps := by ring
    have := s.2; have := j.2
    omega
  let draw : Fin T × Fin steps × Fin 2 → Fin (T * steps * 2) := fun p => ⟨((p.1 : ℕ) * steps + p.2.1) * 2 + p.2.2, hlt _ _ _⟩
  refine ⟨draw, ?_, fun t => ?_⟩
  · rw [Fintype.bijective_iff_injective_and_card]
    refine ⟨?_, by simp [mul_assoc]⟩
    rintro ⟨t, s, j⟩ ⟨t', s', j'⟩ h
    have h := congrArg Fin.val h
    simp only [draw] at h
    have hj := j.2; have hj' := j'.2; have hs := s.2; have hs' := s'.2
    have e1 : (t : ℕ) * steps + s = t' * steps + s' := by omega
    have e2 : (j : ℕ) = j' := by omega
    have et : (t : ℕ) = t' := by
      have a := congrArg (· / steps) e1
      simp only [Nat.add_div_of_dvd_right (Dvd.intro_left _ rfl), Nat.mul_div_cancel _ (by omega : 0 < steps), Nat.div_eq_of_lt hs, Nat.div_eq_of_lt hs'] at a
      simpa using a
    have es : (s : ℕ) = s' := by rw [et] at e1; omega
    exact Prod.ext (Fin.ext et) (Prod.ext (Fin.ext es) (Fin.ext e2))
  · have hfold : ∀ (x : Fin 2 → ℝ) (g : ℕ → Fin 2 → ℝ), ((List.range steps).map g).foldl (preyMilstein alp beta delta gamma sigma (dt / steps)) x =
        (List.finRange steps).foldl (fun x (s : Fin steps) => preyMilstein alp beta delta gamma sigma (dt / steps) x (g s)) x := by
      intro x g
      rw [← List.map_coe_finRange_eq_range, List.map_map, List.foldl_map]; rfl
    have h := scan_out_getD (fun x dws => (scan (fun x ddw => (preyMilstein alp beta delta gamma sigma (dt / steps) x ddw, ())) x dws).1)
      ((List.range T).map fun t => (List.range steps).map fun s => fun j : Fin 2 =>
        Real.sqrt (dt / steps) * G.normal (G.key key 3 1) (T * steps * 2) ((t * steps + s) * 2 + j))
      (samplerND G ss B comps (n := 1) (G.key key 3 0) 0) 0 [] t (by simp)
    have hg : ((List.range T).map fun t => (List.range steps).map fun s => fun j : Fin 2 =>
        Real.sqrt (dt / steps) * G.normal (G.key key 3 1) (T * steps * 2) ((t * steps + s) * 2 + j)).getD t [] =
        (List.range steps).map fun s => fun j : Fin 2 =>
        Real.sqrt (dt / steps) * G.normal (G.key key 3 1) (T * steps * 2) ((t * steps + s) * 2 + j) := by
      rw [List.getD_eq_getElem?_getD]; simp
    rw [hg, scan_fst_foldl, hfold] at h
    exact h

/-- **C162.** With the draws of `simulate` the mean of a step is that of the Euler scheme, and the covariance is that of the Euler
scheme plus `sigma⁴ ddt² / 2` times the squared state on the diagonal. -/
theorem C162_step_moments (alp beta delta gamma sigma ddt : ℝ) (hd : 0 ≤ ddt) (x : Fin 2 → ℝ) :
    let μ : Measure (Fin 2 → ℝ) := Measure.pi fun _ => gaussianReal 0 1
    let step := fun z : Fin 2 → ℝ => preyMilstein alp beta delta gamma sigma ddt x fun j => Real.sqrt ddt * z j
    (∀ i, ∫ z, step z i ∂μ = x i + preyDrift alp beta delta gamma x i * ddt) ∧
    ∀ i j, ∫ z, (step z i - ∫ z, step z i ∂μ) * (step z j - ∫ z, step z j ∂μ) ∂μ =
      if i = j then (sigma * x i) ^ 2 * ddt + sigma ^ 4 * x i ^ 2 * ddt ^ 2 / 2 else 0 := by
  intro μ step
  let g : ℝ → ℝ := fun z => sigma * Real.sqrt ddt * z + 1 / 2 * sigma ^ 2 * ddt * (z ^ 2 - 1)
  have hsq : Real.sqrt ddt ^ 2 = ddt := Real.sq_sqrt hd
  have hstep : ∀ z i, step z i = x i + preyDrift alp beta delta gamma x i * ddt + x i * g (z i) := by
    intro z i
    simp only [step, preyMilstein, g, mul_pow, hsq]; ring
  have ip : ∀ k : ℕ, Integrable (fun z : ℝ => z ^ k) (gaussianReal 0 1) := fun k => integrable_pow_gaussianReal 0 1 k
  have m0 : ∫ z : ℝ, z ^ 0 ∂gaussianReal 0 1 = 1 := by simp
  have m1 : ∫ z : ℝ, z ^ 1 ∂gaussianReal 0 1 = 0 := by simp
  have m2 : ∫ z : ℝ, z ^ 2 ∂gaussianReal 0 1 = 1 := by rw [std_moment_succ_succ 0, m0]; norm_num
  have m3 : ∫ z : ℝ, z ^ 3 ∂gaussianReal 0 1 = 0 := by rw [std_moment_succ_succ 1, m1]; norm_num
  have m4 : ∫ z : ℝ, z ^ 4 ∂gaussianReal 0 1 = 3 := by rw [std_moment_succ_succ 2, m2]; norm_num
  -- polynomials of degree four
  have hpoly : ∀ c : Fin 5 → ℝ, ∫ z : ℝ, ∑ k, c k * z ^ (k : ℕ) ∂gaussianReal 0 1 = c 0 + c 2 + 3 * c 4 := by
    intro c
    rw [integral_finsetSum (f := fun (k : Fin 5) (z : ℝ) => c k * z ^ (k : ℕ)) _ fun k _ => (ip k).const_mul _]
    simp only [integral_const_mul, Fin.sum_univ_five]
    simp only [Fin.val_zero, Fin.val_one, Fin.val_two, show ((3 : Fin 5) : ℕ) = 3 from rfl, show ((4 : Fin 5) : ℕ) = 4 from rfl, m0, m1, m2, m3, m4]
    ring
  have hg1 : ∫ z, g z ∂gaussianReal 0 1 = 0 := by
    have e : g = fun z => ∑ k : Fin 5, ![-(1 / 2 * sigma ^ 2 * ddt), sigma * Real.sqrt ddt, 1 / 2 * sigma ^ 2 * ddt, 0, 0] k * z ^ (k : ℕ) := by
      funext z; simp [g, Fin.sum_univ_five]; ring
    rw [e, hpoly]; simp
  have hg2 : ∫ z, g z * g z ∂gaussianReal 0 1 = sigma ^ 2 * ddt + sigma ^ 4 * ddt ^ 2 / 2 := by
    have e : (fun z => g z * g z) = fun z => ∑ k : Fin 5, ![sigma ^ 4 * ddt ^ 2 / 4, -(sigma ^ 3 * ddt * Real.sqrt ddt),
        sigma ^ 2 * ddt - sigma ^ 4 * ddt ^ 2 / 2, sigma ^ 3 * ddt * Real.sqrt ddt, sigma ^ 4 * ddt ^ 2 / 4] k * z ^ (k : ℕ) := by
      funext z; simp [g, Fin.sum_univ_five]
      linear_combination (sigma ^ 2 * z ^ 2) * hsq
    rw [e, hpoly]; simp; ring
  have hgi : Integrable g (gaussianReal 0 1) := by
    have := (((ip 1).const_mul (sigma * Real.sqrt ddt))).add (((ip 2).sub (integrable_const (1 : ℝ))).const_mul (1 / 2 * sigma ^ 2 * ddt))
    exact this.congr (Filter.Eventually.of_forall fun z => by simp [g])
  have hev : ∀ (f : ℝ → ℝ), Measurable f → ∀ i, ∫ z, f (z i) ∂μ = ∫ z, f z ∂gaussianReal 0 1 := by
    intro f hf i
    have hp := measurePreserving_eval (fun _ : Fin 2 => gaussianReal 0 1) i
    rw [← hp.map_eq, integral_map hp.measurable.aemeasurable hf.aestronglyMeasurable]
  have hgm : Measurable g := by fun_prop
  have hgiμ : ∀ i, Integrable (fun z : Fin 2 → ℝ => g (z i)) μ := fun i =>
    (measurePreserving_eval (fun _ : Fin 2 => gaussianReal 0 1) i).integrable_comp_of_integrable hgi
  have hmean : ∀ i, ∫ z, step z i ∂μ = x i + preyDrift alp beta delta gamma x i * ddt := by
    intro i
    simp only [hstep]
    rw [integral_add (integrable_const _) ((hgiμ i).const_mul _), integral_const_mul, hev g hgm, hg1]
    simp
  refine ⟨hmean, fun i j => ?_⟩
  have e : (fun z : Fin 2 → ℝ => (step z i - ∫ z, step z i ∂μ) * (step z j - ∫ z, step z j ∂μ)) =
      fun z => x i * x j * (g (z i) * g (z j)) := by
    funext z; rw [hmean i, hmean j, hstep, hstep]; ring
  rw [e, integral_const_mul]
  split_ifs with hij
  · subst hij
    rw [hev (fun z => g z * g z) (hgm.mul hgm), hg2]; ring
  · have hprod : ∫ z, g (z i) * g (z j) ∂μ = 0 := by
      have h2 : ∫ z : Fin 2 → ℝ, ∏ k, g (z k) ∂μ = 0 := by
        rw [integral_fintype_prod_eq_prod (fun _ => g)]; simp [hg1]
      rw [← h2]; congr 1; funext z
      fin_cases i <;> fin_cases j <;> simp [Fin.prod_univ_two] at hij ⊢
      ring
    rw [hprod, mul_zero]

-- the hypotheses are met with the constants of the model
example := C162_step_moments 4 4 4 4 (1 / 10) (1 / 100000) (by norm_num) ![1, 1]
example (w : Fin 2 → ℝ) : 0 < preyMilstein 4 4 4 4 (1 / 10) (1 / 100000) ![1, 1] w 0 :=
  (C162_positive_partial 4 4 4 4 (1 / 10) (1 / 100000) (by norm_num) ![1, 1] 0 (by simp)).2 (by norm_num [growth]) w
example := (C162_runs (⟨fun k n => List.replicate n k, fun _ _ _ => 1 / 2, fun _ _ i => i⟩ : Gen Unit) (fun _ _ => 0) theBackend
  [⟨fun _ => 1, 0, 1⟩] 4 0 4 4 (1 / 10) (1 / 1000) 3 () 100).2.2.2 rfl (by norm_num) (by norm_num) (by norm_num) (by norm_num)

end Mfs.Props

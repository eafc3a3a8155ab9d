import Verif.Model.BruteForce
import Mathlib.Analysis.Calculus.Deriv.Add
import Mathlib.Analysis.Calculus.Deriv.Mul
import Mathlib.Analysis.Calculus.Deriv.Pow
import Mathlib.Algebra.Order.BigOperators.Ring.Finset
import Mathlib.Probability.Distributions.Gaussian.Real
import Mathlib.MeasureTheory.Integral.IntervalIntegral.FundThmCalculus
import Mathlib.Tactic.Linarith
import Mathlib.Tactic.FieldSimp
import Mathlib.Tactic.Positivity

/-!
# C81, C82, C92, C93: brute-force filter
-/

namespace Mfs.Props

open Mfs.BruteForce

variable {N : ℕ} {Y : Type}

theorem trapz_smul (c : ℝ) (ps xs : Fin (N + 2) → ℝ) : trapz (fun i => c * ps i) xs = c * trapz ps xs := by
  rw [trapz, trapz, Finset.mul_sum]
  exact Finset.sum_congr rfl fun i _ => by ring

theorem trapz_div (c : ℝ) (ps xs : Fin (N + 2) → ℝ) : trapz (fun i => ps i / c) xs = trapz ps xs / c := by
  simp only [div_eq_inv_mul, trapz_smul]

theorem castSucc_lt_succ' (i : Fin (N + 1)) : i.castSucc < i.succ := by
  rw [Fin.lt_def]; simp

theorem trapz_nonneg (ps xs : Fin (N + 2) → ℝ) (hx : Monotone xs) (hp : ∀ i, 0 ≤ ps i) : 0 ≤ trapz ps xs :=
  Finset.sum_nonneg fun i _ => by
    have h1 := hx (castSucc_lt_succ' i).le
    have h2 := hp i.succ
    have h3 := hp i.castSucc
    have := mul_nonneg (sub_nonneg.2 h1) (add_nonneg h2 h3)
    linarith

theorem trapz_pos (ps xs : Fin (N + 2) → ℝ) (hx : StrictMono xs) (hp : ∀ i, 0 ≤ ps i) (j : Fin (N + 2)) (hj : 0 < ps j) :
    0 < trapz ps xs := by
  have hnn : ∀ i : Fin (N + 1), 0 ≤ (xs i.succ - xs i.castSucc) * (ps i.succ + ps i.castSucc) / 2 := fun i => by
    have h1 := hx (castSucc_lt_succ' i)
    have := mul_nonneg (sub_nonneg.2 h1.le) (add_nonneg (hp i.succ) (hp i.castSucc))
    linarith
  obtain ⟨i, hi⟩ : ∃ i : Fin (N + 1), 0 < ps i.succ + ps i.castSucc := by
    rcases Fin.eq_zero_or_eq_succ j with rfl | ⟨i, rfl⟩
    · exact ⟨0, by have := hp (Fin.succ 0); rw [Fin.castSucc_zero]; linarith⟩
    · exact ⟨i, by have := hp i.castSucc; linarith⟩
  refine lt_of_lt_of_le ?_ (Finset.single_le_sum (f := fun i : Fin (N + 1) => (xs i.succ - xs i.castSucc) * (ps i.succ + ps i.castSucc) / 2)
    (fun i _ => hnn i) (Finset.mem_univ i))
  have := mul_pos (sub_pos.2 (hx (castSucc_lt_succ' i))) hi
  show 0 < (xs i.succ - xs i.castSucc) * (ps i.succ + ps i.castSucc) / 2
  linarith

theorem pos_of_trapz_pos (ps xs : Fin (N + 2) → ℝ) (hp : ∀ i, 0 ≤ ps i) (h : 0 < trapz ps xs) : ∃ j, 0 < ps j := by
  by_contra hc
  have h0 : ∀ i, ps i = 0 := fun i => le_antisymm (not_lt.1 fun hi => hc ⟨i, hi⟩) (hp i)
  rw [trapz, Finset.sum_eq_zero fun i _ => by rw [h0, h0]; ring] at h
  exact lt_irrefl _ h

theorem normPdf_pos (x m s : ℝ) : 0 < normPdf x m s := Real.exp_pos _

/-- `scan` of the body, step by step. -/
theorem scan_update (pred : (Fin (N + 2) → ℝ) → Fin (N + 2) → ℝ) (lik : Y → (Fin (N + 2) → ℝ) → Fin (N + 2) → ℝ)
    (xs p0 : Fin (N + 2) → ℝ) (ys : List Y) :
    (scan (updateBody pred lik xs) p0 ys).2.length = ys.length ∧
    ∀ (t : ℕ) (prev o : Fin (N + 2) → ℝ) (y : Y), (p0 :: (scan (updateBody pred lik xs) p0 ys).2)[t]? = some prev → ys[t]? = some y →
      (scan (updateBody pred lik xs) p0 ys).2[t]? = some o → o = (updateBody pred lik xs prev y).2 := by
  induction ys generalizing p0 with
  | nil => simp [scan]
  | cons y ys ih =>
    have hs : (scan (updateBody pred lik xs) p0 (y :: ys)).2
        = (updateBody pred lik xs p0 y).2 :: (scan (updateBody pred lik xs) (updateBody pred lik xs p0 y).1 ys).2 := rfl
    obtain ⟨h1, h2⟩ := ih (updateBody pred lik xs p0 y).1
    rw [hs]
    refine ⟨by simp [h1], ?_⟩
    intro t prev o y' hp hy ho
    cases t with
    | zero =>
      simp only [List.getElem?_cons_zero, Option.some.injEq] at hp hy ho
      rw [← hp, ← hy, ← ho]
    | succ t =>
      rw [List.getElem?_cons_succ] at hp hy ho
      exact h2 t prev o y' hp hy ho

/-- every successful call is such a scan. -/
theorem bruteForce_ok {tmeMeanCov : ℤ → ℝ → ℝ → ℝ × ℝ} {pyInt : String → Option ℤ} {drift dispersion : ℝ → ℝ}
    {lik : Y → (Fin (N + 2) → ℝ) → Fin (N + 2) → ℝ} {initPs xs : Fin (N + 2) → ℝ} {ys : List Y} {dt : ℝ} {steps : ℕ} {method : String}
    {out : List (Fin (N + 2) → ℝ)}
    (hout : bruteForceFilter tmeMeanCov pyInt drift dispersion lik initPs xs ys dt steps method = .ok out) :
    ∃ pred, (scan (updateBody pred lik xs) initPs ys).2 = out ∧
      ((method = "kolmogorov" ∧ pred = predKolmogorov drift dispersion xs (dt / steps) steps) ∨
        (method = "chapman-euler" ∧ pred = predChapman (fun i => xs i + drift (xs i) * (dt / steps))
          (fun i => dispersion (xs i) * Real.sqrt (dt / steps)) xs steps) ∨
        (method ≠ "kolmogorov" ∧ ∃ order, pyInt (lastPart method) = some order ∧
          pred = predChapman (fun i => (tmeMeanCov order (dt / steps) (xs i)).1)
            (fun i => Real.sqrt (tmeMeanCov order (dt / steps) (xs i)).2) xs steps)) := by
  rw [bruteForceFilter] at hout
  split at hout
  · cases hout
  · rename_i tr htr
    split at hout
    · cases hout
    · rename_i pred hpred
      refine ⟨pred, Except.ok.inj hout, ?_⟩
      rw [choosePrediction.eq_def] at hpred
      split_ifs at hpred with h1 h2
      · exact Or.inl ⟨h1, (Except.ok.inj hpred).symm⟩
      · rw [chooseTransition] at htr
        split_ifs at htr with h3 h4
        · rw [← Except.ok.inj htr] at hpred
          exact Or.inr (Or.inl ⟨h3, (Except.ok.inj hpred).symm⟩)
        · cases ho : pyInt (lastPart method) with
          | none => rw [ho] at htr; cases htr
          | some order =>
            rw [ho] at htr
            rw [← Except.ok.inj htr] at hpred
            exact Or.inr (Or.inr ⟨h1, order, rfl, (Except.ok.inj hpred).symm⟩)
        · rw [← Except.ok.inj htr] at hpred
          cases hpred

/-- with a method other than `'kolmogorov'` the prediction is a Chapman one. -/
theorem bruteForce_chapman {tmeMeanCov : ℤ → ℝ → ℝ → ℝ × ℝ} {pyInt : String → Option ℤ} {drift dispersion : ℝ → ℝ}
    {lik : Y → (Fin (N + 2) → ℝ) → Fin (N + 2) → ℝ} {initPs xs : Fin (N + 2) → ℝ} {ys : List Y} {dt : ℝ} {steps : ℕ} {method : String}
    {out : List (Fin (N + 2) → ℝ)}
    (hout : bruteForceFilter tmeMeanCov pyInt drift dispersion lik initPs xs ys dt steps method = .ok out) (hm : method ≠ "kolmogorov") :
    ∃ m scale, (scan (updateBody (predChapman m scale xs steps) lik xs) initPs ys).2 = out := by
  obtain ⟨pred, h, h1 | ⟨-, rfl⟩ | ⟨-, _, -, rfl⟩⟩ := bruteForce_ok hout
  · exact absurd h1.1 hm
  · exact ⟨_, _, h⟩
  · exact ⟨_, _, h⟩

theorem bruteForce_mk {tmeMeanCov : ℤ → ℝ → ℝ → ℝ × ℝ} {pyInt : String → Option ℤ} {drift dispersion : ℝ → ℝ}
    (lik : Y → (Fin (N + 2) → ℝ) → Fin (N + 2) → ℝ) (initPs : Fin (N + 2) → ℝ) {xs : Fin (N + 2) → ℝ} (ys : List Y) {dt : ℝ} {steps : ℕ}
    {method : String} {m scale : Fin (N + 2) → ℝ}
    (h1 : chooseTransition drift dispersion tmeMeanCov pyInt xs (dt / steps) method = .ok (some (m, scale)))
    (h2 : method ≠ "kolmogorov") (h3 : isIn "chapman" method = true) :
    ∃ out, bruteForceFilter tmeMeanCov pyInt drift dispersion lik initPs xs ys dt steps method = .ok out := by
  refine ⟨(scan (updateBody (predChapman m scale xs steps) lik xs) initPs ys).2, ?_⟩
  rw [bruteForceFilter, h1]
  simp only [choosePrediction, if_neg h2, h3, if_true]

/-! ## C81 -/

/-- **C81 (ingredients).** `norm.pdf` is the normal density, and the trapezoidal rule is the integral for affine functions on every
grid. -/
theorem C81_ingredients (x m s : ℝ) (hs : s ≠ 0) (xs : Fin (N + 2) → ℝ) (a b : ℝ) :
    normPdf x m s = ProbabilityTheory.gaussianPDFReal m (Real.toNNReal (s ^ 2)) x ∧
    trapz (fun i => a + b * xs i) xs = ∫ t in (xs 0)..(xs (Fin.last (N + 1))), (a + b * t) := by
  constructor
  · have h2 : 0 < 2 * Real.pi * s ^ 2 := by positivity
    rw [normPdf, ProbabilityTheory.gaussianPDFReal, Real.coe_toNNReal _ (sq_nonneg s), Real.sqrt_eq_rpow, ← Real.rpow_neg h2.le,
      Real.rpow_def_of_pos h2, ← Real.exp_add]
    congr 1
    field_simp
    ring
  · have hint : ∫ t in (xs 0)..(xs (Fin.last (N + 1))), (a + b * t)
        = (a * xs (Fin.last (N + 1)) + b * xs (Fin.last (N + 1)) ^ 2 / 2) - (a * xs 0 + b * xs 0 ^ 2 / 2) := by
      refine intervalIntegral.integral_eq_sub_of_hasDerivAt (f := fun t => a * t + b * t ^ 2 / 2) (fun t _ => ?_)
        (Continuous.intervalIntegrable (by fun_prop) _ _)
      have := HasDerivAt.add ((hasDerivAt_id t).const_mul a) ((((hasDerivAt_id t).pow 2).const_mul b).div_const 2)
      refine this.congr_deriv ?_
      simp only [id]
      push_cast
      ring
    have htel : ∀ (M : ℕ) (g : Fin (M + 1) → ℝ), ∑ i : Fin M, (g i.succ - g i.castSucc) = g (Fin.last M) - g 0 := by
      intro M
      induction M with
      | zero => intro g; simp
      | succ M ih =>
        intro g
        rw [Fin.sum_univ_castSucc]
        have := ih fun i => g i.castSucc
        simp only [← Fin.castSucc_succ] at this ⊢
        rw [this, Fin.succ_last, Fin.castSucc_zero]
        ring
    rw [hint, ← htel (N + 1) fun i => a * xs i + b * xs i ^ 2 / 2, trapz]
    exact Finset.sum_congr rfl fun i _ => by ring

/-- **C81 (normalisation).** For every method one density per measurement is returned. It is the likelihood times the prediction
from the previous density divided by its trapezoidal integral, and integrates to one under that rule whenever this normaliser is not
zero. The prediction is the Euler scheme for the Kolmogorov equation, or the Chapman integral with the Euler–Maruyama or the TME
moments. -/
theorem C81_normalised {tmeMeanCov : ℤ → ℝ → ℝ → ℝ × ℝ} {pyInt : String → Option ℤ} {drift dispersion : ℝ → ℝ}
    {lik : Y → (Fin (N + 2) → ℝ) → Fin (N + 2) → ℝ} {initPs xs : Fin (N + 2) → ℝ} {ys : List Y} {dt : ℝ} {steps : ℕ} {method : String}
    {out : List (Fin (N + 2) → ℝ)}
    (hout : bruteForceFilter tmeMeanCov pyInt drift dispersion lik initPs xs ys dt steps method = .ok out) :
    out.length = ys.length ∧ ∃ pred : (Fin (N + 2) → ℝ) → Fin (N + 2) → ℝ,
      ((method = "kolmogorov" ∧ pred = predKolmogorov drift dispersion xs (dt / steps) steps) ∨
        (method = "chapman-euler" ∧ pred = predChapman (fun i => xs i + drift (xs i) * (dt / steps))
          (fun i => dispersion (xs i) * Real.sqrt (dt / steps)) xs steps) ∨
        (method ≠ "kolmogorov" ∧ ∃ order, pyInt (lastPart method) = some order ∧
          pred = predChapman (fun i => (tmeMeanCov order (dt / steps) (xs i)).1)
            (fun i => Real.sqrt (tmeMeanCov order (dt / steps) (xs i)).2) xs steps)) ∧
      ∀ (t : ℕ) (prev o : Fin (N + 2) → ℝ) (y : Y), (initPs :: out)[t]? = some prev → ys[t]? = some y → out[t]? = some o →
        trapz (fun i => lik y xs i * pred prev i) xs ≠ 0 →
        trapz o xs = 1 ∧ ∀ i, o i * trapz (fun i => lik y xs i * pred prev i) xs = lik y xs i * pred prev i := by
  obtain ⟨pred, rfl, hpred⟩ := bruteForce_ok hout
  obtain ⟨h1, h2⟩ := scan_update pred lik xs initPs ys
  refine ⟨h1, pred, hpred, ?_⟩
  intro t prev o y hp hy ho hne
  rw [h2 t prev o y hp hy ho]
  refine ⟨?_, fun i => div_mul_cancel₀ _ hne⟩
  show trapz (fun i => lik y xs i * pred prev i / trapz (fun i => lik y xs i * pred prev i) xs) xs = 1
  rw [trapz_div, div_self hne]

theorem predChapman_nonneg (m scale xs : Fin (N + 2) → ℝ) (hx : Monotone xs) (steps : ℕ) (ps : Fin (N + 2) → ℝ) (hp : ∀ i, 0 ≤ ps i) :
    ∀ i, 0 ≤ predChapman m scale xs steps ps i := by
  induction steps generalizing ps with
  | zero => exact hp
  | succ k ih =>
    rw [predChapman, Function.iterate_succ_apply]
    exact ih _ fun i => trapz_nonneg _ _ hx fun j => mul_nonneg (normPdf_pos _ _ _).le (hp j)

theorem predChapman_pos (m scale xs : Fin (N + 2) → ℝ) (hx : StrictMono xs) (steps : ℕ) (ps : Fin (N + 2) → ℝ) (hp : ∀ i, 0 ≤ ps i)
    (j : Fin (N + 2)) (hj : 0 < ps j) : (∃ j, 0 < predChapman m scale xs steps ps j) ∧ (0 < steps → ∀ i, 0 < predChapman m scale xs steps ps i) := by
  induction steps generalizing ps j with
  | zero => exact ⟨⟨j, hj⟩, fun h => absurd h (lt_irrefl _)⟩
  | succ k ih =>
    have hpos : ∀ i, 0 < integrateTransition m scale xs ps i := fun i =>
      trapz_pos _ _ hx (fun l => mul_nonneg (normPdf_pos _ _ _).le (hp l)) j (mul_pos (normPdf_pos _ _ _) hj)
    have he : predChapman m scale xs (k + 1) ps = predChapman m scale xs k (integrateTransition m scale xs ps) := by
      rw [predChapman, Function.iterate_succ_apply]; rfl
    rw [he]
    obtain ⟨g1, g2⟩ := ih (integrateTransition m scale xs ps) (fun i => (hpos i).le) j (hpos j)
    refine ⟨g1, fun _ => ?_⟩
    rcases Nat.eq_zero_or_pos k with rfl | hk
    · exact hpos
    · exact g2 hk

/-- **C81 (non-negativity).** With a Chapman prediction, non-negative initial values and likelihoods and an increasing grid, the
densities are non-negative. -/
theorem C81_nonneg {tmeMeanCov : ℤ → ℝ → ℝ → ℝ × ℝ} {pyInt : String → Option ℤ} {drift dispersion : ℝ → ℝ}
    {lik : Y → (Fin (N + 2) → ℝ) → Fin (N + 2) → ℝ} {initPs xs : Fin (N + 2) → ℝ} {ys : List Y} {dt : ℝ} {steps : ℕ} {method : String}
    {out : List (Fin (N + 2) → ℝ)}
    (hout : bruteForceFilter tmeMeanCov pyInt drift dispersion lik initPs xs ys dt steps method = .ok out)
    (hm : method ≠ "kolmogorov") (hx : Monotone xs) (h0 : ∀ i, 0 ≤ initPs i) (hl : ∀ y i, 0 ≤ lik y xs i) :
    ∀ o ∈ out, ∀ i, 0 ≤ o i := by
  obtain ⟨m, scale, rfl⟩ := bruteForce_chapman hout hm
  · clear hout
    induction ys generalizing initPs with
    | nil => intro o ho; simp [scan] at ho
    | cons y ys ih =>
      have hb : ∀ i, 0 ≤ (updateBody (predChapman m scale xs steps) lik xs initPs y).2 i := fun i =>
        div_nonneg (mul_nonneg (hl y i) (predChapman_nonneg m scale xs hx steps initPs h0 i))
          (trapz_nonneg _ _ hx fun j => mul_nonneg (hl y j) (predChapman_nonneg m scale xs hx steps initPs h0 j))
      have hs : (scan (updateBody (predChapman m scale xs steps) lik xs) initPs (y :: ys)).2
          = (updateBody (predChapman m scale xs steps) lik xs initPs y).2
            :: (scan (updateBody (predChapman m scale xs steps) lik xs) (updateBody (predChapman m scale xs steps) lik xs initPs y).1 ys).2 := rfl
      intro o ho
      rw [hs] at ho
      rcases List.mem_cons.1 ho with rfl | ho
      · exact hb
      · exact ih (initPs := (updateBody (predChapman m scale xs steps) lik xs initPs y).1) hb o ho

/-- **C81 (well-defined).** With a Chapman prediction, a strictly increasing grid, non-negative initial values of positive integral and
positive likelihoods, no normaliser vanishes: every density integrates to one, and is positive everywhere if there is at least one
integration step. -/
theorem C81_chapman {tmeMeanCov : ℤ → ℝ → ℝ → ℝ × ℝ} {pyInt : String → Option ℤ} {drift dispersion : ℝ → ℝ}
    {lik : Y → (Fin (N + 2) → ℝ) → Fin (N + 2) → ℝ} {initPs xs : Fin (N + 2) → ℝ} {ys : List Y} {dt : ℝ} {steps : ℕ} {method : String}
    {out : List (Fin (N + 2) → ℝ)}
    (hout : bruteForceFilter tmeMeanCov pyInt drift dispersion lik initPs xs ys dt steps method = .ok out)
    (hm : method ≠ "kolmogorov") (hx : StrictMono xs) (h0 : ∀ i, 0 ≤ initPs i) (h1 : 0 < trapz initPs xs) (hl : ∀ y i, 0 < lik y xs i) :
    ∀ o ∈ out, trapz o xs = 1 ∧ (0 < steps → ∀ i, 0 < o i) := by
  obtain ⟨m, scale, rfl⟩ := bruteForce_chapman hout hm
  · clear hout
    induction ys generalizing initPs with
    | nil => intro o ho; simp [scan] at ho
    | cons y ys ih =>
      obtain ⟨j, hj⟩ := pos_of_trapz_pos initPs xs h0 h1
      obtain ⟨⟨k, hk⟩, hpos⟩ := predChapman_pos m scale xs hx steps initPs h0 j hj
      have hnn := predChapman_nonneg m scale xs hx.monotone steps initPs h0
      set Z := trapz (fun i => lik y xs i * predChapman m scale xs steps initPs i) xs with hZ
      have hZpos : 0 < Z := trapz_pos _ _ hx (fun i => mul_nonneg (hl y i).le (hnn i)) k (mul_pos (hl y k) hk)
      have hb : ∀ i, 0 ≤ (updateBody (predChapman m scale xs steps) lik xs initPs y).2 i := fun i =>
        div_nonneg (mul_nonneg (hl y i).le (hnn i)) hZpos.le
      have hone : trapz (updateBody (predChapman m scale xs steps) lik xs initPs y).2 xs = 1 := by
        show trapz (fun i => lik y xs i * predChapman m scale xs steps initPs i / Z) xs = 1
        rw [trapz_div, div_self hZpos.ne']
      have hs : (scan (updateBody (predChapman m scale xs steps) lik xs) initPs (y :: ys)).2
          = (updateBody (predChapman m scale xs steps) lik xs initPs y).2
            :: (scan (updateBody (predChapman m scale xs steps) lik xs) (updateBody (predChapman m scale xs steps) lik xs initPs y).1 ys).2 := rfl
      intro o ho
      rw [hs] at ho
      rcases List.mem_cons.1 ho with rfl | ho
      · exact ⟨hone, fun hst i => div_pos (mul_pos (hl y i) (hpos hst i)) hZpos⟩
      · exact ih (initPs := (updateBody (predChapman m scale xs steps) lik xs initPs y).1) hb (by
          show 0 < trapz (updateBody (predChapman m scale xs steps) lik xs initPs y).2 xs
          rw [hone]; exact one_pos) o ho

/-- the hypotheses can be met: three grid points, one Chapman–Euler step. -/
example : ∃ out, bruteForceFilter (N := 1) (fun _ _ x => (x, 1)) (fun _ => none) (fun x => -x) (fun _ => 1) (fun (y : ℝ) _ _ => Real.exp y)
    (fun _ => 1) (fun i => (i : ℝ)) [1, 2] 0.1 1 "chapman-euler" = .ok out ∧ StrictMono (fun i : Fin 3 => ((i : ℕ) : ℝ)) := by
  refine ⟨_, rfl, ?_⟩
  intro i j hij
  show ((i : ℕ) : ℝ) < ((j : ℕ) : ℝ)
  exact_mod_cast hij

/-! ## C82 -/

/-- the documented methods: `'kolmogorov'`, `'chapman-euler'`, `'chapman-tme-?'` with an integer for `?`. -/
def Documented (pyInt : String → Option ℤ) (method : String) : Prop :=
  method = "kolmogorov" ∨ method = "chapman-euler" ∨
    ∃ k : String, '-' ∉ k.toList ∧ (pyInt k).isSome ∧ method.toList = "chapman-tme-".toList ++ k.toList

theorem isIn_trans {a b c : String} (h1 : isIn a b = true) (h2 : isIn b c = true) : isIn a c = true := by
  simp only [isIn, decide_eq_true_eq] at *
  exact h1.trans h2

/-- **C82 for methods that do not contain `chapman`:** `NotImplementedError`, whatever the other arguments. Strings that contain
`chapman` are missing: see `C82_unknown_method_refuted`. -/
theorem C82_unknown_method_partial (tmeMeanCov : ℤ → ℝ → ℝ → ℝ × ℝ) (pyInt : String → Option ℤ) (drift dispersion : ℝ → ℝ)
    (lik : Y → (Fin (N + 2) → ℝ) → Fin (N + 2) → ℝ) (initPs xs : Fin (N + 2) → ℝ) (ys : List Y) (dt : ℝ) (steps : ℕ) (method : String)
    (h1 : method ≠ "kolmogorov") (h2 : isIn "chapman" method = false) :
    bruteForceFilter tmeMeanCov pyInt drift dispersion lik initPs xs ys dt steps method = .error .notImplemented := by
  have a1 : method ≠ "chapman-euler" := by
    rintro rfl
    exact absurd h2 (by decide)
  have a2 : ¬ isIn "chapman-tme" method = true := fun h => by
    have := isIn_trans (a := "chapman") (by decide) h
    rw [h2] at this
    cases this
  rw [bruteForceFilter, chooseTransition, if_neg a1, if_neg a2]
  simp only [choosePrediction, if_neg h1, h2, Bool.false_eq_true, if_false]

/-- **C82 (accepted methods).** Every documented method is accepted. -/
theorem C82_documented (tmeMeanCov : ℤ → ℝ → ℝ → ℝ × ℝ) (pyInt : String → Option ℤ) (drift dispersion : ℝ → ℝ)
    (lik : Y → (Fin (N + 2) → ℝ) → Fin (N + 2) → ℝ) (initPs xs : Fin (N + 2) → ℝ) (ys : List Y) (dt : ℝ) (steps : ℕ) (method : String)
    (h : Documented pyInt method) :
    ∃ out, bruteForceFilter tmeMeanCov pyInt drift dispersion lik initPs xs ys dt steps method = .ok out := by
  rcases h with rfl | rfl | ⟨k, hk, hi, hm⟩
  · exact ⟨_, rfl⟩
  · exact ⟨_, rfl⟩
  · have e1 : method ≠ "chapman-euler" := by
      rintro rfl
      have := congrArg (fun l => l.getD 8 ' ') hm
      revert this
      have : ("chapman-tme-".toList ++ k.toList).getD 8 ' ' = 't' := rfl
      simp only [this]
      decide
    have e2 : isIn "chapman-tme" method = true := by
      simp only [isIn, decide_eq_true_eq, hm]
      exact (show "chapman-tme".toList <:+: "chapman-tme-".toList by decide).trans (List.prefix_append _ _).isInfix
    have e3 : isIn "chapman" method = true := isIn_trans (by decide) e2
    have e4 : method ≠ "kolmogorov" := by
      rintro rfl
      exact absurd e3 (by decide)
    have e5 : lastPart method = k := by
      rw [lastPart, hm, List.reverse_append]
      have hr : "chapman-tme-".toList.reverse = '-' :: "chapman-tme".toList.reverse := by decide
      rw [hr, List.takeWhile_append_of_pos (by
        intro c hc
        simp only [decide_eq_true_eq]
        rintro rfl
        exact hk (List.mem_reverse.1 hc)), List.takeWhile_cons_of_neg (by decide), List.append_nil, List.reverse_reverse,
        String.ofList_toList]
    obtain ⟨order, ho⟩ := Option.isSome_iff_exists.1 hi
    exact bruteForce_mk lik initPs ys (by rw [chooseTransition, if_neg e1, if_pos e2, e5, ho]) e4 e3

/-- **C82 fails.** `'chapman-bogus'` and `'chapman-tme-x'` raise other exceptions (an unbound name, and `ValueError` of `int`), and
`'my-chapman-tme-2'` is accepted, although none of them is documented. -/
theorem C82_unknown_method_refuted (tmeMeanCov : ℤ → ℝ → ℝ → ℝ × ℝ) (pyInt : String → Option ℤ) (hx : pyInt "x" = none)
    (h2 : pyInt "2" = some 2) (drift dispersion : ℝ → ℝ)
    (lik : Y → (Fin (N + 2) → ℝ) → Fin (N + 2) → ℝ) (initPs xs : Fin (N + 2) → ℝ) (ys : List Y) (dt : ℝ) (steps : ℕ) :
    (¬ Documented pyInt "chapman-bogus" ∧ ¬ Documented pyInt "chapman-tme-x" ∧ ¬ Documented pyInt "my-chapman-tme-2") ∧
    bruteForceFilter tmeMeanCov pyInt drift dispersion lik initPs xs ys dt steps "chapman-bogus" = .error .nameError ∧
    bruteForceFilter tmeMeanCov pyInt drift dispersion lik initPs xs ys dt steps "chapman-tme-x" = .error .valueError ∧
    ∃ out, bruteForceFilter tmeMeanCov pyInt drift dispersion lik initPs xs ys dt steps "my-chapman-tme-2" = .ok out := by
  refine ⟨⟨?_, ?_, ?_⟩, ?_, ?_, ?_⟩
  · rintro (h | h | ⟨k, -, -, h⟩)
    · exact absurd h (by decide)
    · exact absurd h (by decide)
    · have := congrArg (fun l => l.getD 8 ' ') h
      revert this
      have : ("chapman-tme-".toList ++ k.toList).getD 8 ' ' = 't' := rfl
      simp only [this]
      decide
  · rintro (h | h | ⟨k, -, hk, h⟩)
    · exact absurd h (by decide)
    · exact absurd h (by decide)
    · have h' : "chapman-tme-x".toList = "chapman-tme-".toList ++ "x".toList := by decide
      rw [h'] at h
      have := List.append_cancel_left h
      have hkx : k = "x" := by rw [← String.ofList_toList (s := k), ← this, String.ofList_toList]
      rw [hkx, hx] at hk
      cases hk
  · rintro (h | h | ⟨k, -, -, h⟩)
    · exact absurd h (by decide)
    · exact absurd h (by decide)
    · have := congrArg (fun l => l.getD 0 ' ') h
      revert this
      have : ("chapman-tme-".toList ++ k.toList).getD 0 ' ' = 'c' := rfl
      simp only [this]
      decide
  · have a1 : isIn "chapman-tme" "chapman-bogus" = false := by decide
    have a2 : isIn "chapman" "chapman-bogus" = true := by decide
    simp only [bruteForceFilter, chooseTransition, choosePrediction, a1, a2]
    rfl
  · have a1 : isIn "chapman-tme" "chapman-tme-x" = true := by decide
    have a2 : lastPart "chapman-tme-x" = "x" := by decide
    simp only [bruteForceFilter, chooseTransition, choosePrediction, a1, a2, hx]
    rfl
  · have a1 : isIn "chapman-tme" "my-chapman-tme-2" = true := by decide
    have a2 : lastPart "my-chapman-tme-2" = "2" := by decide
    have a3 : isIn "chapman" "my-chapman-tme-2" = true := by decide
    have a4 : ("my-chapman-tme-2" : String) ≠ "chapman-euler" := by decide
    have a5 : ("my-chapman-tme-2" : String) ≠ "kolmogorov" := by decide
    exact bruteForce_mk lik initPs ys (by rw [chooseTransition, if_neg a4, if_pos a1, a2, h2]) a5 a3

/-! ## C92 -/

theorem gradient_smul (c : ℝ) (f : Fin (N + 2) → ℝ) (h : ℝ) : gradient (c • f) h = c • gradient f h := by
  funext i
  simp only [gradient, Pi.smul_apply, smul_eq_mul]
  split_ifs <;> ring

theorem kolmogorov_smul (drift dispersion : ℝ → ℝ) (xs ps : Fin (N + 2) → ℝ) (c : ℝ) :
    kolmogorovFwdOpt drift dispersion xs (c • ps) = c • kolmogorovFwdOpt drift dispersion xs ps := by
  funext i
  simp only [kolmogorovFwdOpt, gradient_smul, Pi.smul_apply, smul_eq_mul]
  ring

theorem iterate_smul (F : (Fin (N + 2) → ℝ) → Fin (N + 2) → ℝ) (hF : ∀ (c : ℝ) ps, F (c • ps) = c • F ps) (k : ℕ) (c : ℝ)
    (ps : Fin (N + 2) → ℝ) : F^[k] (c • ps) = c • F^[k] ps := by
  induction k generalizing ps with
  | zero => rfl
  | succ k ih => rw [Function.iterate_succ_apply, Function.iterate_succ_apply, hF, ih]

theorem pred_smul {method : String} {drift dispersion : ℝ → ℝ} {xs : Fin (N + 2) → ℝ} {ddt : ℝ} {steps : ℕ}
    {tr : Option ((Fin (N + 2) → ℝ) × (Fin (N + 2) → ℝ))} {pred : (Fin (N + 2) → ℝ) → Fin (N + 2) → ℝ}
    (h : choosePrediction drift dispersion xs ddt steps method tr = .ok pred) (c : ℝ) (ps : Fin (N + 2) → ℝ) :
    pred (c • ps) = c • pred ps := by
  rw [choosePrediction.eq_def] at h
  split_ifs at h with h1 h2
  · rw [← Except.ok.inj h]
    refine iterate_smul _ (fun c ps => ?_) steps c ps
    rw [kolmogorov_smul, smul_add, smul_comm]
  · cases tr with
    | none => cases h
    | some p =>
      rw [← Except.ok.inj h]
      refine iterate_smul _ (fun c ps => ?_) steps c ps
      funext i
      simp only [integrateTransition, Pi.smul_apply, smul_eq_mul]
      rw [← trapz_smul]
      congr 1
      funext j
      ring

/-- **C92.** Neither scaling the initial values by `a ≠ 0` nor the likelihood by a factor `b y ≠ 0` changes the returned
densities (for at least one measurement the initial values need not be normalised). -/
theorem C92_scale_invariance (tmeMeanCov : ℤ → ℝ → ℝ → ℝ × ℝ) (pyInt : String → Option ℤ) (drift dispersion : ℝ → ℝ)
    (lik : Y → (Fin (N + 2) → ℝ) → Fin (N + 2) → ℝ) (initPs xs : Fin (N + 2) → ℝ) (ys : List Y) (dt : ℝ) (steps : ℕ) (method : String)
    (a : ℝ) (ha : a ≠ 0) (b : Y → ℝ) (hb : ∀ y, b y ≠ 0) :
    bruteForceFilter tmeMeanCov pyInt drift dispersion (fun y xs i => b y * lik y xs i) (a • initPs) xs ys dt steps method
      = bruteForceFilter tmeMeanCov pyInt drift dispersion lik initPs xs ys dt steps method := by
  rw [bruteForceFilter, bruteForceFilter]
  cases htr : chooseTransition drift dispersion tmeMeanCov pyInt xs (dt / steps) method with
  | error e => simp only
  | ok tr =>
    simp only
    cases hp : choosePrediction drift dispersion xs (dt / steps) steps method tr with
    | error e => simp only
    | ok pred =>
      simp only
      congr 1
      have hbody : ∀ (a : ℝ), a ≠ 0 → ∀ (p : Fin (N + 2) → ℝ) (y : Y),
          updateBody pred (fun y xs i => b y * lik y xs i) xs (a • p) y = updateBody pred lik xs p y := by
        intro a ha p y
        have : (fun i => b y * lik y xs i * pred (a • p) i / trapz (fun i => b y * lik y xs i * pred (a • p) i) xs)
            = fun i => lik y xs i * pred p i / trapz (fun i => lik y xs i * pred p i) xs := by
          have e : (fun i => b y * lik y xs i * pred (a • p) i) = fun i => (b y * a) * (lik y xs i * pred p i) := by
            funext i
            rw [pred_smul hp, Pi.smul_apply, smul_eq_mul]; ring
          funext i
          have ei := congrFun e i
          rw [ei, e, trapz_smul, mul_div_mul_left _ _ (mul_ne_zero (hb y) ha)]
        simp only [updateBody, this]
      cases ys with
      | nil => rfl
      | cons y ys =>
        show (updateBody _ _ _ _ _).2 :: (scan _ (updateBody _ _ _ _ _).1 ys).2 = (updateBody _ _ _ _ _).2 :: (scan _ (updateBody _ _ _ _ _).1 ys).2
        rw [hbody a ha initPs y]
        congr 2
        congr 1
        funext p y'
        have := hbody 1 one_ne_zero p y'
        rwa [one_smul] at this

/-! ## C93 -/

/-- **C93 (operator).** Wherever the finite differences of the grid values are the derivatives of a density `p`, the discretised
operator is the Kolmogorov forward (Fokker–Planck) operator `-(drift p)' + (dispersion² p)'' / 2`. -/
theorem C93_fokker_planck (drift dispersion p p' p'' : ℝ → ℝ) (xs : Fin (N + 2) → ℝ) (i : Fin (N + 2))
    (ha : Differentiable ℝ drift) (hg : Differentiable ℝ dispersion) (hg2 : Differentiable ℝ (deriv fun x => dispersion x ^ 2))
    (hp : ∀ x, HasDerivAt p (p' x) x) (hp2 : ∀ x, HasDerivAt p' (p'' x) x)
    (h1 : gradient (fun j => p (xs j)) (xs 1 - xs 0) i = p' (xs i))
    (h2 : gradient (gradient (fun j => p (xs j)) (xs 1 - xs 0)) (xs 1 - xs 0) i = p'' (xs i)) :
    kolmogorovFwdOpt drift dispersion xs (fun j => p (xs j)) i
      = -deriv (fun x => drift x * p x) (xs i) + deriv (deriv fun x => dispersion x ^ 2 * p x) (xs i) / 2 := by
  have hgam : ∀ x, HasDerivAt (fun x => dispersion x ^ 2) (deriv (fun x => dispersion x ^ 2) x) x := fun x =>
    ((hg x).pow 2).hasDerivAt
  have d1 : deriv (fun x => drift x * p x) (xs i) = deriv drift (xs i) * p (xs i) + drift (xs i) * p' (xs i) :=
    ((ha _).hasDerivAt.mul (hp _)).deriv
  have d2 : (deriv fun x => dispersion x ^ 2 * p x)
      = fun x => deriv (fun x => dispersion x ^ 2) x * p x + dispersion x ^ 2 * p' x :=
    funext fun x => ((hgam x).mul (hp x)).deriv
  have d3 : deriv (deriv fun x => dispersion x ^ 2 * p x) (xs i)
      = (deriv (deriv fun x => dispersion x ^ 2) (xs i) * p (xs i) + deriv (fun x => dispersion x ^ 2) (xs i) * p' (xs i))
        + (deriv (fun x => dispersion x ^ 2) (xs i) * p' (xs i) + dispersion (xs i) ^ 2 * p'' (xs i)) := by
    rw [d2]
    exact (HasDerivAt.add ((hg2 _).hasDerivAt.mul (hp _)) ((hgam _).mul (hp2 _))).deriv
  simp only [kolmogorovFwdOpt, h1, h2, d1, d3]
  ring

theorem gradient_interior (f : Fin (N + 2) → ℝ) (h : ℝ) (i : ℕ) (hi : i + 1 < N + 1) :
    gradient f h ⟨i + 1, by omega⟩ = (f ⟨i + 2, by omega⟩ - f ⟨i, by omega⟩) / (2 * h) := by
  rw [gradient, if_neg (by simp), dif_neg (by simp only; omega)]
  rfl

/-- **C93 (quadratics).** On an evenly spaced grid the operator is exact for quadratic `p` at every point that is at least two steps
from both ends. -/
theorem C93_quadratic (drift dispersion : ℝ → ℝ) (ha : Differentiable ℝ drift) (hg : Differentiable ℝ dispersion)
    (hg2 : Differentiable ℝ (deriv fun x => dispersion x ^ 2)) (x0 h : ℝ) (hh : h ≠ 0) (c0 c1 c2 : ℝ) (i : ℕ) (hi : i + 4 < N + 2) :
    kolmogorovFwdOpt drift dispersion (fun j : Fin (N + 2) => x0 + (j : ℕ) * h)
        (fun j => c0 + c1 * (x0 + (j : ℕ) * h) + c2 * (x0 + (j : ℕ) * h) ^ 2) ⟨i + 2, by omega⟩
      = -deriv (fun x => drift x * (c0 + c1 * x + c2 * x ^ 2)) (x0 + ((i + 2 : ℕ) : ℝ) * h)
        + deriv (deriv fun x => dispersion x ^ 2 * (c0 + c1 * x + c2 * x ^ 2)) (x0 + ((i + 2 : ℕ) : ℝ) * h) / 2 := by
  have hdx : (x0 + (((1 : Fin (N + 2)) : ℕ) : ℝ) * h) - (x0 + (((0 : Fin (N + 2)) : ℕ) : ℝ) * h) = h := by
    rw [Fin.val_one, Fin.val_zero]; push_cast; ring
  have hgr : ∀ k : ℕ, ∀ hk : k + 1 < N + 1, gradient (fun j : Fin (N + 2) => c0 + c1 * (x0 + (j : ℕ) * h) + c2 * (x0 + (j : ℕ) * h) ^ 2) h
      ⟨k + 1, by omega⟩ = c1 + 2 * c2 * (x0 + ((k + 1 : ℕ) : ℝ) * h) := by
    intro k hk
    rw [gradient_interior _ _ _ hk]
    simp only
    push_cast
    field_simp
    ring
  refine C93_fokker_planck drift dispersion (fun x => c0 + c1 * x + c2 * x ^ 2) (fun x => c1 + 2 * c2 * x) (fun _ => 2 * c2) _ _ ha hg hg2
    ?_ ?_ ?_ ?_
  · intro x
    have := HasDerivAt.add (HasDerivAt.add (hasDerivAt_const x c0) ((hasDerivAt_id x).const_mul c1)) (((hasDerivAt_id x).pow 2).const_mul c2)
    refine this.congr_deriv ?_
    simp only [id]
    push_cast
    ring
  · intro x
    have := HasDerivAt.add (hasDerivAt_const x c1) ((hasDerivAt_id x).const_mul (2 * c2))
    refine this.congr_deriv ?_
    ring
  · rw [hdx]
    exact hgr (i + 1) (by omega)
  · rw [hdx, gradient_interior _ _ (i + 1) (by omega)]
    have g1 := hgr (i + 2) (by omega)
    have g2 := hgr i (by omega)
    rw [g1, g2]
    push_cast
    field_simp
    ring

end Mfs.Props

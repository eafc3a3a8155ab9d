import Verif.Model.Tme
import Verif.Props.FilterJvp
import Mathlib.Analysis.Calculus.ContDiff.FTaylorSeries

/-!
# Lemmas for C176: the Taylor moment expansion is smooth in parameter and state
-/

namespace Mfs.Tme

open Filter Topology Mfs.Moments1 Mfs.Smooth
open scoped ContDiff

variable {F : Type*} [NormedAddCommGroup F] [NormedSpace ℝ F] {r : WithTop ℕ∞}

/-- the derivative in the state of a function that is smooth in parameter and state. -/
theorem contDiffAt_deriv (hr : r + 1 ≤ r) {f : F → ℝ → ℝ} {q : F × ℝ} (h : ContDiffAt ℝ r (fun p : F × ℝ => f p.1 p.2) q) :
    ContDiffAt ℝ r (fun p : F × ℝ => deriv (f p.1) p.2) q := by
  have h1 : ContDiffAt ℝ r (fderiv ℝ fun p : F × ℝ => f p.1 p.2) q := h.fderiv_right hr
  have hle : (1 : WithTop ℕ∞) ≤ r := le_trans (by simp) hr
  refine (h1.clm_apply (contDiffAt_const (c := ((0 : F), (1 : ℝ))))).congr_of_eventuallyEq ?_
  have h2 : ∀ᶠ p in 𝓝 q, ContDiffAt ℝ 1 (fun p : F × ℝ => f p.1 p.2) p := (h.of_le hle).eventually (by simp)
  filter_upwards [h2] with p hp
  have h3 : HasFDerivAt (fun p : F × ℝ => f p.1 p.2) (fderiv ℝ (fun p : F × ℝ => f p.1 p.2) p) p := (hp.differentiableAt one_ne_zero).hasFDerivAt
  have h4 : HasDerivAt (fun x : ℝ => (p.1, x)) ((0 : F), (1 : ℝ)) p.2 := (hasDerivAt_const _ _).prodMk (hasDerivAt_id _)
  exact (HasFDerivAt.comp_hasDerivAt (l := fun p : F × ℝ => f p.1 p.2) p.2 h3 h4).deriv

variable {a b : F → ℝ → ℝ} {q : F × ℝ}

theorem contDiffAt_generator_iter (hr : r + 1 ≤ r) (ha : ContDiffAt ℝ r (fun p : F × ℝ => a p.1 p.2) q) (hb : ContDiffAt ℝ r (fun p : F × ℝ => b p.1 p.2) q)
    {phi : F → ℝ → ℝ} (hphi : ContDiffAt ℝ r (fun p : F × ℝ => phi p.1 p.2) q) (s : ℕ) :
    ContDiffAt ℝ r (fun p : F × ℝ => (generator (a p.1) (b p.1))^[s] (phi p.1) p.2) q := by
  induction s generalizing phi with
  | zero => exact hphi
  | succ s ih =>
    simp only [Function.iterate_succ, Function.comp_apply]
    refine ih (phi := fun t => generator (a t) (b t) (phi t)) ?_
    have h1 := contDiffAt_deriv hr hphi
    exact (ha.mul h1).add (((hb.pow 2).div_const 2).mul (contDiffAt_deriv hr (f := fun t => deriv (phi t)) h1))

theorem contDiffAt_expectation (hr : r + 1 ≤ r) (ha : ContDiffAt ℝ r (fun p : F × ℝ => a p.1 p.2) q) (hb : ContDiffAt ℝ r (fun p : F × ℝ => b p.1 p.2) q)
    {phi : F → ℝ → ℝ} (hphi : ContDiffAt ℝ r (fun p : F × ℝ => phi p.1 p.2) q) (dt : ℝ) (order : ℕ) :
    ContDiffAt ℝ r (fun p : F × ℝ => expectation (a p.1) (b p.1) dt order (phi p.1) p.2) q :=
  ContDiffAt.sum fun s _ => contDiffAt_const.mul (contDiffAt_generator_iter hr ha hb hphi s)

theorem contDiffAt_meanCov (hr : r + 1 ≤ r) (ha : ContDiffAt ℝ r (fun p : F × ℝ => a p.1 p.2) q) (hb : ContDiffAt ℝ r (fun p : F × ℝ => b p.1 p.2) q)
    (dt : ℝ) (order : ℕ) : ContDiffAt ℝ r (fun p : F × ℝ => meanCov (a p.1) (b p.1) dt order p.2) q := by
  refine (contDiffAt_expectation hr ha hb (phi := fun _ u => u) contDiffAt_snd dt order).prodMk (ContDiffAt.sum fun s _ => contDiffAt_const.mul ?_)
  have h1 := fun s => contDiffAt_generator_iter hr ha hb (phi := fun _ u => u) contDiffAt_snd s
  exact (contDiffAt_generator_iter hr ha hb (phi := fun _ u => u ^ 2) (contDiffAt_snd.pow 2) (s + 1)).sub
    (ContDiffAt.sum fun j _ => (contDiffAt_const.mul (h1 j)).mul (h1 _))

/-- the moments of a normal law are polynomials in its mean and variance; so is what the model computes for a negative variance. -/
theorem rawMomentOfNormal_poly (m v : ℝ) (p : ℕ) : rawMomentOfNormal m v p = ∑ j ∈ Finset.range (p + 1),
    (p.choose j : ℝ) * m ^ j * v ^ ((p - j) / 2) * rawMomentOfStandardNormal (p - j) := by
  rw [rawMomentOfNormal, Props.sum_map_range_real]
  refine Finset.sum_congr rfl fun j _ => ?_
  by_cases h : (p - j) % 2 = 0
  · have e : ((p - j : ℕ) : ℝ) / 2 = (((p - j) / 2 : ℕ) : ℝ) := by
      rw [Nat.cast_div (Nat.dvd_of_mod_eq_zero h) two_ne_zero, Nat.cast_ofNat]
    rw [e, Real.rpow_natCast]
  · simp [rawMomentOfStandardNormal, h]

theorem contDiff_rawMomentOfNormal (p : ℕ) : ContDiff ℝ r fun q : ℝ × ℝ => rawMomentOfNormal q.1 q.2 p := by
  simp only [rawMomentOfNormal_poly]
  exact ContDiff.sum fun j _ => ((contDiff_const.mul (contDiff_fst.pow _)).mul (contDiff_snd.pow _)).mul contDiff_const

end Mfs.Tme

import Verif.Props.FilterLik
import Verif.Props.Filter1Equiv

/-!
# C125: the one-dimensional filters do not depend on the units and the origin of the state
-/

namespace Mfs.Props

open Matrix Mfs.Spec Mfs.Quad1 Mfs.Filter1 Polynomial

variable {Y : Type}

/-- the moments of `a + b X` in terms of those of `X` (binomial formula). -/
noncomputable def affineMoments (a b : ℝ) (ms : List ℝ) : List ℝ :=
  (List.range ms.length).map fun k => ∑ j ∈ Finset.range (k + 1), (b ^ j * a ^ (k - j) * (k.choose j : ℝ)) * ms.getD j 0

/-- a linear functional with the given first moments. -/
theorem exists_functional (ms : List ℝ) : ∃ L : ℝ[X] →ₗ[ℝ] ℝ, ∀ k, L (X ^ k) = ms.getD k 0 := by
  refine ⟨Polynomial.lsum fun k => (ms.getD k 0) • LinearMap.id, fun k => ?_⟩
  rw [← monomial_one_right_eq_X_pow, Polynomial.lsum_apply, Polynomial.sum_monomial_index]
  · simp
  · simp

theorem functional_affine {ms : List ℝ} {L : ℝ[X] →ₗ[ℝ] ℝ} (hL : ∀ k, L (X ^ k) = ms.getD k 0) (a b : ℝ) (k : ℕ) :
    L ((C b * X + C a) ^ k) = ∑ j ∈ Finset.range (k + 1), (b ^ j * a ^ (k - j) * (k.choose j : ℝ)) * ms.getD j 0 := by
  rw [add_pow, map_sum]
  refine Finset.sum_congr rfl fun j _ => ?_
  have : (C b * X) ^ j * C a ^ (k - j) * ((k.choose j : ℕ) : ℝ[X]) = (b ^ j * a ^ (k - j) * (k.choose j : ℝ)) • X ^ j := by
    rw [smul_eq_C_mul, mul_pow, ← C_pow, ← C_pow, C_mul, C_mul, ← C_eq_natCast]
    ring_nf
  rw [this, map_smul, hL, smul_eq_mul]

theorem length_affineMoments (a b : ℝ) (ms : List ℝ) : (affineMoments a b ms).length = ms.length := by simp [affineMoments]

theorem affineMoments_getD (a b : ℝ) (ms : List ℝ) {k : ℕ} (hk : k < ms.length) :
    (affineMoments a b ms).getD k 0
      = ∑ j ∈ Finset.range (k + 1), (b ^ j * a ^ (k - j) * (k.choose j : ℝ)) * ms.getD j 0 := by
  rw [affineMoments, List.getD_eq_getElem _ _ (by simpa using hk)]
  simp

/-- the rule of the transformed moments is the transformed rule. -/
theorem rule_affineMoments (B : Backend) (hB : B.Valid) (ms : List ℝ) (h1 : ms.getD 0 0 = 1)
    (hpd : (gramOf ms).PosDef) (a b : ℝ) (hb : b ≠ 0) (l₁ l₂ : Bool) (f : ℝ → ℝ) :
    integ (momentQuadrature B (affineMoments a b ms) 0 1 false l₂) f
      = integ (momentQuadrature B ms 0 1 false l₁) fun x => f (a + b * x) := by
  obtain ⟨L, hL⟩ := exists_functional ms
  have hcomp : (C (b⁻¹)⁻¹ * (X - C (-a / b)) : ℝ[X]) = C b * X + C a := by
    rw [inv_inv, mul_sub, ← C_mul]
    have : b * (-a / b) = -a := by field_simp
    rw [this, C_neg, sub_neg_eq_add]
  have hcl : ((List.range ms.length).map fun k => L ((X - C (-a / b)) ^ k)).length = ms.length := by simp
  have h := (C11_raw_central_scaled B hB L (by rw [← pow_zero X, hL, h1]) ms
    ((List.range ms.length).map fun k => L ((X - C (-a / b)) ^ k)) (affineMoments a b ms) (-a / b) b⁻¹ (inv_ne_zero hb) hcl
    (length_affineMoments a b ms) (fun k _ => (hL k).symm)
    (fun k hk => by rw [List.getD_eq_getElem _ _ (by simpa using hk)]; simp)
    (fun k hk => by rw [affineMoments_getD a b ms hk, hcomp, functional_affine hL]) hpd false false false l₁ l₁ l₂
    fun x => f (a + b * x)).2
  rw [h, integ, integ, (momentQuadrature_affine B (affineMoments a b ms) (-a / b) b⁻¹ false l₂).1,
    (momentQuadrature_affine B (affineMoments a b ms) (-a / b) b⁻¹ false l₂).2]
  refine Finset.sum_congr rfl fun i _ => ?_
  congr 2
  field_simp
  ring

theorem integ_const_add (B : Backend) (hB : B.Valid) (ms : List ℝ) (hl : 2 ≤ ms.length) (m s : ℝ) (so ldl : Bool) (a b : ℝ)
    (f : ℝ → ℝ) : integ (momentQuadrature B ms m s so ldl) (fun x => a + b * f x)
      = a + b * integ (momentQuadrature B ms m s so ldl) f := by
  simp only [integ, mul_add, Finset.sum_add_distrib, ← Finset.sum_mul]
  rw [(C09_weights_probability B hB ms hl m s so ldl).2, one_mul, Finset.mul_sum]
  congr 1
  exact Finset.sum_congr rfl fun i _ => by ring

theorem integ_mul {n : ℕ} (r : (Fin n → ℝ) × (Fin n → ℝ)) (c : ℝ) (f : ℝ → ℝ) :
    integ r (fun x => c * f x) = c * integ r f := by
  simp only [integ, Finset.mul_sum]
  exact Finset.sum_congr rfl fun i _ => by ring

theorem integ_add {n : ℕ} (r : (Fin n → ℝ) × (Fin n → ℝ)) (f g : ℝ → ℝ) :
    integ r (fun x => f x + g x) = integ r f + integ r g := by
  simp only [integ, mul_add, Finset.sum_add_distrib]

theorem integ_sum {n : ℕ} (r : (Fin n → ℝ) × (Fin n → ℝ)) (s : Finset ℕ) (c : ℕ → ℝ) (f : ℕ → ℝ → ℝ) :
    integ r (fun x => ∑ j ∈ s, c j * f j x) = ∑ j ∈ s, c j * integ r (f j) := by
  simp only [integ, Finset.mul_sum]
  rw [Finset.sum_comm]
  exact Finset.sum_congr rfl fun j _ => Finset.sum_congr rfl fun i _ => by ring

/-- runs of two filters that are related by a map of states. -/
theorem traj_liks_map {S S' : Type} {g : S → Y → S} {g' : S' → Y → S'} {lik : S → Y → ℝ} {lik' : S' → Y → ℝ} (Φ : S → S')
    (G : S → List Y → Prop) (hG : ∀ s y ys, G s (y :: ys) → G (g s y) ys)
    (hg : ∀ s y ys, G s (y :: ys) → g' (Φ s) y = Φ (g s y)) (hl : ∀ s y ys, G s (y :: ys) → lik' (Φ s) y = lik s y)
    (s : S) (ys : List Y) (h : G s ys) :
    traj g' (Φ s) ys = (traj g s ys).map Φ ∧ liks g' lik' (Φ s) ys = liks g lik s ys := by
  induction ys generalizing s with
  | nil => exact ⟨rfl, rfl⟩
  | cons y ys ih =>
    have := ih (g s y) (hG s y ys h)
    rw [traj, liks, traj, liks, hg s y ys h, hl s y ys h, this.1, this.2]
    exact ⟨rfl, rfl⟩

/-! ### scaled moments -/

/-- **C125, scaled moments.** Measure the state in other units, `x' = a + b x` with `b > 0`: the filter of scaled central
moments returns the same scaled moments, the transformed means and scales, and the same negative log-likelihood. No validity
of the moments is needed. -/
theorem C125_scaled_units (B : Backend) (hB : B.Valid) (stable : Bool) (a b : ℝ) (hb : 0 < b)
    (P P' : ℝ → ℕ → ℝ → ℝ → ℝ) (cm cm' cv cv' : ℝ → ℝ) (pdf pdf' : Y → ℝ → ℝ)
        (hcm : ∀ x, cm' (a + b * x) = a + b * cm x) (hcv : ∀ x, cv' (a + b * x) = b ^ 2 * cv x)
    (hpdf : ∀ y x, pdf' y (a + b * x) = pdf y x) (hpos : ∀ y x, 0 < pdf y x)
    (scms0 : List ℝ) (hl : 2 ≤ scms0.length) (m0 s0 : ℝ) (ys : List Y)
    (hP : ∀ x m s, ∀ k < scms0.length, P' (a + b * x) k (a + b * m) (b * s) = P x k m s) :
    filterScms B P' cm' cv' pdf' scms0 (a + b * m0) (b * s0) ys stable
      = ((filterScms B P cm cv pdf scms0 m0 s0 ys stable).1.map fun o => (o.1, a + b * o.2.1, b * o.2.2),
          (filterScms B P cm cv pdf scms0 m0 s0 ys stable).2) := by
  simp only [filterScms_eq]
  generalize hn : scms0.length = n at hl hP ⊢
  have hrule : ∀ (ms : List ℝ) (m s : ℝ) (f : ℝ → ℝ), integ (momentQuadrature B ms (a + b * m) (b * s) false stable) f
      = integ (momentQuadrature B ms m s false stable) fun x => f (a + b * x) := by
    intro ms m s f
    rw [integ, integ, (momentQuadrature_affine B ms (a + b * m) (b * s) false stable).1,
      (momentQuadrature_affine B ms (a + b * m) (b * s) false stable).2, (momentQuadrature_affine B ms m s false stable).1,
      (momentQuadrature_affine B ms m s false stable).2]
    refine Finset.sum_congr rfl fun i _ => ?_
    congr 2
    ring
  set Φ : List ℝ × ℝ × ℝ → List ℝ × ℝ × ℝ := fun o => (o.1, a + b * o.2.1, b * o.2.2) with hΦ
  have hsq : ∀ t : ℝ, Real.sqrt (b ^ 2 * t) = b * Real.sqrt t := fun t => by
    rw [Real.sqrt_mul (sq_nonneg b), Real.sqrt_sq hb.le]
  have hpred : ∀ s : List ℝ × ℝ × ℝ, s.1.length = n →
      predScms B stable P' cm' cv' n (Φ s) = Φ (predScms B stable P cm cv n s) := by
    rintro ⟨l, m, s⟩ hs
    change predScms B stable P' cm' cv' n (l, a + b * m, b * s) = _
    have hl' : 2 ≤ l.length := by rw [show l.length = n from hs]; exact hl
    simp only [predScms, hrule, hcm, hcv, integ_mul, hsq, integ_const_add B hB l hl', hΦ]
    congr 1
    refine List.map_congr_left fun k hk => ?_
    simp only [hP _ _ _ k (List.mem_range.1 hk)]
  have hrule' : ∀ p' p, p' = Φ p → ∀ f, integ (momentQuadrature B p'.1 p'.2.1 p'.2.2 false stable) f
      = integ (momentQuadrature B p.1 p.2.1 p.2.2 false stable) fun x => f (a + b * x) := by
    rintro _ p rfl f
    exact hrule _ _ _ f
  have hlik : ∀ (s : List ℝ × ℝ × ℝ) y, s.1.length = n →
      likScms B stable P' cm' cv' pdf' n (Φ s) y = likScms B stable P cm cv pdf n s y := by
    intro s y hs
    simp only [likScms, hrule' _ _ (hpred s hs), hpdf]
  have hnext : ∀ (s : List ℝ × ℝ × ℝ) y, s.1.length = n →
      nextScms B stable P' cm' cv' pdf' n (Φ s) y = Φ (nextScms B stable P cm cv pdf n s y) := by
    intro s y hs
    have hplen : 2 ≤ (predScms B stable P cm cv n s).1.length := by simpa [predScms] using hl
    have hZ : 0 < likScms B stable P cm cv pdf n s y := by
      rw [likScms]
      exact integ_pos_of_pos B hB _ hplen _ _ _ _ _ (hpos y)
    have hm : integ (momentQuadrature B (predScms B stable P cm cv n s).1 (predScms B stable P cm cv n s).2.1
          (predScms B stable P cm cv n s).2.2 false stable) (fun x => ((a + b * x - 0) / 1) ^ 1 * pdf y x)
          / likScms B stable P cm cv pdf n s y
        = a + b * (integ (momentQuadrature B (predScms B stable P cm cv n s).1 (predScms B stable P cm cv n s).2.1
          (predScms B stable P cm cv n s).2.2 false stable) (fun x => ((x - 0) / 1) ^ 1 * pdf y x)
          / likScms B stable P cm cv pdf n s y) := by
      have : (fun x => ((a + b * x - 0) / 1) ^ 1 * pdf y x) = fun x => a * pdf y x + b * (((x - 0) / 1) ^ 1 * pdf y x) := by
        funext x; ring
      rw [this, integ_add, integ_mul, integ_mul]
      have : integ (momentQuadrature B (predScms B stable P cm cv n s).1 (predScms B stable P cm cv n s).2.1
          (predScms B stable P cm cv n s).2.2 false stable) (fun x => pdf y x) = likScms B stable P cm cv pdf n s y := rfl
      rw [this]
      field_simp
    simp only [nextScms, hlik s y hs, hrule' _ _ (hpred s hs), hpdf, hm]
    generalize predScms B stable P cm cv n s = p
    generalize likScms B stable P cm cv pdf n s y = Z
    generalize integ (momentQuadrature B p.1 p.2.1 p.2.2 false stable) (fun x => ((x - 0) / 1) ^ 1 * pdf y x) / Z = μ
    have h2 : ∀ x, ((a + b * x - (a + b * μ)) / 1) ^ 2 * pdf y x = b ^ 2 * (((x - μ) / 1) ^ 2 * pdf y x) := fun x => by ring
    simp only [h2, integ_mul, mul_div_assoc, hsq]
    have h3 : ∀ x σ : ℝ, (a + b * x - (a + b * μ)) / (b * σ) = (x - μ) / σ := fun x σ => by
      rw [show a + b * x - (a + b * μ) = b * (x - μ) by ring, mul_div_mul_left _ _ hb.ne']
    simp only [h3, hΦ]
  have := traj_liks_map (g := nextScms B stable P cm cv pdf n) (g' := nextScms B stable P' cm' cv' pdf' n)
    (lik := likScms B stable P cm cv pdf n) (lik' := likScms B stable P' cm' cv' pdf' n) Φ (fun s _ => s.1.length = n)
    (fun s y _ _ => by simp [nextScms]) (fun s y _ h => hnext s y h) (fun s y _ h => hlik s y h) (scms0, m0, s0) ys hn
  rw [show (scms0, a + b * m0, b * s0) = Φ (scms0, m0, s0) from rfl, this.1, this.2]

/-- the hypotheses of C125 for a random walk with steps `±1` observed through an exponential density, in units `x' = 32 + 1.8 x`. -/
example :
    let P : ℝ → ℕ → ℝ → ℝ → ℝ := fun x k m s => (((x + 1 - m) / s) ^ k + ((x - 1 - m) / s) ^ k) / 2
    let P' : ℝ → ℕ → ℝ → ℝ → ℝ := fun x k m s => (((x + 1.8 - m) / s) ^ k + ((x - 1.8 - m) / s) ^ k) / 2
    let pdf : ℝ → ℝ → ℝ := fun y x => Real.exp (-(y - x) ^ 2)
    let pdf' : ℝ → ℝ → ℝ := fun y x => Real.exp (-(y - (x - 32) / 1.8) ^ 2)
    (∀ x m s, ∀ k < 4, P' (32 + 1.8 * x) k (32 + 1.8 * m) (1.8 * s) = P x k m s) ∧
    (∀ y x, pdf' y (32 + 1.8 * x) = pdf y x) ∧ ∀ y x, 0 < pdf y x := by
  refine ⟨fun x m s k _ => ?_, fun y x => ?_, fun y x => Real.exp_pos _⟩
  · have h : ∀ t : ℝ, (32 + 1.8 * x + 1.8 * t - (32 + 1.8 * m)) / (1.8 * s) = (x + t - m) / s := fun t => by
      rw [show (32 + 1.8 * x + 1.8 * t - (32 + 1.8 * m) : ℝ) = 1.8 * (x + t - m) by ring, mul_div_mul_left _ _ (by norm_num)]
    have h1 := h 1
    have h2 := h (-1)
    norm_num at h1 h2 ⊢
    rw [h1]
    rw [show (32 + 9 / 5 * x - 9 / 5 - (32 + 9 / 5 * m) : ℝ) = 32 + 9 / 5 * x + -(9 / 5) - (32 + 9 / 5 * m) by ring, h2]
    ring
  · norm_num

/-! ### raw moments -/

/-- the Gram matrices of the moments along a run (of the states `s` and of the predictions `pred s`) are positive definite. -/
def GramsStay {S : Type} (mom : S → List ℝ) (pred : S → S) (next : S → Y → S) : S → List Y → Prop
  | _, [] => True
  | s, y :: ys => (gramOf (mom s)).PosDef ∧ (gramOf (mom (pred s))).PosDef ∧ GramsStay mom pred next (next s y) ys

/-- **C125, raw moments.** For `x' = a + b x`, `b ≠ 0`, the filter of raw moments returns the moments of `a + b X` in place of
those of `X`, and the same negative log-likelihood, as long as the Gram matrices stay positive definite. -/
theorem C125_raw_units (B : Backend) (hB : B.Valid) (stable : Bool) (a b : ℝ) (hb : b ≠ 0) (P P' : ℝ → ℕ → ℝ)
    (pdf pdf' : Y → ℝ → ℝ) (hP1 : ∀ x, P x 0 = 1)
    (hpdf : ∀ y x, pdf' y (a + b * x) = pdf y x) (hpos : ∀ y x, 0 < pdf y x)
    (rms0 : List ℝ) (hl : 2 ≤ rms0.length) (h0 : rms0.getD 0 0 = 1) (ys : List Y)
    (hP : ∀ x, ∀ k < rms0.length,
      P' (a + b * x) k = ∑ j ∈ Finset.range (k + 1), (b ^ j * a ^ (k - j) * (k.choose j : ℝ)) * P x j)
    (hv : GramsStay id (predRms B stable P rms0.length) (nextRms B stable P pdf rms0.length) rms0 ys) :
    filterRms B P' pdf' (affineMoments a b rms0) ys stable
      = ((filterRms B P pdf rms0 ys stable).1.map (affineMoments a b), (filterRms B P pdf rms0 ys stable).2) := by
  simp only [filterRms_eq, length_affineMoments]
  generalize hn : rms0.length = n at hl hP hv ⊢
  have hmapD : ∀ (f : ℕ → ℝ) (j : ℕ), j < n → ((List.range n).map f).getD j 0 = f j := fun f j hj => by
    rw [List.getD_eq_getElem _ _ (by simpa using hj)]; simp
  have hbin : ∀ (f f' : ℕ → ℝ), (∀ k < n, f' k = ∑ j ∈ Finset.range (k + 1), (b ^ j * a ^ (k - j) * (k.choose j : ℝ)) * f j) →
      (List.range n).map f' = affineMoments a b ((List.range n).map f) := by
    intro f f' h
    rw [affineMoments, List.length_map, List.length_range]
    refine List.map_congr_left fun k hk => ?_
    rw [List.mem_range] at hk
    rw [h k hk]
    exact Finset.sum_congr rfl fun j hj => by rw [hmapD f j (by have := Finset.mem_range.1 hj; omega)]
  have hpred : ∀ s : List ℝ, s.length = n → s.getD 0 0 = 1 → (gramOf s).PosDef →
      predRms B stable P' n (affineMoments a b s) = affineMoments a b (predRms B stable P n s) := by
    intro s hs h1 hpd
    rw [predRms, predRms]
    refine hbin _ _ fun k hk => ?_
    rw [rule_affineMoments B hB s h1 hpd a b hb stable stable]
    simp only [hP _ k hk]
    exact integ_sum _ _ _ fun j x => P x j
  have hplen : ∀ s, (predRms B stable P n s).length = n := fun s => by simp [predRms]
  have hp1 : ∀ s : List ℝ, s.length = n → (predRms B stable P n s).getD 0 0 = 1 := fun s hs => by
    rw [predRms, hmapD _ 0 (by omega)]
    simp only [hP1, integ, mul_one]
    exact (C09_weights_probability B hB s (by omega) 0 1 false stable).2
  have hlik : ∀ (s : List ℝ) y, s.length = n → s.getD 0 0 = 1 → (gramOf s).PosDef → (gramOf (predRms B stable P n s)).PosDef →
      likRms B stable P' pdf' n (affineMoments a b s) y = likRms B stable P pdf n s y := by
    intro s y hs h1 hpd hpd'
    rw [likRms, likRms, hpred s hs h1 hpd, rule_affineMoments B hB _ (hp1 s hs) hpd' a b hb stable stable]
    simp only [hpdf]
  have hnext : ∀ (s : List ℝ) y, s.length = n → s.getD 0 0 = 1 → (gramOf s).PosDef → (gramOf (predRms B stable P n s)).PosDef →
      nextRms B stable P' pdf' n (affineMoments a b s) y = affineMoments a b (nextRms B stable P pdf n s y) := by
    intro s y hs h1 hpd hpd'
    rw [nextRms, nextRms]
    refine hbin _ _ fun k _ => ?_
    rw [hlik s y hs h1 hpd hpd', hpred s hs h1 hpd,
      rule_affineMoments B hB _ (hp1 s hs) hpd' a b hb stable stable]
    have : (fun x => (a + b * x) ^ k * pdf' y (a + b * x)) = fun x => ∑ j ∈ Finset.range (k + 1),
        (b ^ j * a ^ (k - j) * (k.choose j : ℝ)) * (x ^ j * pdf y x) := by
      funext x
      rw [hpdf, add_comm a, add_pow, Finset.sum_mul]
      exact Finset.sum_congr rfl fun j _ => by rw [mul_pow]; ring
    rw [this, integ_sum _ _ _ fun j x => x ^ j * pdf y x, Finset.sum_div]
    exact Finset.sum_congr rfl fun j _ => mul_div_assoc _ _ _
  have := traj_liks_map (g := nextRms B stable P pdf n) (g' := nextRms B stable P' pdf' n)
    (lik := likRms B stable P pdf n) (lik' := likRms B stable P' pdf' n) (affineMoments a b)
    (fun s ys => s.length = n ∧ s.getD 0 0 = 1 ∧ GramsStay id (predRms B stable P n) (nextRms B stable P pdf n) s ys)
    (fun s y _ h => by
      refine ⟨by simp [nextRms], ?_, h.2.2.2.2⟩
      rw [nextRms, hmapD _ 0 (by omega)]
      simp only [pow_zero, one_mul]
      have hZ : 0 < likRms B stable P pdf n s y := by
        rw [likRms]
        exact integ_pos_of_pos B hB _ (by rw [hplen]; omega) _ _ _ _ _ (hpos y)
      exact div_self hZ.ne')
    (fun s y _ h => hnext s y h.1 h.2.1 h.2.2.1 h.2.2.2.1) (fun s y _ h => hlik s y h.1 h.2.1 h.2.2.1 h.2.2.2.1)
    rms0 ys ⟨hn, h0, hv⟩
  rw [this.1, this.2]

/-! ### central moments -/

/-- **C125, central moments.** For `x' = a + b x`, `b ≠ 0`, the filter of central moments returns `b ^ k` times the `k`-th
central moment, the transformed means and the same negative log-likelihood, as long as the Gram matrices stay positive
definite. -/
theorem C125_central_units (B : Backend) (hB : B.Valid) (stable : Bool) (a b : ℝ) (hb : b ≠ 0) (P P' : ℝ → ℕ → ℝ → ℝ)
    (cm cm' : ℝ → ℝ) (pdf pdf' : Y → ℝ → ℝ) (hP1 : ∀ x m, P x 0 m = 1)
    (hcm : ∀ x, cm' (a + b * x) = a + b * cm x)
    (hpdf : ∀ y x, pdf' y (a + b * x) = pdf y x) (hpos : ∀ y x, 0 < pdf y x)
    (cms0 : List ℝ) (hl : 2 ≤ cms0.length) (h0 : cms0.getD 0 0 = 1) (m0 : ℝ) (ys : List Y)
    (hP : ∀ x m, ∀ k < cms0.length, P' (a + b * x) k (a + b * m) = b ^ k * P x k m)
    (hv : GramsStay Prod.fst (predCms B stable P cm cms0.length) (nextCms B stable P cm pdf cms0.length) (cms0, m0) ys) :
    filterCms B P' cm' pdf' (cms0.mapIdx fun k c => b ^ k * c) (a + b * m0) ys stable
      = ((filterCms B P cm pdf cms0 m0 ys stable).1.map fun o => (o.1.mapIdx fun k c => b ^ k * c, a + b * o.2),
          (filterCms B P cm pdf cms0 m0 ys stable).2) := by
  simp only [filterCms_eq, List.length_mapIdx]
  generalize hn : cms0.length = n at hl hP hv ⊢
  have hmapD : ∀ (f : ℕ → ℝ) (j : ℕ), j < n → ((List.range n).map f).getD j 0 = f j := fun f j hj => by
    rw [List.getD_eq_getElem _ _ (by simpa using hj)]; simp
  have hidx : ∀ f : ℕ → ℝ, ((List.range n).map f).mapIdx (fun k c => b ^ k * c) = (List.range n).map fun k => b ^ k * f k := by
    intro f
    refine List.ext_getElem (by simp) fun i h1 h2 => by simp
  have haff : ∀ c : List ℝ, c.mapIdx (fun k c => b ^ k * c) = affineMoments 0 b c := by
    intro c
    refine List.ext_getElem (by simp [affineMoments]) fun i h1 h2 => ?_
    simp only [affineMoments, List.getElem_mapIdx, List.getElem_map, List.getElem_range]
    rw [Finset.sum_range_succ, Finset.sum_eq_zero]
    · simp only [List.length_mapIdx] at h1
      simp [h1]
    · intro j hj
      have := Finset.mem_range.1 hj
      rw [zero_pow (by omega)]
      ring
  have hrule : ∀ (c : List ℝ) (m : ℝ) (f : ℝ → ℝ), 2 ≤ c.length → c.getD 0 0 = 1 → (gramOf c).PosDef →
      integ (momentQuadrature B (c.mapIdx fun k c => b ^ k * c) (a + b * m) 1 false stable) f
        = integ (momentQuadrature B c m 1 false stable) fun x => f (a + b * x) := by
    intro c m f hc h1 hpd
    have hshift : ∀ (c : List ℝ) (m : ℝ) (f : ℝ → ℝ), integ (momentQuadrature B c m 1 false stable) f
        = integ (momentQuadrature B c 0 1 false stable) fun x => f (x + m) := by
      intro c m f
      rw [integ, integ, (momentQuadrature_affine B c m 1 false stable).1, (momentQuadrature_affine B c m 1 false stable).2]
      simp only [one_mul]
    rw [hshift, haff, rule_affineMoments B hB c h1 hpd 0 b hb stable stable, hshift c m]
    congr 1
    funext x
    congr 1
    ring
  set Φ : List ℝ × ℝ → List ℝ × ℝ := fun o => (o.1.mapIdx fun k c => b ^ k * c, a + b * o.2) with hΦ
  have hpred : ∀ s : List ℝ × ℝ, s.1.length = n → s.1.getD 0 0 = 1 → (gramOf s.1).PosDef →
      predCms B stable P' cm' n (Φ s) = Φ (predCms B stable P cm n s) := by
    rintro ⟨c, m⟩ hs h1 hpd
    change predCms B stable P' cm' n (c.mapIdx fun k c => b ^ k * c, a + b * m) = _
    have hl' : 2 ≤ c.length := by rw [show c.length = n from hs]; exact hl
    have hr := fun f => hrule c m f hl' h1 hpd
    simp only [predCms, hr, hcm, integ_const_add B hB c hl', hidx, hΦ]
    congr 1
    refine List.map_congr_left fun k hk => ?_
    simp only [hP _ _ k (List.mem_range.1 hk), integ_mul]
  have hplen : ∀ s, (predCms B stable P cm n s).1.length = n := fun s => by simp [predCms]
  have hp1 : ∀ s : List ℝ × ℝ, s.1.length = n → (predCms B stable P cm n s).1.getD 0 0 = 1 := fun s hs => by
    rw [predCms]
    dsimp only
    rw [hmapD _ 0 (by omega)]
    simp only [hP1, integ, mul_one]
    exact (C09_weights_probability B hB s.1 (by omega) s.2 1 false stable).2
  have hrule' : ∀ s : List ℝ × ℝ, s.1.length = n → s.1.getD 0 0 = 1 → (gramOf s.1).PosDef →
      (gramOf (predCms B stable P cm n s).1).PosDef → ∀ f,
      integ (momentQuadrature B (predCms B stable P' cm' n (Φ s)).1 (predCms B stable P' cm' n (Φ s)).2 1 false stable) f
        = integ (momentQuadrature B (predCms B stable P cm n s).1 (predCms B stable P cm n s).2 1 false stable)
          fun x => f (a + b * x) := by
    intro s hs h1 hpd hpd' f
    rw [hpred s hs h1 hpd]
    exact hrule (predCms B stable P cm n s).1 (predCms B stable P cm n s).2 f (by rw [hplen]; omega) (hp1 s hs) hpd'
  have hlik : ∀ (s : List ℝ × ℝ) y, s.1.length = n → s.1.getD 0 0 = 1 → (gramOf s.1).PosDef →
      (gramOf (predCms B stable P cm n s).1).PosDef →
      likCms B stable P' cm' pdf' n (Φ s) y = likCms B stable P cm pdf n s y := by
    intro s y hs h1 hpd hpd'
    simp only [likCms, hrule' s hs h1 hpd hpd', hpdf]
  have hZ : ∀ (s : List ℝ × ℝ) y, 0 < likCms B stable P cm pdf n s y := by
    intro s y
    rw [likCms]
    exact integ_pos_of_pos B hB _ (by rw [hplen]; omega) _ _ _ _ _ (hpos y)
  have hnext : ∀ (s : List ℝ × ℝ) y, s.1.length = n → s.1.getD 0 0 = 1 → (gramOf s.1).PosDef →
      (gramOf (predCms B stable P cm n s).1).PosDef →
      nextCms B stable P' cm' pdf' n (Φ s) y = Φ (nextCms B stable P cm pdf n s y) := by
    intro s y hs h1 hpd hpd'
    have hZ' := hZ s y
    have hZe : integ (momentQuadrature B (predCms B stable P cm n s).1 (predCms B stable P cm n s).2 1 false stable)
        (fun x => pdf y x) = likCms B stable P cm pdf n s y := rfl
    simp only [nextCms, hlik s y hs h1 hpd hpd', hrule' s hs h1 hpd hpd', hpdf]
    generalize predCms B stable P cm n s = p at hZe ⊢
    generalize likCms B stable P cm pdf n s y = Z at hZ' hZe ⊢
    have hm : integ (momentQuadrature B p.1 p.2 1 false stable) (fun x => (a + b * x - 0) ^ 1 * pdf y x) / Z
        = a + b * (integ (momentQuadrature B p.1 p.2 1 false stable) (fun x => (x - 0) ^ 1 * pdf y x) / Z) := by
      have : (fun x => (a + b * x - 0) ^ 1 * pdf y x) = fun x => a * pdf y x + b * ((x - 0) ^ 1 * pdf y x) := by
        funext x; ring
      rw [this, integ_add, integ_mul, integ_mul, hZe]
      field_simp
    rw [hm]
    generalize integ (momentQuadrature B p.1 p.2 1 false stable) (fun x => (x - 0) ^ 1 * pdf y x) / Z = μ
    have h2 : ∀ (k : ℕ) x, (a + b * x - (a + b * μ)) ^ k * pdf y x = b ^ k * ((x - μ) ^ k * pdf y x) := fun k x => by
      rw [show a + b * x - (a + b * μ) = b * (x - μ) by ring, mul_pow]; ring
    simp only [h2, integ_mul, mul_div_assoc, hidx, hΦ]
  have := traj_liks_map (g := nextCms B stable P cm pdf n) (g' := nextCms B stable P' cm' pdf' n)
    (lik := likCms B stable P cm pdf n) (lik' := likCms B stable P' cm' pdf' n) Φ
    (fun s ys => s.1.length = n ∧ s.1.getD 0 0 = 1 ∧ GramsStay Prod.fst (predCms B stable P cm n) (nextCms B stable P cm pdf n) s ys)
    (fun s y _ h => by
      refine ⟨by simp [nextCms], ?_, h.2.2.2.2⟩
      rw [nextCms]
      dsimp only
      rw [hmapD _ 0 (by omega)]
      simp only [pow_zero, one_mul]
      exact div_self (hZ s y).ne')
    (fun s y _ h => hnext s y h.1 h.2.1 h.2.2.1 h.2.2.2.1) (fun s y _ h => hlik s y h.1 h.2.1 h.2.2.1 h.2.2.2.1)
    (cms0, m0) ys ⟨hn, h0, hv⟩
  rw [show (cms0.mapIdx (fun k c => b ^ k * c), a + b * m0) = Φ (cms0, m0) from rfl, this.1, this.2]

end Mfs.Props

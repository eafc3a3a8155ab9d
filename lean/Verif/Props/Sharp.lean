import Verif.Props.Filter1Equiv
import Verif.Props.Moments1
import Verif.Props.Kalman
import Verif.Props.Pdf
import Verif.Props.Resampling
import Verif.Props.BruteForce
import Mathlib.Data.List.TakeWhile

/-!
# Exactly when the properties that fail in general hold (C33, C43, C51, C68, C69, C78, C82)
-/

namespace Mfs.Props

open Matrix Polynomial Mfs.Spec MeasureTheory ProbabilityTheory

/-! ## C33 -/

section
open Mfs.Filter1 Mfs.Quad1

/-- **C33 (which scale this is).** The scale of the C33 theorems is the one `moment_filter_scms` uses: the likelihood of an observation is the integral of
the measurement density by the rule built from the predicted moments, the predicted mean and that scale. -/
theorem C33_in_filter {Y : Type} (B : Backend) (stable : Bool) (E : ℝ → ℝ[X] →ₗ[ℝ] ℝ) (pdf : Y → ℝ → ℝ) (s : List ℝ × ℝ × ℝ) (y : Y) :
    let q := predScms B stable (scaledOf E) (meanOf E) (varOf E) s.1.length s
    let r := momentQuadrature B q.1 q.2.1 q.2.2 false stable
    (filterScms B (scaledOf E) (meanOf E) (varOf E) pdf s.1 s.2.1 s.2.2 [y] stable).2 = -Real.log (∑ i, r.1 i * pdf y (r.2 i)) ∧
    ∀ o ∈ (filterScms B (scaledOf E) (meanOf E) (varOf E) pdf s.1 s.2.1 s.2.2 [y] stable).1,
      o.2.1 = (∑ i, r.1 i * (r.2 i * pdf y (r.2 i))) / ∑ i, r.1 i * pdf y (r.2 i) := by
  intro q r
  rw [filterScms_eq]
  refine ⟨?_, fun o ho => ?_⟩
  · simp only [liks, List.map_cons, List.map_nil, List.sum_cons, List.sum_nil, add_zero]
    rfl
  · simp only [traj, List.mem_cons, List.not_mem_nil, or_false] at ho
    subst ho
    simp only [nextScms, sub_zero, div_one, pow_one]
    rfl

/-- **C33, sharp.** The predicted scale is the predicted standard deviation exactly if the conditional mean takes the same value
at all nodes of non-zero weight. -/
theorem C33_predicted_scale_iff (B : Backend) (stable : Bool) (E : ℝ → ℝ[X] →ₗ[ℝ] ℝ)
    (hE : ∀ x, E x 1 = 1) (hv : ∀ x, 0 ≤ varOf E x) (n : ℕ) (s : List ℝ × ℝ × ℝ) :
    let r := momentQuadrature B s.1 s.2.1 s.2.2 false stable
    let q := predScms B stable (scaledOf E) (meanOf E) (varOf E) n s
    q.2.2 = Real.sqrt (mixLaw r E ((X - C q.2.1) ^ 2)) ↔ ∀ i, r.1 i ≠ 0 → meanOf E (r.2 i) = q.2.1 := by
  intro r q
  obtain ⟨_, h2, _⟩ := C33_predicted_scale_relation B stable E hE hv n s
  change q.2.2 ^ 2 = mixLaw r E ((X - C q.2.1) ^ 2) - integ r (fun x => (meanOf E x - q.2.1) ^ 2) at h2
  have hq : 0 ≤ q.2.2 := Real.sqrt_nonneg _
  have hw : ∀ i, 0 ≤ r.1 i := fun i => sq_nonneg _
  have hI : 0 ≤ integ r (fun x => (meanOf E x - q.2.1) ^ 2) := Finset.sum_nonneg fun i _ => mul_nonneg (hw i) (sq_nonneg _)
  have hM : 0 ≤ mixLaw r E ((X - C q.2.1) ^ 2) := by nlinarith [sq_nonneg q.2.2]
  have h0 : q.2.2 = Real.sqrt (mixLaw r E ((X - C q.2.1) ^ 2)) ↔ integ r (fun x => (meanOf E x - q.2.1) ^ 2) = 0 := by
    constructor
    · intro h
      rw [h, Real.sq_sqrt hM] at h2
      linarith
    · intro h
      rw [h, sub_zero] at h2
      rw [← h2, Real.sqrt_sq hq]
  rw [h0, integ, Finset.sum_eq_zero_iff_of_nonneg fun i _ => mul_nonneg (hw i) (sq_nonneg _)]
  constructor
  · intro h i hi
    have := (mul_eq_zero.1 (h i (Finset.mem_univ i))).resolve_left hi
    exact sub_eq_zero.1 (pow_eq_zero_iff two_ne_zero |>.1 this)
  · intro h i _
    by_cases hi : r.1 i = 0
    · rw [hi, zero_mul]
    · rw [h i hi, sub_self]
      simp

/-- the random walk of the counterexample: the conditional means at the two nodes `±1` differ. -/
example (B : Backend) (hB : B.Valid) (stable : Bool) :
    ¬ ∀ i, (momentQuadrature B [1, 0, 1, 0] 0 1 false stable).1 i ≠ 0 →
      meanOf walk ((momentQuadrature B [1, 0, 1, 0] 0 1 false stable).2 i)
        = (predScms B stable (scaledOf walk) (meanOf walk) (varOf walk) 4 ([1, 0, 1, 0], 0, 1)).2.1 := by
  obtain ⟨h1, h2, h3, h4, _⟩ := C33_predicted_scale_wrong B hB stable
  intro hall
  have h := (C33_predicted_scale_iff B stable walk h1 (fun x => by rw [h2]; norm_num) 4 ([1, 0, 1, 0], 0, 1)).2 hall
  rw [h4, h3] at h
  have := Real.sq_sqrt (show (0 : ℝ) ≤ 2 by norm_num)
  rw [← h] at this
  norm_num at this

end

/-! ## C43 -/

section
open Mfs.Moments1

/-- **C43, sharp.** The scaled conditional moment of order `n` is the true one exactly if the scale is one, or the true moment
vanishes, or `n = N (2N - 1)` (that is `N = n = 1`). -/
theorem C43_scaled_iff (drift dispersion : ℝ → ℝ) (dt : ℝ) (hdt : 0 ≤ dt) (expect : (ℝ → ℝ) → ℝ → ℝ) (meanCov : ℝ → ℝ × ℝ)
    (N n : ℕ) (hn : n < 2 * N) (x m s : ℝ) (hs : 0 < s) (hv : 0 ≤ (meanCov x).2) :
    ((sdeCondMomentsEuler drift dispersion dt N).scaled x n m s
        = ∫ y, ((y - m) / s) ^ n ∂gaussianReal (x + drift x * dt) (dispersion x ^ 2 * dt).toNNReal ↔
      s = 1 ∨ ∫ y, ((y - m) / s) ^ n ∂gaussianReal (x + drift x * dt) (dispersion x ^ 2 * dt).toNNReal = 0 ∨ (N = 1 ∧ n = 1)) ∧
    ((sdeCondMomentsTmeNormal expect meanCov N).scaled x n m s
        = ∫ y, ((y - m) / s) ^ n ∂gaussianReal (meanCov x).1 (meanCov x).2.toNNReal ↔
      s = 1 ∨ ∫ y, ((y - m) / s) ^ n ∂gaussianReal (meanCov x).1 (meanCov x).2.toNNReal = 0 ∨ (N = 1 ∧ n = 1)) := by
  have key : ∀ a b : ℝ, a * s ^ (N * (2 * N - 1)) = s ^ n * b → (a = b ↔ s = 1 ∨ b = 0 ∨ (N = 1 ∧ n = 1)) := by
    intro a b h
    have hs1 : s ^ (N * (2 * N - 1)) ≠ 0 := pow_ne_zero _ hs.ne'
    constructor
    · rintro rfl
      by_contra hc
      push Not at hc
      obtain ⟨h1, h2, h3⟩ := hc
      have h4 : s ^ (N * (2 * N - 1)) = s ^ n := by
        have : a * s ^ (N * (2 * N - 1)) = a * s ^ n := by rw [h, mul_comm]
        exact mul_left_cancel₀ h2 this
      have h5 := pow_right_injective₀ hs h1 h4
      obtain ⟨k, rfl⟩ : ∃ k, N = k + 1 := ⟨N - 1, by omega⟩
      rcases Nat.eq_zero_or_pos k with rfl | hk
      · exact h3 rfl (by simpa using h5.symm)
      · have : (k + 1) * (2 * (k + 1) - 1) = 2 * k * k + 3 * k + 1 := by
          rw [show 2 * (k + 1) - 1 = 2 * k + 1 by omega]
          ring
        have h6 : 2 * k * k + 3 * k + 1 = n := this ▸ h5
        nlinarith
    · rintro (rfl | rfl | ⟨rfl, rfl⟩)
      · simpa using h
      · rw [mul_zero] at h
        exact (mul_eq_zero.1 h).resolve_right hs1
      · simp only [mul_one, Nat.add_one_sub_one, pow_one] at h
        have : a * s = b * s := by linarith
        exact mul_right_cancel₀ hs.ne' this
  obtain ⟨h1, h2⟩ := C43_scaled_value drift dispersion dt hdt expect meanCov N n hn x m s hs.ne' hv
  exact ⟨key _ _ h1, key _ _ h2⟩

/-- unit noise, scale two, `N = 2`: the moment of order zero is wrong. -/
example : (sdeCondMomentsEuler (fun x => -x) (fun _ => 1) (1 / 2) 2).scaled 1 0 0 2
    ≠ ∫ y, ((y - 0) / 2) ^ 0 ∂gaussianReal (1 + -1 * (1 / 2)) ((1 : ℝ) ^ 2 * (1 / 2)).toNNReal := by
  have h := (C43_scaled_iff (fun x => -x) (fun _ => 1) (1 / 2) (by norm_num) (fun _ _ => 0) (fun _ => (0, 0)) 2 0 (by norm_num) 1 0 2
    (by norm_num) le_rfl).1
  rw [Ne, h]
  norm_num

end

/-! ## C51 -/

section
open Mfs.Pdf

/-- **C51, sharp.** The raw moments of the Legendre expansion on `[a, b]` are those of `((b - a) Y + (a + b)) / 2` where the given
numbers are the moments of `Y`; so it reproduces the given moments exactly if they are invariant under this change of variable. -/
theorem C51_legendre_iff (rms : List ℝ) (a b : ℝ) (hab : a < b) :
    (∀ p < rms.length, ∫ x in a..b, x ^ p * legendrePolyExpansion rms a b x
      = ∑ k ∈ Finset.range (p + 1), (p.choose k : ℝ) * ((b - a) / 2) ^ k * ((a + b) / 2) ^ (p - k) * rms.getD k 0) ∧
    ((∀ p < rms.length, ∫ x in a..b, x ^ p * legendrePolyExpansion rms a b x = rms.getD p 0) ↔
      ∀ p < rms.length, ∑ k ∈ Finset.range (p + 1), (p.choose k : ℝ) * ((b - a) / 2) ^ k * ((a + b) / 2) ^ (p - k) * rms.getD k 0
        = rms.getD p 0) := by
  have hb : b - a ≠ 0 := by linarith
  have hcont : Continuous (legendrePolyExpansion rms a b) := by
    have : legendrePolyExpansion rms a b
        = fun x => 2 / (b - a) * (legExp rms).eval ((2 * x - (a + b)) / (b - a)) := by
      ext x; exact legendrePolyExpansion_eq rms a b x
    rw [this]; fun_prop
  have hval : ∀ p < rms.length, ∫ x in a..b, x ^ p * legendrePolyExpansion rms a b x
      = ∑ k ∈ Finset.range (p + 1), (p.choose k : ℝ) * ((b - a) / 2) ^ k * ((a + b) / 2) ^ (p - k) * rms.getD k 0 := by
    intro p hp
    have e : ∀ x : ℝ, x ^ p * legendrePolyExpansion rms a b x = ∑ k ∈ Finset.range (p + 1),
        ((p.choose k : ℝ) * ((b - a) / 2) ^ k * ((a + b) / 2) ^ (p - k))
          * (((2 * x - (a + b)) / (b - a)) ^ k * legendrePolyExpansion rms a b x) := by
      intro x
      have hx : x = (b - a) / 2 * ((2 * x - (a + b)) / (b - a)) + (a + b) / 2 := by
        field_simp
        ring
      conv_lhs => rw [hx, add_pow, Finset.sum_mul, ← hx]
      refine Finset.sum_congr rfl fun k _ => ?_
      rw [mul_pow]
      ring
    simp only [e]
    rw [intervalIntegral.integral_finsetSum]
    · refine Finset.sum_congr rfl fun k hk => ?_
      rw [intervalIntegral.integral_const_mul, C51_legendre_value rms a b hab k (by
        have := Finset.mem_range.1 hk
        omega)]
    · intro k _
      exact (by fun_prop : Continuous fun x => ((p.choose k : ℝ) * ((b - a) / 2) ^ k * ((a + b) / 2) ^ (p - k))
          * (((2 * x - (a + b)) / (b - a)) ^ k * legendrePolyExpansion rms a b x)).intervalIntegrable _ _
  refine ⟨hval, ?_⟩
  constructor
  · intro h p hp
    rw [← hval p hp, h p hp]
  · intro h p hp
    rw [hval p hp, h p hp]

/-- on `[0, 1]` the moments `[1, 1/2]` of the uniform law are not invariant. -/
example : ¬ ∀ p < ([1, 1 / 2] : List ℝ).length, ∑ k ∈ Finset.range (p + 1), (p.choose k : ℝ) * ((1 - 0) / 2) ^ k * ((0 + 1) / 2) ^ (p - k)
    * ([1, 1 / 2] : List ℝ).getD k 0 = ([1, 1 / 2] : List ℝ).getD p 0 := by
  intro h
  have := h 1 (by simp)
  norm_num [Finset.sum_range_succ] at this

end

/-! ## C69 and C68 -/

section
open Mfs.Classical

/-- two quadratic functions that differ by a constant. -/
theorem quadratic_unique {n : ℕ} {A A' : Matrix (Fin n) (Fin n) ℝ} (hA : Aᵀ = A) (hA' : A'ᵀ = A') (m m' : Fin n → ℝ) (c : ℝ)
    (h : ∀ x : Fin n → ℝ, (x - m) ⬝ᵥ A *ᵥ (x - m) = (x - m') ⬝ᵥ A' *ᵥ (x - m') + c) : A = A' ∧ A *ᵥ m = A *ᵥ m' := by
  have hs : ∀ {A : Matrix (Fin n) (Fin n) ℝ}, Aᵀ = A → ∀ x y : Fin n → ℝ, x ⬝ᵥ A *ᵥ y = y ⬝ᵥ A *ᵥ x := by
    intro A hA x y
    rw [dotProduct_mulVec, ← mulVec_transpose, hA, dotProduct_comm]
  have ex : ∀ {A : Matrix (Fin n) (Fin n) ℝ}, Aᵀ = A → ∀ x m : Fin n → ℝ,
      (x - m) ⬝ᵥ A *ᵥ (x - m) = x ⬝ᵥ A *ᵥ x - 2 * (x ⬝ᵥ A *ᵥ m) + m ⬝ᵥ A *ᵥ m := by
    intro A hA x m
    rw [mulVec_sub, sub_dotProduct, dotProduct_sub, dotProduct_sub, hs hA m x]
    ring
  have ex2 : ∀ {A : Matrix (Fin n) (Fin n) ℝ}, Aᵀ = A → ∀ x y : Fin n → ℝ,
      (x + y) ⬝ᵥ A *ᵥ (x + y) = x ⬝ᵥ A *ᵥ x + 2 * (x ⬝ᵥ A *ᵥ y) + y ⬝ᵥ A *ᵥ y := by
    intro A hA x y
    rw [mulVec_add, add_dotProduct, dotProduct_add, dotProduct_add, hs hA y x]
    ring
  simp only [ex hA, ex hA'] at h
  have hb : ∀ x y : Fin n → ℝ, x ⬝ᵥ A *ᵥ y = x ⬝ᵥ A' *ᵥ y := by
    intro x y
    have h1 := h (x + y)
    have h2 := h x
    have h3 := h y
    have h4 := h 0
    simp only [zero_dotProduct, mul_zero, sub_zero] at h4
    rw [ex2 hA, ex2 hA', add_dotProduct, add_dotProduct] at h1
    linarith
  have hAA : A = A' := by
    ext i j
    have := hb (Pi.single i 1) (Pi.single j 1)
    simpa using this
  subst hAA
  refine ⟨rfl, ?_⟩
  have hl : ∀ x : Fin n → ℝ, x ⬝ᵥ A *ᵥ m = x ⬝ᵥ A *ᵥ m' := by
    intro x
    have h2 := h x
    have h4 := h 0
    simp only [zero_dotProduct, mul_zero, sub_zero] at h4
    linarith
  funext i
  have := hl (Pi.single i 1)
  simpa using this

/-- proportional normal densities. -/
theorem mvnPdf_unique {n : ℕ} {m m' : Fin n → ℝ} {P V : Matrix (Fin n) (Fin n) ℝ} (hP : P.PosDef) (hV : Vᵀ = V) (c : ℝ)
    (h : ∀ x, mvnPdf m P x = c * mvnPdf m' V x) : P⁻¹ = V⁻¹ ∧ m = m' := by
  have hPs : P⁻¹ᵀ = P⁻¹ := by rw [transpose_nonsing_inv, hP.posSemidef.symm]
  have hVs : V⁻¹ᵀ = V⁻¹ := by rw [transpose_nonsing_inv, hV]
  set a := Real.sqrt ((2 * Real.pi) ^ n * P.det) with ha
  have ha0 : 0 < a := Real.sqrt_pos.2 (mul_pos (by positivity) hP.det_pos)
  set b := c / Real.sqrt ((2 * Real.pi) ^ n * V.det) with hb
  have h' : ∀ x, Real.exp (-((x - m) ⬝ᵥ P⁻¹ *ᵥ (x - m)) / 2) / a = b * Real.exp (-((x - m') ⬝ᵥ V⁻¹ *ᵥ (x - m')) / 2) := by
    intro x
    have := h x
    rw [mvnPdf, mvnPdf] at this
    rw [this, hb]
    ring
  have hb0 : 0 < b := by
    have := h' 0
    have h1 : 0 < b * Real.exp (-((0 - m') ⬝ᵥ V⁻¹ *ᵥ (0 - m')) / 2) := by
      rw [← this]
      positivity
    exact (pos_iff_pos_of_mul_pos h1).2 (Real.exp_pos _)
  have hq : ∀ x : Fin n → ℝ, (x - m) ⬝ᵥ P⁻¹ *ᵥ (x - m) = (x - m') ⬝ᵥ V⁻¹ *ᵥ (x - m') + -2 * (Real.log a + Real.log b) := by
    intro x
    have := congrArg Real.log (h' x)
    rw [Real.log_div (Real.exp_pos _).ne' ha0.ne', Real.log_mul hb0.ne' (Real.exp_pos _).ne', Real.log_exp, Real.log_exp] at this
    linarith
  obtain ⟨h1, h2⟩ := quadratic_unique hPs hVs m m' _ hq
  refine ⟨h1, ?_⟩
  have := congrArg (fun v => P *ᵥ v) h2
  simpa [mulVec_mulVec, mul_nonsing_inv _ hP.det_pos.ne'.isUnit] using this

/-- **C69, sharp.** `_log_mvn_pdf` is the log-density of `N(mu, chol cholᵀ)` exactly if the factor is diagonal. -/
theorem C69_log_mvn_iff {n : ℕ} (mu : Fin n → ℝ) (chol : Matrix (Fin n) (Fin n) ℝ) (hl : IsLower chol) (hd : ∀ i, 0 < chol i i) :
    (∀ x, logMvnPdf x mu chol = Real.log (mvnPdf mu (chol * cholᵀ) x)) ↔ ∀ i j, i ≠ j → chol i j = 0 := by
  constructor
  · intro h
    have hc : IsChol (chol * cholᵀ) chol := ⟨hl, hd, rfl⟩
    have hdc : IsChol (diagonal fun i => chol i i ^ 2) (diagonal fun i => chol i i) := by
      refine ⟨fun i j hij => diagonal_apply_ne _ hij.ne, fun i => by simpa using hd i, ?_⟩
      rw [diagonal_transpose, diagonal_mul_diagonal]
      congr 1
      ext i
      ring
    have hpos : ∀ {P : Matrix (Fin n) (Fin n) ℝ}, P.PosDef → ∀ x, 0 < mvnPdf mu P x := fun hP x =>
      div_pos (Real.exp_pos _) (Real.sqrt_pos.2 (mul_pos (by positivity) hP.det_pos))
    have he : ∀ x, mvnPdf mu (diagonal fun i => chol i i ^ 2) x = 1 * mvnPdf mu (chol * cholᵀ) x := by
      intro x
      rw [one_mul]
      have := h x
      rw [C69_log_mvn_value x mu chol hl hd] at this
      exact Real.log_injOn_pos (hpos hdc.posDef x) (hpos hc.posDef x) this
    have hi := (mvnPdf_unique hdc.posDef hc.isSymm 1 he).1
    have hD : (diagonal fun i => chol i i ^ 2) = chol * cholᵀ := by
      have := congrArg (fun M => M⁻¹) hi
      simpa [nonsing_inv_nonsing_inv _ hdc.posDef.det_pos.ne'.isUnit, nonsing_inv_nonsing_inv _ hc.posDef.det_pos.ne'.isUnit] using this
    rw [← hD] at hc
    have := hc.unique hdc
    intro i j hij
    rw [this, diagonal_apply_ne _ hij]
  · intro h x
    exact C69_log_mvn_partial x mu chol h hd

/-- **C68, sharp.** With `dx = dy ≠ 1` the update is Bayes' rule for every measurement exactly if the gain of the code,
`diag(L)⁻¹ P Hᵀ` with the Cholesky factor `L` of `S = H P Hᵀ + Xi`, happens to be the Kalman gain `P Hᵀ S⁻¹`. -/
theorem C68_kf_vector_iff {n : ℕ} (hn : n ≠ 1) (B : Backend) (hB : B.Valid) (ok : UpdateShapeOk n n) (p : Belief n)
    (H Xi L : Matrix (Fin n) (Fin n) ℝ) (hP : p.2.PosDef) (hXi : Xi.PosDef) (hL : IsChol (H * p.2 * Hᵀ + Xi) L) :
    (∀ y, ∃ c, ∀ x, mvnPdf p.1 p.2 x * mvnPdf (H *ᵥ x) Xi y
      = c * mvnPdf (linearUpdate B ok p H (H *ᵥ p.1) Xi y).1.1 (linearUpdate B ok p H (H *ᵥ p.1) Xi y).1.2 x) ↔
    (diagonal fun i => (L i i)⁻¹) * (p.2 * Hᵀ) = p.2 * Hᵀ * (H * p.2 * Hᵀ + Xi)⁻¹ := by
  have hS : (H * p.2 * Hᵀ + Xi).PosDef := hL.posDef
  have hc : B.chol (H * p.2 * Hᵀ + Xi) = L := (hB.chol _ hS).unique hL
  have hg := linearGain_vector B hB ok hn p.2 H _ hP.posSemidef hS
  rw [hc] at hg
  have hk : kgain p.2 H Xi = p.2 * Hᵀ * (H * p.2 * Hᵀ + Xi)⁻¹ := rfl
  rw [← hk, ← hg]
  set K := linearGain B ok p.2 H (H * p.2 * Hᵀ + Xi) with hKdef
  constructor
  · intro h
    have hy : ∀ y, kgain p.2 H Xi *ᵥ (y - H *ᵥ p.1) = K *ᵥ (y - H *ᵥ p.1) := by
      intro y
      obtain ⟨c, hc⟩ := h y
      have hpos : 0 < mvnPdf (H *ᵥ p.1) (innov p.2 H Xi) y :=
        div_pos (Real.exp_pos _) (Real.sqrt_pos.2 (mul_pos (by positivity) (innov_posDef H hP.posSemidef hXi).det_pos))
      have hVs : (p.2 - K * (H * p.2 * Hᵀ + Xi) * Kᵀ)ᵀ = p.2 - K * (H * p.2 * Hᵀ + Xi) * Kᵀ := by
        rw [transpose_sub, hP.posSemidef.symm, transpose_mul, transpose_mul, transpose_transpose, hS.posSemidef.symm, ← Matrix.mul_assoc K]
      have := (mvnPdf_unique (kcov_posDef H hP hXi) hVs (c / mvnPdf (H *ᵥ p.1) (innov p.2 H Xi) y)
        (m := p.1 + kgain p.2 H Xi *ᵥ (y - H *ᵥ p.1)) (m' := p.1 + K *ᵥ (y - H *ᵥ p.1)) (fun x => by
          have h1 := hc x
          rw [bayes_identity H hP hXi] at h1
          rw [div_mul_eq_mul_div, eq_div_iff hpos.ne', mul_comm]
          exact h1)).2
      exact add_left_cancel this
    ext i j
    have := congrFun (hy (H *ᵥ p.1 + Pi.single j 1)) i
    rw [add_sub_cancel_left] at this
    simpa using this.symm
  · intro h y
    refine ⟨mvnPdf (H *ᵥ p.1) (innov p.2 H Xi) y, fun x => ?_⟩
    rw [bayes_identity H hP hXi]
    simp only [linearUpdate]
    rw [← hKdef, h]
    rfl

/-- **C68 (generic failure).** With `dx = dy ≠ 1` and an invertible measurement matrix, `kf` violates Bayes' rule for some
measurement at the first step unless the innovation covariance has determinant one. -/
theorem C68_kf_vector_generic {n : ℕ} (hn : n ≠ 1) (B : Backend) (hB : B.Valid) (F Sigma H Xi v0 : Matrix (Fin n) (Fin n) ℝ)
    (m0 : Fin n → ℝ) (hv : (F * v0 * Fᵀ + Sigma).PosDef) (hXi : Xi.PosDef) (hH : IsUnit H.det)
    (hdet : (H * (F * v0 * Fᵀ + Sigma) * Hᵀ + Xi).det ≠ 1) :
    ∃ y o, kf B F Sigma H Xi m0 v0 [y] = some [o] ∧
      ¬ ∃ c : ℝ, ∀ x, mvnPdf (F *ᵥ m0) (F * v0 * Fᵀ + Sigma) x * mvnPdf (H *ᵥ x) Xi y = c * mvnPdf o.1.1 o.1.2 x := by
  have ok : UpdateShapeOk n n := Or.inr rfl
  set P := F * v0 * Fᵀ + Sigma with hPdef
  have hS : (H * P * Hᵀ + Xi).PosDef := innov_posDef H hv.posSemidef hXi
  have hL := hB.chol _ hS
  have hiff := C68_kf_vector_iff hn B hB ok (F *ᵥ m0, P) H Xi _ hv hXi hL
  by_contra hcon
  push Not at hcon
  have hall : (diagonal fun i => (B.chol (H * P * Hᵀ + Xi) i i)⁻¹) * (P * Hᵀ) = P * Hᵀ * (H * P * Hᵀ + Xi)⁻¹ := by
    refine hiff.1 fun y => ?_
    exact hcon y (stepOf (linearPredict F Sigma) (fun p y => linearUpdate B ok p H (H *ᵥ p.1) Xi y) ((m0, v0), 0) y)
      (by rw [kf, dif_pos ok, scan_filterBody_cons, scan_filterBody_nil])
  have hd := congrArg Matrix.det hall
  rw [det_mul, det_mul (P * Hᵀ), det_diagonal, mul_comm, det_nonsing_inv] at hd
  have hu : (P * Hᵀ).det ≠ 0 := by
    rw [det_mul, det_transpose]
    exact mul_ne_zero hv.det_pos.ne' hH.ne_zero
  have h1 := mul_left_cancel₀ hu hd
  have h2 : (H * P * Hᵀ + Xi).det = (∏ i, B.chol (H * P * Hᵀ + Xi) i i) ^ 2 := by
    conv_lhs => rw [← hL.mul_transpose]
    rw [det_mul, det_transpose, hL.lower.det, sq]
  have h3 : 0 < ∏ i, B.chol (H * P * Hᵀ + Xi) i i := Finset.prod_pos fun i _ => hL.diag_pos i
  rw [Finset.prod_inv_distrib, Ring.inverse_eq_inv', _root_.inv_inj] at h1
  rw [h2] at h1 hdet
  apply hdet
  have : (∏ i, B.chol (H * P * Hᵀ + Xi) i i) = 1 := by nlinarith
  rw [this]
  norm_num

/-- a two-dimensional random walk observed with unit noise. -/
example (B : Backend) (hB : B.Valid) : ∃ y o, kf B 1 1 1 1 (0 : Fin 2 → ℝ) (1 : Matrix (Fin 2) (Fin 2) ℝ) [y] = some [o] ∧
    ¬ ∃ c : ℝ, ∀ x, mvnPdf ((1 : Matrix (Fin 2) (Fin 2) ℝ) *ᵥ 0) (1 * 1 * 1ᵀ + 1) x * mvnPdf ((1 : Matrix (Fin 2) (Fin 2) ℝ) *ᵥ x) 1 y
      = c * mvnPdf o.1.1 o.1.2 x := by
  refine C68_kf_vector_generic (by norm_num) B hB 1 1 1 1 1 0 ?_ PosDef.one (by simp) ?_
  · rw [Matrix.transpose_one, Matrix.mul_one, Matrix.mul_one]
    exact PosDef.one.add PosDef.one
  · simp only [Matrix.transpose_one, Matrix.mul_one, Matrix.one_mul]
    rw [show (1 + 1 + 1 : Matrix (Fin 2) (Fin 2) ℝ) = (3 : ℝ) • 1 by
      rw [← one_smul ℝ (1 : Matrix (Fin 2) (Fin 2) ℝ), ← add_smul, ← add_smul, smul_smul]
      norm_num, det_smul]
    norm_num

end

/-! ## C77 -/

section
open Mfs.Resampling

/-- **C77 at offset zero.** The exact number of copies of particle `i` when the draw is zero, with `S_i` the sum of the first
`i` weights: `min ⌊n S_{i+1}⌋ (n-1) - min ⌊n S_i⌋ (n-1)`, and one more for the first particle. -/
theorem C77_systematic_zero {ss : List ℝ → ℝ → ℕ} (hss : SearchSorted ss) (w : List ℝ) (hw : ∀ a ∈ w, 0 ≤ a) (hsum : w.sum = 1)
    (i : ℕ) (hi : i < w.length) :
    ((systematic ss w 0).count i : ℤ) = min ⌊(w.length : ℝ) * (w.take (i + 1)).sum⌋ (w.length - 1)
      - min ⌊(w.length : ℝ) * (w.take i).sum⌋ (w.length - 1) + if i = 0 then 1 else 0 := by
  have hn : (0 : ℝ) < w.length := by exact_mod_cast (by omega : 0 < w.length)
  change _ = min ⌊(w.length : ℝ) * S w (i + 1)⌋ (w.length - 1) - min ⌊(w.length : ℝ) * S w i⌋ (w.length - 1) + _
  have hS0 := S_nonneg w hw i
  have hS1 := S_mono w hw (Nat.le_succ i)
  have hSn : S w (i + 1) ≤ 1 := by rw [← hsum, ← S_length]; exact S_mono w hw (by omega)
  have m0 : 0 ≤ (w.length : ℝ) * S w i := mul_nonneg hn.le hS0
  have m1 : (w.length : ℝ) * S w (i + 1) ≤ w.length := by simpa using mul_le_mul_of_nonneg_left hSn hn.le
  have m2 : (w.length : ℝ) * S w i ≤ w.length * S w (i + 1) := mul_le_mul_of_nonneg_left hS1 hn.le
  set a := (w.length : ℝ) * S w i with ha
  set b := (w.length : ℝ) * S w (i + 1) with hb
  have hcl : ∀ t : ℝ, 0 ≤ t → t ≤ w.length →
      ((List.range w.length).countP (fun k : ℕ => decide ((k : ℝ) ≤ t)) : ℤ) = min ⌊t⌋ (w.length - 1) + 1 := by
    intro t h0 h1
    rcases lt_or_eq_of_le h1 with h | h
    · have hf : ⌊t⌋ < w.length := Int.floor_lt.2 (by exact_mod_cast h)
      have := count_le w.length t (by linarith) h
      omega
    · have hall : (List.range w.length).countP (fun k : ℕ => decide ((k : ℝ) ≤ t)) = w.length := by
        conv_rhs => rw [← List.length_range (n := w.length)]
        rw [List.countP_eq_length]
        intro k hk
        have : (k : ℝ) < w.length := by exact_mod_cast List.mem_range.1 hk
        simp only [decide_eq_true_eq]
        linarith
      rw [hall, h, Int.floor_natCast]
      omega
  have hcnt := systematic_count hss w hw hsum (fun _ => 0) (fun _ _ => ⟨le_rfl, one_pos⟩) i hi
  rw [systematic, hcnt]
  rcases Nat.eq_zero_or_pos i with h0 | hpos
  · have : ((List.range w.length).countP fun (k : ℕ) => decide ((i = 0 ∨ a < k + 0) ∧ (k : ℝ) + 0 ≤ b))
          = (List.range w.length).countP fun k : ℕ => decide ((k : ℝ) ≤ b) := by
      refine List.countP_congr fun k _ => ?_
      simp [h0]
    rw [this, hcl b (m0.trans m2) m1, if_pos h0]
    have : a = 0 := by rw [ha, h0, S_zero, mul_zero]
    rw [this, Int.floor_zero]
    omega
  · have : ((List.range w.length).countP fun (k : ℕ) => decide ((i = 0 ∨ a < k + 0) ∧ (k : ℝ) + 0 ≤ b))
          = (List.range w.length).countP fun k : ℕ => decide (a < (k : ℝ) ∧ (k : ℝ) ≤ b) := by
      refine List.countP_congr fun k _ => ?_
      simp [show i ≠ 0 by omega]
    have h2 := count_Ioc w.length a b m2
    have e1 := hcl a m0 (m2.trans m1)
    have e2 := hcl b (m0.trans m2) m1
    rw [this, if_neg (by omega)]
    omega

/-- two equal weights: the first particle is taken twice. -/
example {ss : List ℝ → ℝ → ℕ} (hss : SearchSorted ss) : (systematic ss [1 / 2, 1 / 2] 0).count 0 = 2 := by
  have := C77_systematic_zero hss [1 / 2, 1 / 2] (by simp) (by norm_num) 0 (by simp)
  norm_num at this
  exact_mod_cast this

end

/-! ## C78 -/

section
open Mfs.Resampling

/-- **C78, sharp.** With draws in `[0, 1)` a particle of weight zero is selected by systematic (stratified) resampling exactly if
it is the first one and the (first) draw is zero. -/
theorem C78_zero_weight_iff {ss : List ℝ → ℝ → ℕ} (hss : SearchSorted ss) (w : List ℝ) (hw : ∀ a ∈ w, 0 ≤ a) (hsum : w.sum = 1)
    (u : ℝ) (hu : 0 ≤ u ∧ u < 1) (us : ℕ → ℝ) (hus : ∀ k, 0 ≤ us k ∧ us k < 1) (i : ℕ) (hi : i < w.length) (hwi : w[i] = 0) :
    (i ∈ systematic ss w u ↔ i = 0 ∧ u = 0) ∧ (i ∈ stratified ss w us ↔ i = 0 ∧ us 0 = 0) := by
  have hn : (0 : ℝ) < w.length := by exact_mod_cast (by omega : 0 < w.length)
  have h : ∀ us : ℕ → ℝ, (∀ k, 0 ≤ us k ∧ us k < 1) → (i ∈ systematicOrStratified ss w us ↔ i = 0 ∧ us 0 = 0) := by
    intro us hus
    have hS : S w (i + 1) = S w i := by rw [S_succ, List.getD_eq_getElem _ _ hi, hwi, add_zero]
    have hpos : ∀ k < w.length, 0 ≤ ((k : ℝ) + us k) / w.length ∧ ((k : ℝ) + us k) / w.length ≤ 1 := by
      intro k hk
      have hk' : (k : ℝ) + 1 ≤ w.length := by exact_mod_cast hk
      have := hus k
      exact ⟨div_nonneg (add_nonneg (Nat.cast_nonneg k) this.1) hn.le, (div_le_one hn).2 (by linarith)⟩
    constructor
    · intro hmem
      obtain ⟨k, hk, he⟩ := List.mem_map.1 hmem
      have hk := List.mem_range.1 hk
      obtain ⟨h2, h3⟩ := (clip_ss_eq_iff hss w hw _ (hsum ▸ (hpos k hk).2) i hi).1 he
      rw [hS] at h3
      rcases h2 with h2 | h2
      · subst h2
        rw [S_zero] at h3
        have h4 : ((k : ℝ) + us k) / w.length = 0 := le_antisymm h3 (hpos k hk).1
        have h5 : (k : ℝ) + us k = 0 := by
          rcases div_eq_zero_iff.1 h4 with h | h
          · exact h
          · exact absurd h hn.ne'
        have h6 := (hus k).1
        have h7 : (0 : ℝ) ≤ k := Nat.cast_nonneg k
        have h8 : (k : ℝ) = 0 := by linarith
        have h9 : k = 0 := by exact_mod_cast h8
        subst h9
        exact ⟨rfl, by linarith⟩
      · linarith
    · rintro ⟨rfl, h0⟩
      refine List.mem_map.2 ⟨0, List.mem_range.2 hi, ?_⟩
      refine (clip_ss_eq_iff hss w hw _ (hsum ▸ (hpos 0 hi).2) 0 hi).2 ⟨Or.inl rfl, ?_⟩
      rw [hS, S_zero, h0]
      simp
  exact ⟨h _ fun _ => hu, h _ hus⟩

example {ss : List ℝ → ℝ → ℕ} (hss : SearchSorted ss) : 0 ∈ systematic ss [0, 1] 0 ∧ 0 ∉ systematic ss [0, 1] (1 / 2) := by
  have h : ∀ u : ℝ, 0 ≤ u ∧ u < 1 → (0 ∈ systematic ss [0, 1] u ↔ (0 : ℕ) = 0 ∧ u = 0) := fun u hu =>
    (C78_zero_weight_iff hss [0, 1] (by simp) (by norm_num) u hu (fun _ => u) (fun _ => hu) 0 (by simp) rfl).1
  rw [h 0 (by norm_num), h (1 / 2) (by norm_num)]
  norm_num

end

/-! ## C82 -/

section
open Mfs.BruteForce

/-- `split('-')[-1]` is the part behind the last hyphen. -/
theorem lastPart_iff (method k : String) :
    ('-' ∉ k.toList ∧ (method = k ∨ ∃ p, method.toList = p ++ '-' :: k.toList)) ↔ lastPart method = k := by
  have htake : ∀ l : List Char, (∀ c ∈ l, c ≠ '-') → l.takeWhile (fun c => decide (c ≠ '-')) = l := fun l hl =>
    List.takeWhile_eq_self_iff.2 fun c hc => by simpa using hl c hc
  constructor
  · rintro ⟨hk, rfl | ⟨p, hp⟩⟩
    · rw [lastPart, htake _ (fun c hc h => hk (by rw [← h]; exact List.mem_reverse.1 hc)), List.reverse_reverse, String.ofList_toList]
    · rw [lastPart, hp, List.reverse_append, List.reverse_cons, List.append_assoc, List.takeWhile_append_of_pos (by
        intro c hc
        simp only [decide_eq_true_eq]
        rintro rfl
        exact hk (List.mem_reverse.1 hc)), List.singleton_append, List.takeWhile_cons_of_neg (by decide), List.append_nil,
        List.reverse_reverse, String.ofList_toList]
  · rintro rfl
    have h := List.takeWhile_append_dropWhile (p := fun c => decide (c ≠ '-')) (l := method.toList.reverse)
    have hl : (lastPart method).toList = (method.toList.reverse.takeWhile fun c => decide (c ≠ '-')).reverse := by
      rw [lastPart, String.toList_ofList]
    refine ⟨fun hm => ?_, ?_⟩
    · rw [hl] at hm
      have := List.mem_takeWhile_imp (List.mem_reverse.1 hm)
      simp at this
    · have h' : method.toList = (method.toList.reverse.dropWhile fun c => decide (c ≠ '-')).reverse ++ (lastPart method).toList := by
        rw [hl, ← List.reverse_append, h, List.reverse_reverse]
      rcases hd : (method.toList.reverse.dropWhile fun c => decide (c ≠ '-')) with _ | ⟨c, t⟩
      · left
        rw [hd, List.reverse_nil, List.nil_append] at h'
        have := congrArg String.ofList h'
        rwa [String.ofList_toList, String.ofList_toList] at this
      · right
        have hc : c = '-' := by
          have := List.head_dropWhile_not (fun c => decide (c ≠ '-')) (l := method.toList.reverse) (by rw [hd]; simp)
          simp only [hd, List.head_cons] at this
          simpa using this
        refine ⟨t.reverse, ?_⟩
        rw [hd, List.reverse_cons, hc, List.append_assoc, List.singleton_append] at h'
        exact h'

/-- **C82, sharp.** What `brute_force_filter` does for every method string. -/
theorem C82_classification {N : ℕ} {Y : Type} (tmeMeanCov : ℤ → ℝ → ℝ → ℝ × ℝ) (pyInt : String → Option ℤ) (drift dispersion : ℝ → ℝ)
    (lik : Y → (Fin (N + 2) → ℝ) → Fin (N + 2) → ℝ) (initPs xs : Fin (N + 2) → ℝ) (ys : List Y) (dt : ℝ) (steps : ℕ) (method : String) :
    let run := bruteForceFilter tmeMeanCov pyInt drift dispersion lik initPs xs ys dt steps method
    let has := fun s : String => s.toList <:+: method.toList
    let suffix := fun k : String => '-' ∉ k.toList ∧ (method = k ∨ ∃ p, method.toList = p ++ '-' :: k.toList)
    ((∃ out, run = .ok out) ↔ method = "kolmogorov" ∨ method = "chapman-euler" ∨
      (has "chapman-tme" ∧ ∃ k, suffix k ∧ (pyInt k).isSome)) ∧
    (run = .error .valueError ↔ has "chapman-tme" ∧ ∃ k, suffix k ∧ pyInt k = none) ∧
    (run = .error .nameError ↔ method ≠ "chapman-euler" ∧ has "chapman" ∧ ¬ has "chapman-tme") ∧
    (run = .error .notImplemented ↔ method ≠ "kolmogorov" ∧ ¬ has "chapman") := by
  intro run has suffix
  have hsuf : ∀ P : Option ℤ → Prop, (∃ k, suffix k ∧ P (pyInt k)) ↔ P (pyInt (lastPart method)) := by
    intro P
    constructor
    · rintro ⟨k, hk, h⟩
      rwa [(lastPart_iff method k).1 hk]
    · intro h
      exact ⟨_, (lastPart_iff method _).2 rfl, h⟩
  have hin : ∀ s, isIn s method = true ↔ has s := fun s => by simp [isIn, has]
  have htrans : has "chapman-tme" → has "chapman" := fun h => (show "chapman".toList <:+: "chapman-tme".toList by decide).trans h
  rw [hsuf (fun o => o.isSome = true), hsuf (fun o => o = none)]
  by_cases h1 : method = "chapman-euler"
  · subst h1
    have a1 : has "chapman" := by decide
    have a2 : ¬ has "chapman-tme" := by decide
    have hr : ∃ out, run = .ok out := ⟨_, rfl⟩
    obtain ⟨out, ho⟩ := hr
    simp [ho, a1, a2]
  by_cases h2 : has "chapman-tme"
  · have a1 := htrans h2
    have a2 : method ≠ "kolmogorov" := by
      rintro rfl
      exact absurd a1 (by decide)
    rcases hp : pyInt (lastPart method) with _ | order
    · have : run = .error .valueError := by
        simp only [run, bruteForceFilter, chooseTransition, if_neg h1, if_pos ((hin _).2 h2), hp]
      simp [this, h1, h2, a1, a2]
    · have : ∃ out, run = .ok out := bruteForce_mk lik initPs ys (by rw [chooseTransition, if_neg h1, if_pos ((hin _).2 h2), hp]) a2 ((hin _).2 a1)
      obtain ⟨out, ho⟩ := this
      simp [ho, h1, h2, a1, a2]
  · have hn : ¬ isIn "chapman-tme" method = true := fun h => h2 ((hin _).1 h)
    by_cases h3 : method = "kolmogorov"
    · subst h3
      have a1 : ¬ has "chapman" := by decide
      have hr : ∃ out, run = .ok out := ⟨_, rfl⟩
      obtain ⟨out, ho⟩ := hr
      simp [ho, a1, h2]
    · by_cases h4 : has "chapman"
      · have : run = .error .nameError := by
          simp only [run, bruteForceFilter, chooseTransition, choosePrediction, if_neg h1, if_neg hn, if_neg h3, if_pos ((hin _).2 h4)]
        simp [this, h1, h2, h3, h4]
      · have hn' : ¬ isIn "chapman" method = true := fun h => h4 ((hin _).1 h)
        have : run = .error .notImplemented := by
          simp only [run, bruteForceFilter, chooseTransition, choosePrediction, if_neg h1, if_neg hn, if_neg h3, if_neg hn']
        simp [this, h1, h2, h3, h4]

example : "chapman-tme".toList <:+: "xchapman-tme-3".toList ∧ lastPart "xchapman-tme-3" = "3" :=
  ⟨by decide, (lastPart_iff _ _).1 ⟨by decide, Or.inr ⟨"xchapman-tme".toList, by decide⟩⟩⟩

end

end Mfs.Props

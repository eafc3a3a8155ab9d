import Verif.Props.SgpPosDef
import Verif.Lemmas.Tri

/-!
# C217: the Gaussian filters do not depend on the units of the measurements
-/

namespace Mfs.Props

open Mfs.Spec Mfs.Classical Matrix

variable {dx dy : ℕ}

/-- the same beliefs, and negative log-likelihoods increased by `c` at every step. -/
def ShiftedBy (c : ℝ) (out out' : List (Belief dx × ℝ)) : Prop :=
  out'.length = out.length ∧ ∀ (k : ℕ) (o : Belief dx × ℝ), out[k]? = some o → out'[k]? = some (o.1, o.2 + (k + 1) * c)

theorem scan_filterBody_units {Y : Type} (predict : Belief dx → Belief dx) (update update' : Belief dx → Y → Belief dx × ℝ) (g : Y → Y) (c : ℝ) (I : Belief dx → Prop)
    (hI : ∀ b y, I b → I (update (predict b) y).1) (hu : ∀ b y, I b → update' (predict b) (g y) = ((update (predict b) y).1, (update (predict b) y).2 + c))
    (b : Belief dx) (hb : I b) (n : ℝ) (j : ℕ) (ys : List Y) (k : ℕ) (o : Belief dx × ℝ) (ho : (scan (filterBody predict update) (b, n) ys).2[k]? = some o) :
    (scan (filterBody predict update') (b, n + j * c) (ys.map g)).2[k]? = some (o.1, o.2 + (j + k + 1) * c) := by
  induction ys generalizing b n j k with
  | nil => simp [scan_filterBody_nil] at ho
  | cons y ys ih =>
    rw [scan_filterBody_cons] at ho
    rw [List.map_cons, scan_filterBody_cons]
    have e : stepOf predict update' (b, n + j * c) (g y) = ((stepOf predict update (b, n) y).1, (stepOf predict update (b, n) y).2 + (j + 1 : ℕ) * c) := by
      simp only [stepOf, hu b y hb]
      refine Prod.ext rfl ?_
      push_cast
      ring
    rw [e]
    cases k with
    | zero =>
      rw [List.getElem?_cons_zero, Option.some.injEq] at ho
      rw [List.getElem?_cons_zero, ← ho]
      push_cast
      simp
    | succ k =>
      rw [List.getElem?_cons_succ] at ho ⊢
      have := ih (stepOf predict update (b, n) y).1 (hI b y hb) (stepOf predict update (b, n) y).2 (j + 1) k ho
      rw [this]
      push_cast
      congr 2
      ring

theorem shiftedBy_scan {Y : Type} (predict : Belief dx → Belief dx) (update update' : Belief dx → Y → Belief dx × ℝ) (g : Y → Y) (c : ℝ) (I : Belief dx → Prop)
    (hI : ∀ b y, I b → I (update (predict b) y).1) (hu : ∀ b y, I b → update' (predict b) (g y) = ((update (predict b) y).1, (update (predict b) y).2 + c))
    (b : Belief dx) (hb : I b) (ys : List Y) : ShiftedBy c (scan (filterBody predict update) (b, 0) ys).2 (scan (filterBody predict update') (b, 0) (ys.map g)).2 := by
  refine ⟨by rw [scan_filterBody_length, scan_filterBody_length, List.length_map], fun k o ho => ?_⟩
  have := scan_filterBody_units predict update update' g c I hI hu b hb 0 0 ys k o ho
  simpa using this

theorem linearUpdate_units (B : Backend) (ok : UpdateShapeOk dx 1) (p : Belief dx) (H : Matrix (Fin 1) (Fin dx) ℝ) (pr y b : Fin 1 → ℝ) (Xi : Matrix (Fin 1) (Fin 1) ℝ) {a : ℝ} (ha : a ≠ 0)
    (hS : 0 < (H * p.2 * Hᵀ + Xi) 0 0) :
    linearUpdate B ok p (a • H) (a • pr + b) (a ^ 2 • Xi) (a • y + b) = ((linearUpdate B ok p H pr Xi y).1, (linearUpdate B ok p H pr Xi y).2 + Real.log |a|) := by
  have eS : a • H * p.2 * (a • H)ᵀ + a ^ 2 • Xi = a ^ 2 • (H * p.2 * Hᵀ + Xi) := by
    rw [transpose_smul, Matrix.mul_smul, Matrix.smul_mul, Matrix.smul_mul, smul_smul, smul_add, sq]
  have eK : linearGain B ok p.2 (a • H) (a ^ 2 • (H * p.2 * Hᵀ + Xi)) = a⁻¹ • linearGain B ok p.2 H (H * p.2 * Hᵀ + Xi) := by
    rw [linearGain, dif_pos rfl, linearGain, dif_pos rfl]
    ext i j
    rw [transpose_smul, Matrix.mul_smul]
    simp only [Matrix.of_apply, Matrix.smul_apply, smul_eq_mul]
    field_simp
  have ey : a • y + b - (a • pr + b) = a • (y - pr) := by rw [smul_sub]; abel
  simp only [linearUpdate]
  rw [eS, eK, ey]
  generalize H * p.2 * Hᵀ + Xi = S at hS ⊢
  refine Prod.ext (Prod.ext ?_ ?_) ?_
  · simp only [smul_mulVec, mulVec_smul, smul_smul, mul_inv_cancel₀ ha, one_smul]
  · simp only [transpose_smul, Matrix.mul_smul, Matrix.smul_mul, smul_smul]
    rw [show a⁻¹ * (a ^ 2 * a⁻¹) = 1 by field_simp, one_smul]
  · simp only [linearNell, dif_pos, logNormalPdf]
    have hq : Real.sqrt ((a ^ 2 • S) 0 0) ^ 2 = a ^ 2 * S 0 0 := by
      rw [Matrix.smul_apply, smul_eq_mul, Real.sq_sqrt (by positivity)]
    have hq0 : Real.sqrt (S 0 0) ^ 2 = S 0 0 := Real.sq_sqrt hS.le
    have hl : Real.log (2 * Real.pi * (a ^ 2 * S 0 0)) = 2 * Real.log |a| + Real.log (2 * Real.pi * S 0 0) := by
      rw [show 2 * Real.pi * (a ^ 2 * S 0 0) = a ^ 2 * (2 * Real.pi * S 0 0) by ring, Real.log_mul (by positivity) (by positivity), Real.log_pow, Real.log_abs]
      norm_num
    have hz : (⟨0, by omega⟩ : Fin 1) = 0 := rfl
    simp only [hz, hq, hq0, hl, Pi.add_apply, Pi.smul_apply, smul_eq_mul]
    have : (a * y 0 + b 0 - (a * pr 0 + b 0)) ^ 2 / (a ^ 2 * S 0 0) = (y 0 - pr 0) ^ 2 / S 0 0 := by
      rw [show a * y 0 + b 0 - (a * pr 0 + b 0) = a * (y 0 - pr 0) by ring, mul_pow, mul_div_mul_left _ _ (pow_ne_zero 2 ha)]
    rw [this]
    ring

theorem jac_units (f : (Fin dx → ℝ) → Fin dy → ℝ) {a : ℝ} (ha : a ≠ 0) (b : Fin dy → ℝ) (x : Fin dx → ℝ) : jac (fun u => a • f u + b) x = a • jac f x := by
  ext i j
  simp only [jac, Matrix.of_apply, Matrix.smul_apply, smul_eq_mul]
  rw [fderiv_add_const]
  let := invertibleOfNonzero ha
  have : fderiv ℝ (fun u => a • f u) x = a • fderiv ℝ f x := fderiv_const_smul_of_invertible (f := f) a
  rw [this]
  rfl

/-- **C217 (Kalman filters).** Scalar measurements. Expressing the measurements in other units, `y ↦ a y + b` with `a ≠ 0` (`b = 0` for `kf`, which has no offset), and the measurement model accordingly, leaves all
filtering means and covariances of `kf` and `ekf` unchanged and increases the negative log-likelihood by `log |a|` per measurement. -/
theorem C217_kalman (B : Backend) (F Sigma : Matrix (Fin dx) (Fin dx) ℝ) (H : Matrix (Fin 1) (Fin dx) ℝ) (Xi : Matrix (Fin 1) (Fin 1) ℝ) (state : (Fin dx → ℝ) → ℝ → Belief dx)
    (meas : (Fin dx → ℝ) → (Fin 1 → ℝ) × Matrix (Fin 1) (Fin 1) ℝ) (m0 : Fin dx → ℝ) (v0 : Matrix (Fin dx) (Fin dx) ℝ) (dt a : ℝ) (ha : a ≠ 0) (b : Fin 1 → ℝ) (hv0 : v0.PosSemidef)
    (hSig : Sigma.PosSemidef) (hXi : Xi.PosDef) (hs : ∀ x, (state x dt).2.PosSemidef) (hm : ∀ x, (meas x).2.PosDef) (ys : List (Fin 1 → ℝ)) :
    (∃ out out', kf B F Sigma H Xi m0 v0 ys = some out ∧ kf B F Sigma (a • H) (a ^ 2 • Xi) m0 v0 (ys.map fun y => a • y) = some out' ∧ ShiftedBy (Real.log |a|) out out') ∧
    ∃ out out', ekf B state meas m0 v0 dt ys = some out ∧ ekf B state (fun x => (a • (meas x).1 + b, a ^ 2 • (meas x).2)) m0 v0 dt (ys.map fun y => a • y + b) = some out' ∧
      ShiftedBy (Real.log |a|) out out' := by
  have ok : UpdateShapeOk dx 1 := Or.inl rfl
  constructor
  · have hp : ∀ c : Belief dx, c.2.PosSemidef → (linearPredict F Sigma c).2.PosSemidef := fun c hc => (psd_conj hc F).add hSig
    refine ⟨_, _, by rw [kf, dif_pos ok], by rw [kf, dif_pos ok], shiftedBy_scan _ _ _ _ _ (fun b => b.2.PosSemidef) (fun c y hc => ?_) (fun c y hc => ?_) _ hv0 ys⟩
    · rw [linearUpdate_scalar B ok _ H _ Xi y (hp c hc) hXi]
      exact kcov_posSemidef H (hp c hc) hXi
    · have := linearUpdate_units B ok (linearPredict F Sigma c) H (H *ᵥ (linearPredict F Sigma c).1) y 0 Xi ha (innov_posDef H (hp c hc) hXi).diag_pos
      rw [add_zero, add_zero, ← smul_mulVec] at this
      exact this
  · have hp : ∀ c : Belief dx, c.2.PosSemidef → (ekfPredict state dt c).2.PosSemidef := fun c hc => (psd_conj hc _).add (hs _)
    refine ⟨_, _, by rw [ekf, dif_pos ok], by rw [ekf, dif_pos ok], shiftedBy_scan _ _ _ _ _ (fun b => b.2.PosSemidef) (fun c y hc => ?_) (fun c y hc => ?_) _ hv0 ys⟩
    · rw [ekfUpdate, linearUpdate_scalar B ok _ _ _ _ y (hp c hc) (hm _)]
      exact kcov_posSemidef _ (hp c hc) (hm _)
    · simp only [ekfUpdate, jac_units (fun u => (meas u).1) ha b]
      exact linearUpdate_units B ok (ekfPredict state dt c) _ _ y b _ ha (innov_posDef _ (hp c hc) (hm _)).diag_pos

section sgp

variable {p q : ℕ} (sgps : SigmaPoints dx)

theorem wcov_affine (h1 : ∑ i, sgps.w i = 1) (u v : Fin sgps.nPoints → ℝ) (s t s' t' : ℝ) :
    wcov sgps (fun i => s * u i + t) (fun i => s' * v i + t') = s * s' * wcov sgps u v := by
  have e : ∀ (x : Fin sgps.nPoints → ℝ) (s t : ℝ), ∑ i, sgps.w i * (s * x i + t) = s * ∑ i, sgps.w i * x i + t := fun x s t => by
    rw [show s * ∑ i, sgps.w i * x i + t = s * ∑ i, sgps.w i * x i + t * ∑ i, sgps.w i by rw [h1, mul_one], Finset.mul_sum, Finset.mul_sum, ← Finset.sum_add_distrib]
    exact Finset.sum_congr rfl fun i _ => by ring
  have e2 : ∑ i, sgps.w i * ((s * u i + t) * (s' * v i + t')) = s * s' * ∑ i, sgps.w i * (u i * v i) + s * t' * ∑ i, sgps.w i * u i + t * s' * ∑ i, sgps.w i * v i + t * t' := by
    rw [show t * t' = t * t' * ∑ i, sgps.w i by rw [h1, mul_one], Finset.mul_sum, Finset.mul_sum, Finset.mul_sum, Finset.mul_sum, ← Finset.sum_add_distrib, ← Finset.sum_add_distrib, ← Finset.sum_add_distrib]
    exact Finset.sum_congr rfl fun i _ => by ring
  simp only [wcov, e, e2]
  ring

theorem cov_apply (a : Fin sgps.nPoints → Fin p → ℝ) (b : Fin sgps.nPoints → Fin q → ℝ) (i : Fin p) (j : Fin q) :
    (sgps.expectation (fun k => vecMulVec (a k) (b k)) - vecMulVec (sgps.expectation a) (sgps.expectation b)) i j = wcov sgps (fun k => a k i) fun k => b k j := by
  simp [SigmaPoints.expectation, wcov, Matrix.sub_apply, Matrix.sum_apply, vecMulVec_apply, Finset.sum_apply]

theorem expectation_affine (h1 : ∑ i, sgps.w i = 1) (D : Matrix (Fin q) (Fin q) ℝ) (b : Fin q → ℝ) (e : Fin sgps.nPoints → Fin q → ℝ) :
    sgps.expectation (fun i => D *ᵥ e i + b) = D *ᵥ sgps.expectation e + b := by
  rw [expectation_add, expectation_mulVec, expectation_const sgps h1]

/-- the measurement model in units `d`, with the offset `b`. -/
def inUnits (d b : Fin dy → ℝ) (meas : (Fin dx → ℝ) → (Fin dy → ℝ) × Matrix (Fin dy) (Fin dy) ℝ) (x : Fin dx → ℝ) : (Fin dy → ℝ) × Matrix (Fin dy) (Fin dy) ℝ :=
  (diagonal d *ᵥ (meas x).1 + b, diagonal d * (meas x).2 * diagonal d)

theorem logMvnPdf_units {L : Matrix (Fin q) (Fin q) ℝ} (hl : IsLower L) (hd : ∀ i, 0 < L i i) (d : Fin q → ℝ) (hpos : ∀ i, 0 < d i) (b y mu : Fin q → ℝ) :
    logMvnPdf (diagonal d *ᵥ y + b) (diagonal d *ᵥ mu + b) (diagonal d * L) = logMvnPdf y mu L - ∑ i, Real.log (d i) := by
  have hl' : IsLower (diagonal d * L) := fun i j hij => by rw [diagonal_mul, hl i j hij, mul_zero]
  have hd' : ∀ i, 0 < (diagonal d * L) i i := fun i => by rw [diagonal_mul]; exact mul_pos (hpos i) (hd i)
  have hz : ∀ {M : Matrix (Fin q) (Fin q) ℝ}, IsLower M → (∀ i, 0 < M i i) → ∀ v : Fin q → ℝ, triSolveDefaultVec M v = fun i => v i / M i i := fun h hd v => by
    rw [triSolveDefaultVec, upperPart_lower h, diagonal_inv (fun i => (hd i).ne')]
    ext i
    rw [vecMul_diagonal, div_eq_mul_inv]
  simp only [logMvnPdf, hz hl' hd', hz hl hd]
  have e1 : (fun i => (diagonal d *ᵥ y + b - (diagonal d *ᵥ mu + b)) i / (diagonal d * L) i i) = fun i => (y - mu) i / L i i := by
    ext i
    simp only [Pi.sub_apply, Pi.add_apply, mulVec_diagonal, diagonal_mul]
    rw [show d i * y i + b i - (d i * mu i + b i) = d i * (y i - mu i) by ring, mul_div_mul_left _ _ (hpos i).ne']
  have e2 : ∑ i, Real.log (Real.sqrt (2 * Real.pi) * (diagonal d * L) i i) = ∑ i, Real.log (d i) + ∑ i, Real.log (Real.sqrt (2 * Real.pi) * L i i) := by
    rw [← Finset.sum_add_distrib]
    refine Finset.sum_congr rfl fun i _ => ?_
    have := hpos i
    have := hd i
    rw [diagonal_mul, ← Real.log_mul (by positivity) (by positivity)]
    congr 1
    ring
  rw [e1, e2]
  ring

theorem sgpUpdate_units {B : Backend} (hB : B.Valid) {sgps : SigmaPoints dx} (hr : SecondOrder sgps.w sgps.xi) (hw : ∀ i, 0 ≤ sgps.w i)
    (meas : (Fin dx → ℝ) → (Fin dy → ℝ) × Matrix (Fin dy) (Fin dy) ℝ) (hm : ∀ x, (meas x).2.PosDef) (d b : Fin dy → ℝ) (hpos : ∀ i, 0 < d i) (p : Belief dx) (hp : p.2.PosDef) (constCov : Bool)
    (y : Fin dy → ℝ) : sgpUpdate B sgps (inUnits d b meas) p (diagonal d *ᵥ y + b) constCov
      = ((sgpUpdate B sgps meas p y constCov).1, (sgpUpdate B sgps meas p y constCov).2 + ∑ i, Real.log (d i)) := by
  have hDu : IsUnit (diagonal d).det := by
    rw [det_diagonal]; exact (Finset.prod_pos fun i _ => hpos i).ne'.isUnit
  have hm' : ∀ x, (inUnits d b meas x).2.PosDef := fun x => by
    have := (hm x).conjTranspose_mul_mul_same (B := diagonal d) (mulVec_injective_of_isUnit ((Matrix.isUnit_iff_isUnit_det _).2 hDu))
    rwa [conjTranspose_eq_transpose_of_trivial, diagonal_transpose] at this
  obtain ⟨hS, -, h⟩ := sgpUpdate_eq hB hr hw meas hm p hp constCov rfl rfl rfl
  obtain ⟨hS', -, h'⟩ := sgpUpdate_eq hB hr hw (inUnits d b meas) hm' p hp constCov rfl rfl rfl
  rw [h', h]
  set chi := sgps.genSigmaPoints p.1 (B.chol (symmetrize p.2)) with hchi
  have eP : (sgps.expectation fun i => (inUnits d b meas (chi i)).1) = diagonal d *ᵥ (sgps.expectation fun i => (meas (chi i)).1) + b := expectation_affine sgps hr.total _ _ _
  have eC : sgps.expectation (fun i => vecMulVec (chi i) (inUnits d b meas (chi i)).1) - vecMulVec p.1 (sgps.expectation fun i => (inUnits d b meas (chi i)).1)
      = (sgps.expectation (fun i => vecMulVec (chi i) (meas (chi i)).1) - vecMulVec p.1 (sgps.expectation fun i => (meas (chi i)).1)) * diagonal d := by
    have e1 : p.1 = sgps.expectation chi := (expectation_chi hr _ _).symm
    ext i j
    rw [e1, mul_diagonal, cov_apply, cov_apply]
    have := wcov_affine sgps hr.total (fun k => chi k i) (fun k => (meas (chi k)).1 j) 1 0 (d j) (b j)
    simp only [one_mul, add_zero] at this
    rw [mul_comm, ← this]
    simp only [inUnits, Pi.add_apply, mulVec_diagonal]
  have eS : sgpInnov B sgps (inUnits d b meas) p constCov = diagonal d * sgpInnov B sgps meas p constCov * diagonal d := by
    simp only [sgpInnov, ← hchi]
    rw [Matrix.mul_add, Matrix.add_mul]
    congr 1
    · ext i j
      rw [mul_diagonal, diagonal_mul, cov_apply, cov_apply]
      have := wcov_affine sgps hr.total (fun k => (meas (chi k)).1 i) (fun k => (meas (chi k)).1 j) (d i) (b i) (d j) (b j)
      rw [mul_right_comm, ← this]
      simp only [inUnits, Pi.add_apply, mulVec_diagonal]
    · rw [dif_pos (nPoints_pos hr), dif_pos (nPoints_pos hr)]
      split_ifs
      · rfl
      · exact expectation_mul sgps _ _ _
  rw [eS] at hS' ⊢
  rw [eC, eP]
  have hL := chol_symm hB hS
  have hL' := chol_symm hB hS'
  generalize sgpInnov B sgps meas p constCov = S at *
  generalize sgps.expectation (fun i => vecMulVec (chi i) (meas (chi i)).1) - vecMulVec p.1 (sgps.expectation fun i => (meas (chi i)).1) = C
  generalize (sgps.expectation fun i => (meas (chi i)).1) = pr
  have eL : B.chol (symmetrize (diagonal d * S * diagonal d)) = diagonal d * B.chol (symmetrize S) := by
    refine hL'.unique ⟨fun i j hij => by rw [diagonal_mul, hL.lower i j hij, mul_zero], fun i => by rw [diagonal_mul]; exact mul_pos (hpos i) (hL.diag_pos i), ?_⟩
    rw [transpose_mul, diagonal_transpose, Matrix.mul_assoc, ← Matrix.mul_assoc (B.chol _), hL.mul_transpose, Matrix.mul_assoc]
  have eK : ((diagonal d * S * diagonal d)⁻¹ * (C * diagonal d)ᵀ)ᵀ = (S⁻¹ * Cᵀ)ᵀ * (diagonal d)⁻¹ := by
    rw [Matrix.mul_inv_rev, Matrix.mul_inv_rev, transpose_mul C, diagonal_transpose]
    rw [show (diagonal d)⁻¹ * (S⁻¹ * (diagonal d)⁻¹) * (diagonal d * Cᵀ) = (diagonal d)⁻¹ * (S⁻¹ * Cᵀ) by
      rw [Matrix.mul_assoc, Matrix.mul_assoc S⁻¹, ← Matrix.mul_assoc (diagonal d)⁻¹ (diagonal d), Matrix.nonsing_inv_mul _ hDu, Matrix.one_mul]]
    rw [transpose_mul, transpose_nonsing_inv, diagonal_transpose]
  rw [eK, eL, logMvnPdf_units hL.lower hL.diag_pos d hpos]
  refine Prod.ext (Prod.ext ?_ ?_) (by simp only; ring)
  · simp only
    rw [show diagonal d *ᵥ y + b - (diagonal d *ᵥ pr + b) = diagonal d *ᵥ (y - pr) by rw [mulVec_sub]; abel, mulVec_mulVec, Matrix.mul_assoc, Matrix.nonsing_inv_mul _ hDu, Matrix.mul_one]
  · simp only
    rw [transpose_mul _ (diagonal d)⁻¹, transpose_nonsing_inv, diagonal_transpose]
    congr 1
    generalize (S⁻¹ * Cᵀ)ᵀ = K
    rw [show K * (diagonal d)⁻¹ * (diagonal d * S * diagonal d) * ((diagonal d)⁻¹ * Kᵀ) = K * ((diagonal d)⁻¹ * diagonal d) * S * (diagonal d * (diagonal d)⁻¹) * Kᵀ by
      simp only [Matrix.mul_assoc], Matrix.nonsing_inv_mul _ hDu, Matrix.mul_nonsing_inv _ hDu, Matrix.mul_one, Matrix.mul_one]

end sgp

/-- **C217 (sigma-point filter).** Measurements of any dimension. Expressing each component of the measurements in other units, `y_i ↦ d_i y_i + b_i` with `d_i > 0`, and the measurement model accordingly,
leaves all filtering means and covariances of `sgp_filter` unchanged and increases the negative log-likelihood by `∑ log d_i` per measurement. -/
theorem C217_sgp (B : Backend) (hB : B.Valid) (sgps : SigmaPoints dx) (hr : SecondOrder sgps.w sgps.xi) (hw : ∀ i, 0 ≤ sgps.w i) (state : (Fin dx → ℝ) → ℝ → Belief dx)
    (meas : (Fin dx → ℝ) → (Fin dy → ℝ) × Matrix (Fin dy) (Fin dy) ℝ) (m0 : Fin dx → ℝ) (v0 : Matrix (Fin dx) (Fin dx) ℝ) (dt : ℝ) (hs : ∀ x, (state x dt).2.PosDef)
    (hm : ∀ x, (meas x).2.PosDef) (d b : Fin dy → ℝ) (hpos : ∀ i, 0 < d i) (ys : List (Fin dy → ℝ)) (constCov : Bool) :
    ShiftedBy (∑ i, Real.log (d i)) (sgpFilter B state meas sgps m0 v0 dt ys constCov)
      (sgpFilter B state (fun x => (fun i => d i * (meas x).1 i + b i, Matrix.of fun i j => d i * (meas x).2 i j * d j)) sgps m0 v0 dt (ys.map fun y i => d i * y i + b i) constCov) := by
  have e1 : (fun x => ((fun i => d i * (meas x).1 i + b i, Matrix.of fun i j => d i * (meas x).2 i j * d j) : (Fin dy → ℝ) × Matrix (Fin dy) (Fin dy) ℝ)) = inUnits d b meas := by
    funext x
    refine Prod.ext ?_ ?_
    · funext i; simp only [inUnits, Pi.add_apply, mulVec_diagonal]
    · ext i j; simp only [inUnits, mul_diagonal, diagonal_mul, Matrix.of_apply]
  have e2 : (fun (y : Fin dy → ℝ) i => d i * y i + b i) = fun y => diagonal d *ᵥ y + b := by
    funext y i; simp only [Pi.add_apply, mulVec_diagonal]
  rw [e1, e2]
  exact shiftedBy_scan _ _ _ _ _ (fun _ => True) (fun _ _ _ => trivial) (fun c y _ => sgpUpdate_units hB hr hw meas hm d b hpos _ (sgpPrediction_posDef (B := B) hr hw state dt hs c) constCov y) _ trivial ys

/-- non-vacuity: a random walk observed in noise, from metres to millimetres with an offset. -/
example (y : Fin 1 → ℝ) : ∃ out out', ekf theBackend (fun x _ => (x, 1)) (fun x : Fin 1 → ℝ => (x, 1)) 0 1 1 [y] = some out ∧
    ekf theBackend (fun x _ => (x, 1)) (fun x : Fin 1 → ℝ => ((1000 : ℝ) • x + 1, (1000 : ℝ) ^ 2 • 1)) 0 1 1 [(1000 : ℝ) • y + 1] = some out' ∧ ShiftedBy (Real.log |1000|) out out' :=
  (C217_kalman theBackend 1 1 1 1 (fun x _ => (x, 1)) (fun x => (x, 1)) 0 1 1 1000 (by norm_num) 1 PosSemidef.one PosSemidef.one PosDef.one (fun _ => PosSemidef.one) (fun _ => PosDef.one) [y]).2

/-- non-vacuity: the cubature rule in two dimensions, two sensors with different units. -/
example (ys : List (Fin 2 → ℝ)) : ShiftedBy (∑ i, Real.log ((![1000, 2] : Fin 2 → ℝ) i)) (sgpFilter theBackend (fun x _ => (x, 1)) (fun x => (x, 1)) (SigmaPoints.cubature 2) 0 1 1 ys false)
    (sgpFilter theBackend (fun x _ => (x, 1)) (fun x => (fun i => (![1000, 2] : Fin 2 → ℝ) i * x i + (![0, 5] : Fin 2 → ℝ) i,
      Matrix.of fun i j => (![1000, 2] : Fin 2 → ℝ) i * (1 : Matrix (Fin 2) (Fin 2) ℝ) i j * (![1000, 2] : Fin 2 → ℝ) j)) (SigmaPoints.cubature 2) 0 1 1
      (ys.map fun y i => (![1000, 2] : Fin 2 → ℝ) i * y i + (![0, 5] : Fin 2 → ℝ) i) false) :=
  C217_sgp theBackend theBackend_valid _ ((C212_rules 2).1 (by norm_num)).1 ((C212_rules 2).1 (by norm_num)).2 (fun x _ => (x, 1)) (fun x => (x, 1)) 0 1 1 (fun _ => PosDef.one) (fun _ => PosDef.one)
    ![1000, 2] ![0, 5] (by intro i; fin_cases i <;> norm_num) ys false

end Mfs.Props

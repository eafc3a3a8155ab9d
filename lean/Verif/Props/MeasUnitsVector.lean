import Verif.Props.MeasUnits
import Verif.Props.Kalman

/-!
# C218: with vector measurements the Kalman filter depends on the units of the measurements
-/

namespace Mfs.Props

open Mfs.Spec Mfs.Classical Matrix

variable {n : ℕ}

theorem kf_one (B : Backend) {dx dy : ℕ} (ok : UpdateShapeOk dx dy) (F Sigma : Matrix (Fin dx) (Fin dx) ℝ) (H : Matrix (Fin dy) (Fin dx) ℝ) (Xi : Matrix (Fin dy) (Fin dy) ℝ) (m0 : Fin dx → ℝ)
    (v0 : Matrix (Fin dx) (Fin dx) ℝ) (y : Fin dy → ℝ) :
    kf B F Sigma H Xi m0 v0 [y] = some [linearUpdate B ok (linearPredict F Sigma (m0, v0)) H (H *ᵥ (linearPredict F Sigma (m0, v0)).1) Xi y] := by
  rw [kf, dif_pos ok, scan_filterBody_cons, scan_filterBody_nil, stepOf]
  simp only [zero_add]

/-- the update in other units: the gain is the same, where it should be divided by `a`. -/
theorem linearUpdate_vector_units (B : Backend) (hB : B.Valid) (ok : UpdateShapeOk n n) (hn : n ≠ 1) (p : Belief n) (hp : p.2.PosSemidef) (H Xi : Matrix (Fin n) (Fin n) ℝ) (hXi : Xi.PosDef)
    (pr y : Fin n → ℝ) {a : ℝ} (ha : 0 < a) {S K : Matrix (Fin n) (Fin n) ℝ} (eS : S = H * p.2 * Hᵀ + Xi) (eK : K = linearGain B ok p.2 H S) :
    linearUpdate B ok p (a • H) (a • pr) (a ^ 2 • Xi) (a • y)
      = ((p.1 + a • (K *ᵥ (y - pr)), p.2 - a ^ 2 • (K * S * Kᵀ)), (linearUpdate B ok p H pr Xi y).2 + n * Real.log a) := by
  have hS : S.PosDef := by rw [eS]; exact innov_posDef H hp hXi
  have hS' : (a ^ 2 • S).PosDef := hS.smul (by positivity)
  have eS' : a • H * p.2 * (a • H)ᵀ + a ^ 2 • Xi = a ^ 2 • S := by
    rw [eS, transpose_smul, Matrix.mul_smul, Matrix.smul_mul, Matrix.smul_mul, smul_smul, smul_add, sq]
  have hL := hB.chol S hS
  have eL : B.chol (a ^ 2 • S) = diagonal (fun _ => a) * B.chol S := by
    refine (hB.chol _ hS').unique ⟨fun i j hij => by rw [diagonal_mul, hL.lower i j hij, mul_zero], fun i => by rw [diagonal_mul]; exact mul_pos ha (hL.diag_pos i), ?_⟩
    rw [show (diagonal fun _ : Fin n => a) = a • (1 : Matrix (Fin n) (Fin n) ℝ) by rw [smul_one_eq_diagonal], Matrix.smul_mul, Matrix.one_mul, transpose_smul, Matrix.mul_smul, Matrix.smul_mul,
      hL.mul_transpose, smul_smul, sq]
  have eG : linearGain B ok p.2 (a • H) (a ^ 2 • S) = K := by
    rw [eK, linearGain_vector B hB ok hn _ _ _ hp hS, linearGain_vector B hB ok hn _ _ _ hp hS', eL]
    ext i j
    rw [diagonal_mul, diagonal_mul, diagonal_mul, transpose_smul, Matrix.mul_smul, Matrix.smul_apply, smul_eq_mul]
    field_simp
  simp only [linearUpdate]
  rw [eS', eG, ← eS]
  refine Prod.ext (Prod.ext ?_ ?_) ?_
  · simp only [← smul_sub, mulVec_smul]
  · simp only [Matrix.mul_smul, Matrix.smul_mul]
  · simp only [linearNell, dif_neg hn]
    rw [symmetrize_psd hS'.posSemidef, symmetrize_psd hS.posSemidef, eL]
    have := logMvnPdf_units hL.lower hL.diag_pos (fun _ : Fin n => a) (fun _ => ha) 0 y pr
    rw [add_zero, add_zero, show (diagonal fun _ : Fin n => a) *ᵥ y = a • y by ext i; simp [mulVec_diagonal], show (diagonal fun _ : Fin n => a) *ᵥ pr = a • pr by ext i; simp [mulVec_diagonal]] at this
    rw [this, Finset.sum_const, Finset.card_univ, Fintype.card_fin, nsmul_eq_mul]
    ring

/-- **C218 (partial).** `n ≥ 2` measurements of `n` states. In units `a > 0` of all measurements the negative log-likelihood that `kf` reports for the first measurement increases by `n log a`, as it should. Missing:
the filtering mean and covariance, which should not change, but of which the corrections are multiplied by `a` and `a²`; and the later measurements, which depend on them (`C218_kf_vector_units_wrong`). -/
theorem C218_kf_vector_units_partial (B : Backend) (hB : B.Valid) (hn : 2 ≤ n) (F Sigma H Xi v0 : Matrix (Fin n) (Fin n) ℝ) (m0 y : Fin n → ℝ) (hv0 : v0.PosSemidef) (hSig : Sigma.PosSemidef) (hXi : Xi.PosDef)
    (a : ℝ) (ha : 0 < a) : ∃ o o', kf B F Sigma H Xi m0 v0 [y] = some [o] ∧ kf B F Sigma (a • H) (a ^ 2 • Xi) m0 v0 [a • y] = some [o'] ∧ o'.2 = o.2 + n * Real.log a ∧
      o'.1.1 - F *ᵥ m0 = a • (o.1.1 - F *ᵥ m0) ∧ o'.1.2 - (F * v0 * Fᵀ + Sigma) = a ^ 2 • (o.1.2 - (F * v0 * Fᵀ + Sigma)) := by
  have ok : UpdateShapeOk n n := Or.inr rfl
  have hp : (linearPredict F Sigma (m0, v0)).2.PosSemidef := (psd_conj hv0 F).add hSig
  refine ⟨_, _, kf_one B ok F Sigma H Xi m0 v0 y, kf_one B ok F Sigma (a • H) (a ^ 2 • Xi) m0 v0 (a • y), ?_⟩
  rw [smul_mulVec, linearUpdate_vector_units B hB ok (by omega) _ hp H Xi hXi _ y ha rfl rfl]
  refine ⟨rfl, ?_, ?_⟩
  · simp only [linearUpdate, linearPredict, add_sub_cancel_left]
  · simp only [linearUpdate, linearPredict, sub_sub_cancel_left, smul_neg]

/-- **C218 (negation).** For every model with `n ≥ 2` measurements of `n` states in which the measurements depend on the state at all there are units in which `kf`, given any first measurement, reports a
covariance that is not positive semidefinite. -/
theorem C218_kf_vector_units_wrong (B : Backend) (hB : B.Valid) (hn : 2 ≤ n) (F Sigma H Xi v0 : Matrix (Fin n) (Fin n) ℝ) (m0 : Fin n → ℝ) (hv0 : v0.PosSemidef) (hSig : Sigma.PosDef) (hXi : Xi.PosDef)
    (hH : H ≠ 0) : ∃ a : ℝ, 0 < a ∧ ∀ y, ∃ o, kf B F Sigma (a • H) (a ^ 2 • Xi) m0 v0 [a • y] = some [o] ∧ ¬ o.1.2.PosSemidef := by
  have ok : UpdateShapeOk n n := Or.inr rfl
  have hP : (linearPredict F Sigma (m0, v0)).2.PosDef := PosDef.posSemidef_add (psd_conj hv0 F) hSig
  have hkf : ∀ a : ℝ, ∀ y, kf B F Sigma (a • H) (a ^ 2 • Xi) m0 v0 [a • y] = some [_] := fun a y => kf_one B ok F Sigma (a • H) (a ^ 2 • Xi) m0 v0 (a • y)
  generalize linearPredict F Sigma (m0, v0) = p at hP hkf
  obtain ⟨S, eS⟩ : ∃ S, S = H * p.2 * Hᵀ + Xi := ⟨_, rfl⟩
  have hS : S.PosDef := by rw [eS]; exact innov_posDef H hP.posSemidef hXi
  obtain ⟨K, eK⟩ : ∃ K, K = linearGain B ok p.2 H S := ⟨_, rfl⟩
  have hL := hB.chol S hS
  have hK : Kᵀ ≠ 0 := by
    intro h0
    apply hH
    have hK0 : K = 0 := by rw [← transpose_transpose K, h0, transpose_zero]
    rw [eK, linearGain_vector B hB ok (by omega) _ _ _ hP.posSemidef hS] at hK0
    have h1 : p.2 * Hᵀ = 0 := by
      ext i j
      have := congrFun (congrFun hK0 i) j
      rw [diagonal_mul, Matrix.zero_apply] at this
      exact (mul_eq_zero.1 this).resolve_left (inv_ne_zero (hL.diag_pos i).ne')
    have h2 : Hᵀ = 0 := by
      have hu : IsUnit p.2.det := (Matrix.isUnit_iff_isUnit_det _).1 hP.isUnit
      rw [← Matrix.one_mul Hᵀ, ← Matrix.nonsing_inv_mul _ hu, Matrix.mul_assoc, h1, Matrix.mul_zero]
    rw [← transpose_transpose H, h2, transpose_zero]
  obtain ⟨x, hx⟩ : ∃ x, Kᵀ *ᵥ x ≠ 0 := by
    by_contra hc
    push Not at hc
    exact hK (Matrix.ext_of_mulVec_single fun i => by rw [hc, zero_mulVec])
  have hq : 0 < x ⬝ᵥ (K * S * Kᵀ) *ᵥ x := by
    have := hS.dotProduct_mulVec_pos hx
    rw [star_trivial] at this
    rwa [← mulVec_mulVec, ← mulVec_mulVec, dotProduct_mulVec, ← mulVec_transpose]
  set q := x ⬝ᵥ (K * S * Kᵀ) *ᵥ x with hqd
  set r := x ⬝ᵥ p.2 *ᵥ x with hrd
  have hr : 0 ≤ r := by
    have := hP.posSemidef.dotProduct_mulVec_nonneg x
    rwa [star_trivial] at this
  have ha : 0 < Real.sqrt ((r + 1) / q) := Real.sqrt_pos.2 (by positivity)
  refine ⟨_, ha, fun y => ⟨_, hkf _ y, fun hc => ?_⟩⟩
  rw [smul_mulVec, linearUpdate_vector_units B hB ok (by omega) p hP.posSemidef H Xi hXi _ y ha eS eK] at hc
  have := hc.dotProduct_mulVec_nonneg x
  rw [star_trivial, sub_mulVec, dotProduct_sub, smul_mulVec, dotProduct_smul, smul_eq_mul, ← hqd, ← hrd, Real.sq_sqrt (by positivity), div_mul_cancel₀ _ hq.ne'] at this
  linarith

/-- non-vacuity: two random walks, both measured. -/
example : ∃ a : ℝ, 0 < a ∧ ∀ y : Fin 2 → ℝ, ∃ o, kf theBackend (1 : Matrix (Fin 2) (Fin 2) ℝ) 1 (a • 1) (a ^ 2 • 1) 0 1 [a • y] = some [o] ∧ ¬ o.1.2.PosSemidef :=
  C218_kf_vector_units_wrong theBackend theBackend_valid le_rfl 1 1 1 1 1 0 PosSemidef.one PosDef.one PosDef.one one_ne_zero

/-! ## the continuous-discrete filter -/

section cd

variable {dx dw : ℕ}

theorem linearUpdate_units_fst (B : Backend) (ok : UpdateShapeOk dx 1) (p : Belief dx) (H : Matrix (Fin 1) (Fin dx) ℝ) (pr y b : Fin 1 → ℝ) (Xi : Matrix (Fin 1) (Fin 1) ℝ) {a : ℝ} (ha : a ≠ 0) :
    (linearUpdate B ok p (a • H) (a • pr + b) (a ^ 2 • Xi) (a • y + b)).1 = (linearUpdate B ok p H pr Xi y).1 := by
  have eS : a • H * p.2 * (a • H)ᵀ + a ^ 2 • Xi = a ^ 2 • (H * p.2 * Hᵀ + Xi) := by
    rw [transpose_smul, Matrix.mul_smul, Matrix.smul_mul, Matrix.smul_mul, smul_smul, smul_add, sq]
  have eK : linearGain B ok p.2 (a • H) (a ^ 2 • (H * p.2 * Hᵀ + Xi)) = a⁻¹ • linearGain B ok p.2 H (H * p.2 * Hᵀ + Xi) := by
    rw [linearGain, dif_pos rfl, linearGain, dif_pos rfl]
    ext i j
    rw [transpose_smul, Matrix.mul_smul]
    simp only [Matrix.of_apply, Matrix.smul_apply, smul_eq_mul]
    field_simp
  simp only [linearUpdate]
  rw [eS, eK, show a • y + b - (a • pr + b) = a • (y - pr) by rw [smul_sub]; abel]
  refine Prod.ext ?_ ?_
  · simp only [smul_mulVec, mulVec_smul, smul_smul, mul_inv_cancel₀ ha, one_smul]
  · simp only [transpose_smul, Matrix.mul_smul, Matrix.smul_mul, smul_smul]
    rw [show a⁻¹ * (a ^ 2 * a⁻¹) = 1 by field_simp, one_smul]

theorem scan_filterBody_fst {Y : Type} (predict : Belief dx → Belief dx) (update update' : Belief dx → Y → Belief dx × ℝ) (g : Y → Y) (hu : ∀ p y, (update' p (g y)).1 = (update p y).1)
    (b : Belief dx) (n n' : ℝ) (ys : List Y) :
    (scan (filterBody predict update') (b, n') (ys.map g)).2.map Prod.fst = (scan (filterBody predict update) (b, n) ys).2.map Prod.fst := by
  induction ys generalizing b n n' with
  | nil => rfl
  | cons y ys ih =>
    rw [List.map_cons, scan_filterBody_cons, scan_filterBody_cons, List.map_cons, List.map_cons]
    simp only [stepOf, hu]
    rw [ih]

/-- **C217 (continuous-discrete Kalman filter).** The filtering means and covariances of `cd_ekf` with scalar measurements do not depend on the units and the origin of the measurements, for every model, step and
initial belief (also where Runge-Kutta leaves the positive semidefinite matrices). -/
theorem C217_cd_ekf (B : Backend) (drift : (Fin dx → ℝ) → Fin dx → ℝ) (dispersion : (Fin dx → ℝ) → Matrix (Fin dx) (Fin dw) ℝ) (meas : (Fin dx → ℝ) → (Fin 1 → ℝ) × Matrix (Fin 1) (Fin 1) ℝ)
    (m0 : Fin dx → ℝ) (v0 : Matrix (Fin dx) (Fin dx) ℝ) (dt a : ℝ) (ha : a ≠ 0) (b : Fin 1 → ℝ) (ys : List (Fin 1 → ℝ)) :
    ∃ out out', cdEkf B drift dispersion meas m0 v0 dt ys = some out ∧ cdEkf B drift dispersion (fun x => (a • (meas x).1 + b, a ^ 2 • (meas x).2)) m0 v0 dt (ys.map fun y => a • y + b) = some out' ∧
      out'.map Prod.fst = out.map Prod.fst := by
  have ok : UpdateShapeOk dx 1 := Or.inl rfl
  refine ⟨_, _, by rw [cdEkf, dif_pos ok], by rw [cdEkf, dif_pos ok], scan_filterBody_fst _ _ _ _ (fun p y => ?_) _ _ _ ys⟩
  simp only [ekfUpdate, jac_units (fun u => (meas u).1) ha b]
  exact linearUpdate_units_fst B ok p _ _ y b _ ha

end cd

end Mfs.Props

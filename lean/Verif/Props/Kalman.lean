import Verif.Lemmas.Gaussian
import Mathlib.Analysis.Complex.ExponentialBounds

/-!
# C67 – C70: Kalman filter, normal log-density and RTS smoother
-/

namespace Mfs.Props

open Matrix Mfs.Spec Mfs.Classical

variable {dx dy : ℕ}

/-! ## C67 -/

/-- **C67.** With scalar measurements `kf` never fails and returns one record per measurement. Let `prev` be the record
before step `k` (or the initial state), `mp = F m`, `Pp = F P Fᵀ + Sigma` the predicted moments and `S = H Pp Hᵀ + Xi`.
* The covariances stay symmetric positive semidefinite, and the update never increases them;
* if `Pp` is non-degenerate the step is Bayes' rule with the exact evidence: for all `x`,
  `N(x; mp, Pp) N(y; H x, Xi) = exp(-inc) N(x; m, P)`, where `inc` is the increment of the reported negative
  log-likelihood, and `exp(-inc)` is the density `N(y; H mp, S)` of the measurement. -/
theorem C67_kf_scalar (B : Backend) (F Sigma : Matrix (Fin dx) (Fin dx) ℝ) (H : Matrix (Fin 1) (Fin dx) ℝ)
    (Xi : Matrix (Fin 1) (Fin 1) ℝ) (m0 : Fin dx → ℝ) (v0 : Matrix (Fin dx) (Fin dx) ℝ) (ys : List (Fin 1 → ℝ))
    (hv0 : v0.PosSemidef) (hSig : Sigma.PosSemidef) (hXi : Xi.PosDef) :
    ∃ out, kf B F Sigma H Xi m0 v0 ys = some out ∧ out.length = ys.length ∧
      ∀ (k : ℕ) (prev o : Belief dx × ℝ) (y : Fin 1 → ℝ), (((m0, v0), 0) :: out)[k]? = some prev → out[k]? = some o →
        ys[k]? = some y →
        (F * prev.1.2 * Fᵀ + Sigma).PosSemidef ∧ o.1.2.PosSemidef ∧ (F * prev.1.2 * Fᵀ + Sigma - o.1.2).PosSemidef ∧
        ((F * prev.1.2 * Fᵀ + Sigma).PosDef → o.1.2.PosDef ∧
          Real.exp (-(o.2 - prev.2)) = mvnPdf (H *ᵥ (F *ᵥ prev.1.1)) (H * (F * prev.1.2 * Fᵀ + Sigma) * Hᵀ + Xi) y ∧
          ∀ x, mvnPdf (F *ᵥ prev.1.1) (F * prev.1.2 * Fᵀ + Sigma) x * mvnPdf (H *ᵥ x) Xi y
            = Real.exp (-(o.2 - prev.2)) * mvnPdf o.1.1 o.1.2 x) := by
  have ok : UpdateShapeOk dx 1 := Or.inl rfl
  refine ⟨_, by rw [kf, dif_pos ok], scan_filterBody_length _ _ _ _, ?_⟩
  intro k prev o y hp ho hy
  have hpsd : ∀ b : Belief dx, b.2.PosSemidef → (linearPredict F Sigma b).2.PosSemidef :=
    fun b hb => (psd_conj hb F).add hSig
  have hinv := scan_filterBody_inv (linearPredict F Sigma) (fun p y => linearUpdate B ok p H (H *ᵥ p.1) Xi y)
    (fun b => b.2.PosSemidef) (fun c y hc => by
      rw [linearUpdate_scalar B ok _ H _ Xi y (hpsd c hc) hXi]
      exact kcov_posSemidef H (hpsd c hc) hXi) ((m0, v0), 0) hv0 ys
  have hprev : prev.1.2.PosSemidef := hinv prev (List.mem_of_getElem? hp)
  have hs := scan_filterBody_get _ _ _ _ _ _ _ _ hp hy ho
  have hPp := hpsd prev.1 hprev
  have hPp' : (F * prev.1.2 * Fᵀ + Sigma).PosSemidef := hPp
  rw [stepOf, linearUpdate_scalar B ok _ H _ Xi y hPp hXi] at hs
  subst hs
  refine ⟨hPp, kcov_posSemidef H hPp hXi, kcov_le H hPp hXi, fun hpd => ⟨kcov_posDef H hpd hXi, ?_⟩⟩
  have hn : Real.exp (-(prev.2 + linearNell B (H *ᵥ (linearPredict F Sigma prev.1).1)
      (innov (linearPredict F Sigma prev.1).2 H Xi) y - prev.2))
      = mvnPdf (H *ᵥ (F *ᵥ prev.1.1)) (H * (F * prev.1.2 * Fᵀ + Sigma) * Hᵀ + Xi) y := by
    rw [add_sub_cancel_left, linearNell_scalar B _ y (innov_posDef H hPp hXi)]
    rfl
  refine ⟨hn, fun x => ?_⟩
  simp only
  rw [hn]
  exact bayes_identity H hpd hXi (F *ᵥ prev.1.1) x y

example : (1 : Matrix (Fin 2) (Fin 2) ℝ).PosSemidef ∧ (1 : Matrix (Fin 1) (Fin 1) ℝ).PosDef ∧
    ((1 : Matrix (Fin 2) (Fin 2) ℝ) * 1 * (1 : Matrix (Fin 2) (Fin 2) ℝ)ᵀ + 1).PosDef :=
  ⟨PosSemidef.one, PosDef.one, by
    rw [Matrix.transpose_one, Matrix.mul_one, Matrix.mul_one]; exact PosDef.one.add PosDef.one⟩

/-- the covariance recursion of `kf` with scalar measurements. -/
theorem kf_cov_recursion (B : Backend) (F Sigma : Matrix (Fin dx) (Fin dx) ℝ) (H : Matrix (Fin 1) (Fin dx) ℝ)
    (Xi : Matrix (Fin 1) (Fin 1) ℝ) (m0 : Fin dx → ℝ) (v0 : Matrix (Fin dx) (Fin dx) ℝ) (ys : List (Fin 1 → ℝ))
    (hv0 : v0.PosDef) (hSig : Sigma.PosDef) (hXi : Xi.PosDef) :
    ∃ out, kf B F Sigma H Xi m0 v0 ys = some out ∧ out.length = ys.length ∧
      ∀ (k : ℕ) (prev o : Belief dx × ℝ), (((m0, v0), 0) :: out)[k]? = some prev → out[k]? = some o →
        prev.1.2.PosDef ∧ o.1.2.PosDef ∧
        o.1.2 = (F * prev.1.2 * Fᵀ + Sigma) - (F * prev.1.2 * Fᵀ + Sigma) * Hᵀ
          * (H * (F * prev.1.2 * Fᵀ + Sigma) * Hᵀ + Xi)⁻¹ * (H * (F * prev.1.2 * Fᵀ + Sigma)) := by
  have ok : UpdateShapeOk dx 1 := Or.inl rfl
  refine ⟨_, by rw [kf, dif_pos ok], scan_filterBody_length _ _ _ _, ?_⟩
  intro k prev o hp ho
  have hpd : ∀ b : Belief dx, b.2.PosDef → (linearPredict F Sigma b).2.PosDef :=
    fun b hb => PosDef.posSemidef_add (psd_conj hb.posSemidef F) hSig
  have hinv := scan_filterBody_inv (linearPredict F Sigma) (fun p y => linearUpdate B ok p H (H *ᵥ p.1) Xi y)
    (fun b => b.2.PosDef) (fun c y hc => by
      rw [linearUpdate_scalar B ok _ H _ Xi y (hpd c hc).posSemidef hXi]
      exact kcov_posDef H (hpd c hc) hXi) ((m0, v0), 0) hv0 ys
  have hprev : prev.1.2.PosDef := hinv prev (List.mem_of_getElem? hp)
  have hk : k < ys.length := by
    have := (List.getElem?_eq_some_iff.1 ho).1
    rwa [scan_filterBody_length] at this
  have hs := scan_filterBody_get _ _ _ _ _ _ _ _ hp (List.getElem?_eq_getElem hk) ho
  have hPp := hpd prev.1 hprev
  rw [stepOf, linearUpdate_scalar B ok _ H _ Xi _ hPp.posSemidef hXi] at hs
  subst hs
  exact ⟨hprev, kcov_posDef H hPp hXi, kcov_eq H hPp.posSemidef hXi⟩

/-! ## C69 -/

/-- **C69 (what the code computes).** `_log_mvn_pdf` only reads the diagonal of the Cholesky factor: it is the
log-density of independent normals with variances `chol[i, i] ** 2`. -/
theorem C69_log_mvn_value (x mu : Fin dy → ℝ) (chol : Matrix (Fin dy) (Fin dy) ℝ) (hl : IsLower chol) (hd : ∀ i, 0 < chol i i) :
    logMvnPdf x mu chol = Real.log (mvnPdf mu (diagonal fun i => chol i i ^ 2) x) := by
  rw [← exp_logMvnPdf x mu hl hd, Real.log_exp]

/-- **C69 (partial).** It is the log-density of `N(mu, chol cholᵀ)` when `chol` is diagonal. Missing: non-diagonal
factors, for which it is false (`C69_log_mvn_wrong`). -/
theorem C69_log_mvn_partial (x mu : Fin dy → ℝ) (chol : Matrix (Fin dy) (Fin dy) ℝ) (hl : ∀ i j, i ≠ j → chol i j = 0)
    (hd : ∀ i, 0 < chol i i) : logMvnPdf x mu chol = Real.log (mvnPdf mu (chol * cholᵀ) x) := by
  rw [C69_log_mvn_value x mu chol (fun i j h => hl i j h.ne) hd]
  congr 2
  have : chol = diagonal fun i => chol i i := by
    ext i j
    by_cases e : i = j
    · subst e; simp
    · rw [hl i j e, diagonal_apply_ne _ e]
  conv_rhs => rw [this, diagonal_transpose, diagonal_mul_diagonal]
  congr 1; ext i; exact sq _

/-- **C69 (negation).** The log-density of `N(0, L Lᵀ)` with `L = [[1, 0], [1, 1]]` at `(1, 0)` is wrong. -/
theorem C69_log_mvn_wrong : ∃ (x mu : Fin 2 → ℝ) (chol : Matrix (Fin 2) (Fin 2) ℝ), IsLower chol ∧ (∀ i, 0 < chol i i) ∧
    logMvnPdf x mu chol ≠ Real.log (mvnPdf mu (chol * cholᵀ) x) := by
  have hl : IsLower (!![1, 0; 1, 1] : Matrix (Fin 2) (Fin 2) ℝ) := by
    intro i j h
    fin_cases i <;> fin_cases j <;> simp_all
  have hd : ∀ i, 0 < (!![1, 0; 1, 1] : Matrix (Fin 2) (Fin 2) ℝ) i i := by intro i; fin_cases i <;> simp
  refine ⟨![1, 0], ![0, 0], !![1, 0; 1, 1], hl, hd, ?_⟩
  rw [C69_log_mvn_value _ _ _ hl hd]
  have hdiag : (diagonal fun i => (!![1, 0; 1, 1] : Matrix (Fin 2) (Fin 2) ℝ) i i ^ 2) = 1 := by
    ext i j; fin_cases i <;> fin_cases j <;> simp
  have hinv : ((!![1, 0; 1, 1] : Matrix (Fin 2) (Fin 2) ℝ) * (!![1, 0; 1, 1] : Matrix (Fin 2) (Fin 2) ℝ)ᵀ)⁻¹ = !![2, -1; -1, 1] := by
    have hprod : (!![1, 0; 1, 1] : Matrix (Fin 2) (Fin 2) ℝ) * (!![1, 0; 1, 1] : Matrix (Fin 2) (Fin 2) ℝ)ᵀ = !![1, 1; 1, 2] := by
      ext i j
      rw [Matrix.mul_apply, Fin.sum_univ_two]
      fin_cases i <;> fin_cases j <;> norm_num
    rw [hprod]
    apply Matrix.inv_eq_right_inv
    ext i j
    rw [Matrix.mul_apply, Fin.sum_univ_two]
    fin_cases i <;> fin_cases j <;> norm_num
  have hdet : ((!![1, 0; 1, 1] : Matrix (Fin 2) (Fin 2) ℝ) * (!![1, 0; 1, 1] : Matrix (Fin 2) (Fin 2) ℝ)ᵀ).det = 1 := by
    rw [Matrix.det_mul, Matrix.det_transpose, Matrix.det_fin_two_of]; norm_num
  have h2 : 0 < Real.sqrt ((2 * Real.pi) ^ 2 * 1) := Real.sqrt_pos.2 (by positivity)
  intro h
  have := Real.log_injOn_pos (by
    rw [hdiag, mvnPdf, det_one]; exact div_pos (Real.exp_pos _) h2) (by rw [mvnPdf, hdet]; exact div_pos (Real.exp_pos _) h2) h
  rw [hdiag, mvnPdf, mvnPdf, hinv, hdet, det_one, div_left_inj' h2.ne'] at this
  have := Real.exp_injective this
  norm_num [dotProduct, Matrix.mulVec, Fin.sum_univ_two, inv_one, Matrix.one_apply] at this

/-! ## C68 -/

/-- **C68 (shape error).** With `dy ≥ 2` measurements and a state of another dimension, `kf` raises. -/
theorem C68_kf_vector_shape (B : Backend) (F Sigma : Matrix (Fin dx) (Fin dx) ℝ) (H : Matrix (Fin dy) (Fin dx) ℝ)
    (Xi : Matrix (Fin dy) (Fin dy) ℝ) (m0 : Fin dx → ℝ) (v0 : Matrix (Fin dx) (Fin dx) ℝ) (ys : List (Fin dy → ℝ))
    (h2 : 2 ≤ dy) (hne : dx ≠ dy) : kf B F Sigma H Xi m0 v0 ys = none := by
  rw [kf, dif_neg]
  rintro (h | h)
  · omega
  · exact hne h

/-- the gain used when `dx = dy ≥ 2`. -/
theorem linearGain_vector {n : ℕ} (B : Backend) (hB : B.Valid) (ok : UpdateShapeOk n n) (hn : n ≠ 1) (P H S : Matrix (Fin n) (Fin n) ℝ)
    (hP : P.PosSemidef) (hS : S.PosDef) :
    linearGain B ok P H S = (diagonal fun i => (B.chol S i i)⁻¹) * (P * Hᵀ) := by
  have hc := hB.chol S hS
  rw [linearGain, dif_neg hn]
  simp only
  rw [symmetrize_psd hS.posSemidef]
  have e : ((H * P).submatrix id (Fin.cast (ok.resolve_left hn).symm)) = H * P := by
    ext i j; rfl
  rw [e, triSolveDefault, upperPart_lower hc.lower, diagonal_inv (fun i => (hc.diag_pos i).ne')]
  ext i j
  simp only [submatrix_apply, transpose_apply, mul_diagonal, diagonal_mul, id_eq, Fin.cast_eq_self]
  rw [mul_comm]
  congr 1
  have : (H * P)ᵀ = P * Hᵀ := by rw [transpose_mul, hP.symm]
  rw [← this]; rfl

/-- **C68 (partial).** With `dx = dy ≥ 2`, an update whose innovation covariance `S = H P Hᵀ + Xi` is the identity is
Bayes' rule. Missing: every other `S`; then the property is false (`C68_kf_vector_wrong`). -/
theorem C68_kf_vector_partial {n : ℕ} (hn : n ≠ 1) (B : Backend) (hB : B.Valid) (ok : UpdateShapeOk n n) (p : Belief n)
    (H Xi : Matrix (Fin n) (Fin n) ℝ) (y : Fin n → ℝ) (hP : p.2.PosDef) (hXi : Xi.PosDef) (hS : H * p.2 * Hᵀ + Xi = 1) (x : Fin n → ℝ) :
    mvnPdf p.1 p.2 x * mvnPdf (H *ᵥ x) Xi y = Real.exp (-(linearUpdate B ok p H (H *ᵥ p.1) Xi y).2)
      * mvnPdf (linearUpdate B ok p H (H *ᵥ p.1) Xi y).1.1 (linearUpdate B ok p H (H *ᵥ p.1) Xi y).1.2 x := by
  have hS1 : innov p.2 H Xi = 1 := hS
  have hc : B.chol (1 : Matrix (Fin n) (Fin n) ℝ) = 1 := by
    refine (hB.chol _ PosDef.one).unique ⟨fun i j h => one_apply_ne h.ne, fun i => by simp, by simp⟩
  have hg : linearGain B ok p.2 H (1 : Matrix (Fin n) (Fin n) ℝ) = kgain p.2 H Xi := by
    rw [linearGain_vector B hB ok hn _ _ _ hP.posSemidef PosDef.one, hc, kgain, hS1]
    simp
  have hu : linearUpdate B ok p H (H *ᵥ p.1) Xi y
      = ((p.1 + kgain p.2 H Xi *ᵥ (y - H *ᵥ p.1), kcov p.2 H Xi), linearNell B (H *ᵥ p.1) 1 y) := by
    simp only [linearUpdate]
    rw [hS, hg, kcov, hS1]
  rw [hu]
  simp only
  rw [bayes_identity H hP hXi, hS1]
  congr 1
  rw [linearNell, dif_neg hn, neg_neg, symmetrize_psd PosDef.one.posSemidef, hc,
    exp_logMvnPdf _ _ (fun i j h => one_apply_ne h.ne) (fun i => by simp)]
  congr 1
  ext i j
  by_cases e : i = j
  · subst e; simp
  · rw [diagonal_apply_ne _ e, one_apply_ne e]

/-- **C68 (negation).** Two-dimensional model `F = 0`, `Sigma = I/2`, `H = I`, `Xi = 7/2 I` and measurement `y = 0`. `kf`
reports the covariance `I/4` instead of `7/16 I`, and the reported posterior is not proportional to prior times
likelihood. -/
theorem C68_kf_vector_wrong (B : Backend) (hB : B.Valid) :
    ∃ (F Sigma H Xi v0 : Matrix (Fin 2) (Fin 2) ℝ) (m0 y : Fin 2 → ℝ) (o : Belief 2 × ℝ),
      v0.PosDef ∧ Sigma.PosDef ∧ Xi.PosDef ∧ kf B F Sigma H Xi m0 v0 [y] = some [o] ∧ o.1.2.PosDef ∧
      ¬ ∃ c : ℝ, ∀ x, mvnPdf (F *ᵥ m0) (F * v0 * Fᵀ + Sigma) x * mvnPdf (H *ᵥ x) Xi y = c * mvnPdf o.1.1 o.1.2 x := by
  have ok : UpdateShapeOk 2 2 := Or.inr rfl
  have pdsmul : ∀ c : ℝ, 0 < c → (c • (1 : Matrix (Fin 2) (Fin 2) ℝ)).PosDef := fun c hc => PosDef.one.smul hc
  have invsmul : ∀ c : ℝ, c ≠ 0 → (c • (1 : Matrix (Fin 2) (Fin 2) ℝ))⁻¹ = c⁻¹ • 1 := by
    intro c hc
    apply Matrix.inv_eq_right_inv
    rw [Matrix.smul_mul, Matrix.mul_smul, Matrix.mul_one, smul_smul, mul_inv_cancel₀ hc, one_smul]
  have hS : (1 : Matrix (Fin 2) (Fin 2) ℝ) * ((0 : Matrix (Fin 2) (Fin 2) ℝ) * 1 * (0 : Matrix (Fin 2) (Fin 2) ℝ)ᵀ + (1 / 2 : ℝ) • 1)
      * (1 : Matrix (Fin 2) (Fin 2) ℝ)ᵀ + (7 / 2 : ℝ) • 1 = (4 : ℝ) • 1 := by
    rw [Matrix.zero_mul, Matrix.zero_mul, zero_add, Matrix.one_mul, Matrix.transpose_one, Matrix.mul_one, ← add_smul]
    norm_num
  have hc : B.chol ((4 : ℝ) • (1 : Matrix (Fin 2) (Fin 2) ℝ)) = (2 : ℝ) • 1 := by
    refine (hB.chol _ (pdsmul 4 (by norm_num))).unique ⟨fun i j h => ?_, fun i => ?_, ?_⟩
    · rw [Matrix.smul_apply, one_apply_ne h.ne, smul_zero]
    · simp
    · rw [transpose_smul, transpose_one, Matrix.smul_mul, Matrix.mul_smul, smul_smul, Matrix.mul_one]; norm_num
  have hv : (0 : Matrix (Fin 2) (Fin 2) ℝ) * 1 * (0 : Matrix (Fin 2) (Fin 2) ℝ)ᵀ + (1 / 2 : ℝ) • 1 = (1 / 2 : ℝ) • 1 := by
    rw [Matrix.zero_mul, Matrix.zero_mul, zero_add]
  have hK : linearGain B ok ((1 / 2 : ℝ) • 1) 1 ((4 : ℝ) • (1 : Matrix (Fin 2) (Fin 2) ℝ)) = (1 / 4 : ℝ) • 1 := by
    rw [linearGain_vector B hB ok (by norm_num) _ _ _ (pdsmul _ (by norm_num)).posSemidef (pdsmul _ (by norm_num)), hc]
    ext i j
    rw [diagonal_mul, transpose_one, Matrix.mul_one]
    simp only [Matrix.smul_apply, smul_eq_mul, one_apply_eq]
    ring
  have hkf : ∃ o, kf B 0 ((1 / 2 : ℝ) • 1) 1 ((7 / 2 : ℝ) • 1) 0 (1 : Matrix (Fin 2) (Fin 2) ℝ) [(0 : Fin 2 → ℝ)]
      = some [o] ∧ o.1 = (0, (1 / 4 : ℝ) • 1) := by
    refine ⟨_, by rw [kf, dif_pos ok, scan_filterBody_cons, scan_filterBody_nil], ?_⟩
    simp only [stepOf, linearPredict, linearUpdate]
    rw [hS, hv, hK]
    simp only [Matrix.mulVec_zero, sub_zero, add_zero]
    rw [transpose_smul, transpose_one]
    simp only [Matrix.mul_smul, Matrix.mul_one, smul_smul, ← sub_smul]
    norm_num
  obtain ⟨o, hkf, ho⟩ := hkf
  refine ⟨0, (1 / 2 : ℝ) • 1, 1, (7 / 2 : ℝ) • 1, 1, 0, 0, _, PosDef.one, pdsmul _ (by norm_num), pdsmul _ (by norm_num), hkf,
    by rw [ho]; exact pdsmul _ (by norm_num), ?_⟩
  rintro ⟨c, h⟩
  rw [hv, ho] at h
  simp only [Matrix.mulVec_zero, Matrix.one_mulVec] at h
  have hdpos : ∀ c : ℝ, 0 < c → 0 < Real.sqrt ((2 * Real.pi) ^ 2 * (c • (1 : Matrix (Fin 2) (Fin 2) ℝ)).det) := by
    intro c hc
    apply Real.sqrt_pos.2
    have := (pdsmul c hc).det_pos
    positivity
  have hpdf : ∀ (c : ℝ), 0 < c → ∃ z : ℝ, 0 < z ∧ ∀ m x : Fin 2 → ℝ,
      mvnPdf m (c • (1 : Matrix (Fin 2) (Fin 2) ℝ)) x = z * Real.exp (-(c⁻¹ * ((x - m) ⬝ᵥ (x - m))) / 2) := by
    intro c hc
    refine ⟨_, inv_pos.2 (hdpos c hc), fun m x => ?_⟩
    rw [mvnPdf, invsmul c hc.ne', smul_mulVec, one_mulVec, dotProduct_smul, smul_eq_mul, div_eq_mul_inv]
    ring
  obtain ⟨z1, hz1, f1⟩ := hpdf (1 / 2) (by norm_num)
  obtain ⟨z2, hz2, f2⟩ := hpdf (7 / 2) (by norm_num)
  obtain ⟨z3, hz3, f3⟩ := hpdf (1 / 4) (by norm_num)
  have ha := h 0
  have hb := h ![1, 0]
  simp only [f1, f2, f3] at ha hb
  simp only [sub_zero, zero_sub, dotProduct_zero, mul_zero, neg_zero, zero_div, Real.exp_zero, mul_one] at ha hb
  norm_num [dotProduct, Fin.sum_univ_two] at hb
  have hc3 : c * z3 = z1 * z2 := by linarith
  have hne : z1 * z2 ≠ 0 := by positivity
  have hexp : Real.exp (-1) * Real.exp (-(1 / 7)) = Real.exp (-2) := by
    apply mul_left_cancel₀ hne
    calc z1 * z2 * (Real.exp (-1) * Real.exp (-(1 / 7))) = z1 * Real.exp (-1) * (z2 * Real.exp (-(1 / 7))) := by ring
      _ = c * (z3 * Real.exp (-2)) := by convert hb using 3
      _ = z1 * z2 * Real.exp (-2) := by rw [← hc3]; ring
  rw [← Real.exp_add] at hexp
  have := Real.exp_injective hexp
  norm_num at this

/-! ## C70 -/

/-- one smoothing step in closed form. -/
theorem rts_step (B : Backend) (hB : B.Valid) (F Sigma : Matrix (Fin dx) (Fin dx) ℝ) (f s : Belief dx) (hf : f.2.PosSemidef)
    (hp : (F * f.2 * Fᵀ + Sigma).PosDef) :
    gaussianSmootherShared B (F * f.2) f (linearPredict F Sigma f) s
      = (f.1 + kgain f.2 F Sigma *ᵥ (s.1 - F *ᵥ f.1),
        kcov f.2 F Sigma + kgain f.2 F Sigma * s.2 * (kgain f.2 F Sigma)ᵀ) := by
  have hG : (choSolve (B.chol (linearPredict F Sigma f).2) (F * f.2))ᵀ = kgain f.2 F Sigma := by
    rw [show (linearPredict F Sigma f).2 = F * f.2 * Fᵀ + Sigma from rfl, choSolve_eq (hB.chol _ hp),
      ← transpose_transpose (kgain f.2 F Sigma), kgain_transpose' F hf hp]
    rfl
  simp only [gaussianSmootherShared, hG]
  refine Prod.ext rfl ?_
  simp only [kcov, Matrix.mul_sub, Matrix.sub_mul]
  rw [show (linearPredict F Sigma f).2 = innov f.2 F Sigma from rfl]
  abel

/-- **C70.** `rts` fails exactly on empty input. Otherwise, for positive semidefinite filtering covariances with
non-degenerate predictions it returns one record per step, the last one being the last filtering record, and all
smoothed covariances are symmetric positive semidefinite. If moreover every filtering covariance is at most the
covariance predicted from the previous step, no smoothed covariance exceeds the filtering covariance. -/
theorem C70_rts (B : Backend) (hB : B.Valid) (F Sigma : Matrix (Fin dx) (Fin dx) ℝ) (hSig : Sigma.PosSemidef)
    (fs : List (Belief dx)) (hfs : ∀ f ∈ fs, f.2.PosSemidef) (hpd : ∀ f ∈ fs, (F * f.2 * Fᵀ + Sigma).PosDef) :
    (rts B F Sigma fs = none ↔ fs = []) ∧
    ∀ ss, rts B F Sigma fs = some ss →
      ss.length = fs.length ∧ ss.getLast? = fs.getLast? ∧ (∀ s ∈ ss, s.2.PosSemidef) ∧
      ((∀ (k : ℕ) (f f' : Belief dx), fs[k]? = some f → fs[k + 1]? = some f' → (F * f.2 * Fᵀ + Sigma - f'.2).PosSemidef) →
        ∀ (k : ℕ) (f s : Belief dx), fs[k]? = some f → ss[k]? = some s → (f.2 - s.2).PosSemidef) := by
  rw [rts, smoothWith_eq]
  refine ⟨by split_ifs <;> simp_all, fun ss hss => ?_⟩
  have hne : fs ≠ [] := by rintro rfl; simp at hss
  rw [if_neg hne, Option.some.injEq] at hss
  subst hss
  refine ⟨smoothRec_length _ _, smoothRec_last _ _, ?_, ?_⟩
  · clear hne
    induction fs with
    | nil => intro s hs; simp [smoothRec] at hs
    | cons f fs ih =>
      have hf := hfs f List.mem_cons_self
      have hp := hpd f List.mem_cons_self
      have ih := ih (fun g hg => hfs g (List.mem_cons_of_mem _ hg)) (fun g hg => hpd g (List.mem_cons_of_mem _ hg))
      rw [smoothRec]
      cases h : smoothRec (fun f s => gaussianSmootherShared B (F * f.2) f (linearPredict F Sigma f) s) fs with
      | nil =>
        intro s hs
        rw [List.mem_singleton.1 hs]; exact hf
      | cons t ts =>
        rw [h] at ih
        intro s hs
        rcases List.mem_cons.1 hs with rfl | hs
        · rw [rts_step B hB F Sigma f t hf hp]
          exact (kcov_posSemidef' F hf hSig hp).add (psd_conj (ih t List.mem_cons_self) _)
        · exact ih s hs
  · clear hne
    intro hmono
    induction fs with
    | nil => intro k f s hf; simp at hf
    | cons g fs ih =>
      have hg := hfs g List.mem_cons_self
      have hp := hpd g List.mem_cons_self
      have ih := ih (fun g hg => hfs g (List.mem_cons_of_mem _ hg)) (fun g hg => hpd g (List.mem_cons_of_mem _ hg))
        (fun k f f' h1 h2 => hmono (k + 1) f f' (by simpa using h1) (by simpa using h2))
      intro k f s hf hs
      rw [smoothRec] at hs
      have hlen := smoothRec_length (fun f s => gaussianSmootherShared B (F * f.2) f (linearPredict F Sigma f) s) fs
      cases h : smoothRec (fun f s => gaussianSmootherShared B (F * f.2) f (linearPredict F Sigma f) s) fs with
      | nil =>
        rw [h] at hs hlen
        have : fs = [] := List.eq_nil_of_length_eq_zero (by simpa using hlen.symm)
        subst this
        cases k with
        | zero =>
          simp only [List.getElem?_cons_zero, Option.some.injEq] at hf hs
          rw [← hf, ← hs, sub_self]; exact PosSemidef.zero
        | succ k => simp at hf
      | cons t ts =>
        rw [h] at hs ih hlen
        cases k with
        | succ k =>
          simp only [List.getElem?_cons_succ] at hf hs
          exact ih k f s hf hs
        | zero =>
          simp only [List.getElem?_cons_zero, Option.some.injEq] at hf hs
          subst hf
          cases fs with
          | nil => simp at hlen
          | cons f' fs' =>
            have h1 : (f'.2 - t.2).PosSemidef := ih 0 f' t rfl rfl
            have h2 : (F * g.2 * Fᵀ + Sigma - f'.2).PosSemidef := hmono 0 g f' rfl rfl
            have h3 : (innov g.2 F Sigma - t.2).PosSemidef := by
              have := h2.add h1
              rwa [sub_add_sub_cancel] at this
            rw [← hs, rts_step B hB F Sigma g t hg hp]
            have e : g.2 - (kcov g.2 F Sigma + kgain g.2 F Sigma * t.2 * (kgain g.2 F Sigma)ᵀ)
                = kgain g.2 F Sigma * (innov g.2 F Sigma - t.2) * (kgain g.2 F Sigma)ᵀ := by
              rw [kcov, Matrix.mul_sub, Matrix.sub_mul]; abel
            simp only
            rw [e]
            exact psd_conj h3 _

/-- the hypotheses of C70, including the monotonicity one, for a concrete two-step filter record. -/
example : ∃ fs : List (Belief 2), fs.length = 2 ∧ (∀ f ∈ fs, f.2.PosSemidef) ∧
    (∀ f ∈ fs, ((1 : Matrix (Fin 2) (Fin 2) ℝ) * f.2 * (1 : Matrix (Fin 2) (Fin 2) ℝ)ᵀ + 1).PosDef) ∧
    (∀ (k : ℕ) (f f' : Belief 2), fs[k]? = some f → fs[k + 1]? = some f' →
      ((1 : Matrix (Fin 2) (Fin 2) ℝ) * f.2 * (1 : Matrix (Fin 2) (Fin 2) ℝ)ᵀ + 1 - f'.2).PosSemidef) := by
  have h1 : (1 : Matrix (Fin 2) (Fin 2) ℝ).PosDef := PosDef.one
  have hfs : ∀ f ∈ [((![0, 1], 1) : Belief 2), (![1, 0], 1)], f.2 = 1 := by
    intro f hf; simp only [List.mem_cons, List.not_mem_nil, or_false] at hf
    rcases hf with rfl | rfl <;> rfl
  refine ⟨[(![0, 1], 1), (![1, 0], 1)], rfl, fun f hf => by rw [hfs f hf]; exact h1.posSemidef, fun f hf => ?_,
    fun k f f' hf hf' => ?_⟩
  · rw [hfs f hf]; simpa using h1.add h1
  · rw [hfs f (List.mem_of_getElem? hf), hfs f' (List.mem_of_getElem? hf')]
    simpa using h1.posSemidef

/-- **C70 (after a Kalman filter).** The hypotheses of C70 hold for the output of `kf` with scalar measurements, so the
smoothed covariances never exceed the filtering covariances. -/
theorem C70_rts_after_kf (B : Backend) (hB : B.Valid) (F Sigma : Matrix (Fin dx) (Fin dx) ℝ) (H : Matrix (Fin 1) (Fin dx) ℝ)
    (Xi : Matrix (Fin 1) (Fin 1) ℝ) (m0 : Fin dx → ℝ) (v0 : Matrix (Fin dx) (Fin dx) ℝ) (ys : List (Fin 1 → ℝ))
    (hv0 : v0.PosSemidef) (hSig : Sigma.PosDef) (hXi : Xi.PosDef) (out : List (Belief dx × ℝ))
    (hout : kf B F Sigma H Xi m0 v0 ys = some out) (ss : List (Belief dx)) (hss : rts B F Sigma (out.map (·.1)) = some ss) :
    ss.length = ys.length ∧ ∀ (k : ℕ) (o : Belief dx × ℝ) (s : Belief dx), out[k]? = some o → ss[k]? = some s →
      s.2.PosSemidef ∧ (o.1.2 - s.2).PosSemidef := by
  obtain ⟨out', h1, hlen, h2⟩ := C67_kf_scalar B F Sigma H Xi m0 v0 ys hv0 hSig.posSemidef hXi
  obtain rfl : out' = out := by rw [h1] at hout; exact Option.some.inj hout
  have hget : ∀ (k : ℕ) (o : Belief dx × ℝ), out'[k]? = some o → ∃ prev y, (((m0, v0), 0) :: out')[k]? = some prev ∧ ys[k]? = some y := by
    intro k o ho
    have hk : k < out'.length := (List.getElem?_eq_some_iff.1 ho).1
    have hk' : k < (((m0, v0), 0) :: out').length := by simp only [List.length_cons]; omega
    exact ⟨_, _, List.getElem?_eq_getElem hk', List.getElem?_eq_getElem (by omega)⟩
  have hpsd : ∀ o ∈ out', o.1.2.PosSemidef := by
    intro o ho
    obtain ⟨k, hk⟩ := List.mem_iff_getElem?.1 ho
    obtain ⟨prev, y, hp, hy⟩ := hget k o hk
    exact (h2 k prev o y hp hk hy).2.1
  have h := (C70_rts B hB F Sigma hSig.posSemidef (out'.map (·.1)) (by
      intro f hf
      obtain ⟨o, ho, rfl⟩ := List.mem_map.1 hf
      exact hpsd o ho) (by
      intro f hf
      obtain ⟨o, ho, rfl⟩ := List.mem_map.1 hf
      exact PosDef.posSemidef_add (psd_conj (hpsd o ho) F) hSig)).2 ss hss
  refine ⟨by rw [h.1, List.length_map, hlen], fun k o s ho hs => ⟨h.2.2.1 s (List.mem_of_getElem? hs), h.2.2.2 ?_ k o.1 s ?_ hs⟩⟩
  · intro j f f' hf hf'
    rw [List.getElem?_map, Option.map_eq_some_iff] at hf hf'
    obtain ⟨a, ha, rfl⟩ := hf
    obtain ⟨b, hb, rfl⟩ := hf'
    obtain ⟨prev, y, hp, hy⟩ := hget (j + 1) b hb
    have := (h2 (j + 1) prev b y hp hb hy).2.2.1
    rw [List.getElem?_cons_succ, ha, Option.some.injEq] at hp
    rwa [← hp] at this
  · rw [List.getElem?_map, ho]; rfl

end Mfs.Props

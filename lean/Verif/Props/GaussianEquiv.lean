import Verif.Lemmas.SigmaPoints

/-!
# C71 and C84: extended and sigma-point filters on linear models; symmetry of continuous-discrete covariances
-/

namespace Mfs.Props

open Matrix Mfs.Spec Mfs.Classical

variable {dx dy dw : ℕ}

/-! ## C71 -/

/-- **C71 (extended Kalman filter and smoother).** On a linear Gaussian model, whose transition may depend on the step `dt`,
`ekf` returns what `kf` returns, including failures, and `eks` what `rts` returns. -/
theorem C71_ekf (B : Backend) (F Sigma : ℝ → Matrix (Fin dx) (Fin dx) ℝ) (H : Matrix (Fin dy) (Fin dx) ℝ)
    (Xi : Matrix (Fin dy) (Fin dy) ℝ) (m0 : Fin dx → ℝ) (v0 : Matrix (Fin dx) (Fin dx) ℝ) (dt : ℝ) (ys : List (Fin dy → ℝ))
    (fs : List (Belief dx)) :
    ekf B (fun u t => (F t *ᵥ u, Sigma t)) (fun u => (H *ᵥ u, Xi)) m0 v0 dt ys = kf B (F dt) (Sigma dt) H Xi m0 v0 ys ∧
    eks B (fun u t => (F t *ᵥ u, Sigma t)) fs dt = rts B (F dt) (Sigma dt) fs := by
  have hp : ekfPredict (fun u t => (F t *ᵥ u, Sigma t)) dt = linearPredict (F dt) (Sigma dt) := by
    funext f
    simp only [ekfPredict, jac_linear, linearPredict]
  refine ⟨?_, ?_⟩
  · simp only [ekf, kf, hp, ekfUpdate, jac_linear]
  · simp only [eks, rts, hp, jac_linear]

/-- **C71 (sigma-point filter, scalar measurements).** With any rule integrating quadratics exactly, `sgp_filter` returns the
`kf` records (means, covariances and negative log-likelihoods) on linear Gaussian models, with both settings of `const_cov`. -/
theorem C71_sgp_scalar (B : Backend) (hB : B.Valid) (sgps : SigmaPoints dx) (hr : SecondOrder sgps.w sgps.xi)
    (F Sigma : ℝ → Matrix (Fin dx) (Fin dx) ℝ) (H : Matrix (Fin 1) (Fin dx) ℝ) (Xi : Matrix (Fin 1) (Fin 1) ℝ)
    (m0 : Fin dx → ℝ) (v0 : Matrix (Fin dx) (Fin dx) ℝ) (dt : ℝ) (ys : List (Fin 1 → ℝ)) (constCov : Bool)
    (hv0 : v0.PosDef) (hXi : Xi.PosDef) (hpred : ∀ P : Matrix (Fin dx) (Fin dx) ℝ, P.PosDef → (F dt * P * (F dt)ᵀ + Sigma dt).PosDef) :
    some (sgpFilter B (fun u t => (F t *ᵥ u, Sigma t)) (fun u => (H *ᵥ u, Xi)) sgps m0 v0 dt ys constCov)
      = kf B (F dt) (Sigma dt) H Xi m0 v0 ys := by
  have ok : UpdateShapeOk dx 1 := Or.inl rfl
  rw [kf, dif_pos ok, sgpFilter, Option.some.injEq]
  have key : ∀ (c : Belief dx) (y : Fin 1 → ℝ), c.2.PosDef →
      sgpUpdate B sgps (fun u => (H *ᵥ u, Xi)) (sgpPrediction B sgps (fun u t => (F t *ᵥ u, Sigma t)) dt c).1 y constCov
        = linearUpdate B ok (linearPredict (F dt) (Sigma dt) c) H (H *ᵥ (linearPredict (F dt) (Sigma dt) c).1) Xi y := by
    intro c y hc
    have e : (sgpPrediction B sgps (fun u t => (F t *ᵥ u, Sigma t)) dt c).1 = linearPredict (F dt) (Sigma dt) c :=
      sgpPrediction_linear hr hB (F dt) (Sigma dt) dt c hc
    have hp : (linearPredict (F dt) (Sigma dt) c).2.PosDef := hpred c.2 hc
    rw [e, sgpUpdate_linear hr hB H Xi _ y hp hXi, linearUpdate_scalar B ok _ H _ Xi y hp.posSemidef hXi,
      logMvnPdf_scalar hB (innov_posDef H hp.posSemidef hXi)]
  refine scan_filterBody_congr _ _ _ _ (fun b => b.2.PosDef) (fun c y hc => ?_) key _ hv0 ys
  have hp : (linearPredict (F dt) (Sigma dt) c).2.PosDef := hpred c.2 hc
  rw [key c y hc, linearUpdate_scalar B ok _ H _ Xi y hp.posSemidef hXi]
  exact kcov_posDef H hp hXi

/-- **C71 (sigma-point filter, vector measurements).** For measurements of any dimension every record of `sgp_filter` on a
linear Gaussian model is the exact Kalman step: with predicted moments `mp = F m`, `Pp = F P Fᵀ + Sigma` and
`S = H Pp Hᵀ + Xi`, the mean is `mp + Pp Hᵀ S⁻¹ (y - H mp)`, the covariance `Pp - Pp Hᵀ S⁻¹ H Pp`, and the belief is the
posterior of Bayes' rule. -/
theorem C71_sgp_vector (B : Backend) (hB : B.Valid) (sgps : SigmaPoints dx) (hr : SecondOrder sgps.w sgps.xi)
    (F Sigma : ℝ → Matrix (Fin dx) (Fin dx) ℝ) (H : Matrix (Fin dy) (Fin dx) ℝ) (Xi : Matrix (Fin dy) (Fin dy) ℝ)
    (m0 : Fin dx → ℝ) (v0 : Matrix (Fin dx) (Fin dx) ℝ) (dt : ℝ) (ys : List (Fin dy → ℝ)) (constCov : Bool)
    (hv0 : v0.PosDef) (hXi : Xi.PosDef) (hpred : ∀ P : Matrix (Fin dx) (Fin dx) ℝ, P.PosDef → (F dt * P * (F dt)ᵀ + Sigma dt).PosDef)
    (out : List (Belief dx × ℝ))
    (hout : out = sgpFilter B (fun u t => (F t *ᵥ u, Sigma t)) (fun u => (H *ᵥ u, Xi)) sgps m0 v0 dt ys constCov) :
    out.length = ys.length ∧
    ∀ (k : ℕ) (prev o : Belief dx × ℝ) (y : Fin dy → ℝ), (((m0, v0), 0) :: out)[k]? = some prev → out[k]? = some o →
      ys[k]? = some y → ∀ mp Pp S, mp = F dt *ᵥ prev.1.1 → Pp = F dt * prev.1.2 * (F dt)ᵀ + Sigma dt → S = H * Pp * Hᵀ + Xi →
        o.1.1 = mp + (Pp * Hᵀ * S⁻¹) *ᵥ (y - H *ᵥ mp) ∧ o.1.2 = Pp - Pp * Hᵀ * S⁻¹ * (H * Pp) ∧ o.1.2.PosDef ∧
        ∀ x, mvnPdf mp Pp x * mvnPdf (H *ᵥ x) Xi y = mvnPdf (H *ᵥ mp) S y * mvnPdf o.1.1 o.1.2 x := by
  subst hout
  have key : ∀ (c : Belief dx) (y : Fin dy → ℝ), c.2.PosDef →
      sgpUpdate B sgps (fun u => (H *ᵥ u, Xi)) (sgpPrediction B sgps (fun u t => (F t *ᵥ u, Sigma t)) dt c).1 y constCov
        = (((linearPredict (F dt) (Sigma dt) c).1 + kgain (linearPredict (F dt) (Sigma dt) c).2 H Xi
            *ᵥ (y - H *ᵥ (linearPredict (F dt) (Sigma dt) c).1), kcov (linearPredict (F dt) (Sigma dt) c).2 H Xi),
          -logMvnPdf y (H *ᵥ (linearPredict (F dt) (Sigma dt) c).1)
            (B.chol (symmetrize (innov (linearPredict (F dt) (Sigma dt) c).2 H Xi)))) := by
    intro c y hc
    have e : (sgpPrediction B sgps (fun u t => (F t *ᵥ u, Sigma t)) dt c).1 = linearPredict (F dt) (Sigma dt) c :=
      sgpPrediction_linear hr hB (F dt) (Sigma dt) dt c hc
    rw [e, sgpUpdate_linear hr hB H Xi _ y (hpred c.2 hc) hXi]
  have hinv := scan_filterBody_inv (fun f => (sgpPrediction B sgps (fun u t => (F t *ᵥ u, Sigma t)) dt f).1)
    (fun p y => sgpUpdate B sgps (fun u => (H *ᵥ u, Xi)) p y constCov) (fun b => b.2.PosDef) (fun c y hc => by
      rw [key c y hc]
      exact kcov_posDef H (hpred c.2 hc) hXi) ((m0, v0), 0) hv0 ys
  refine ⟨scan_filterBody_length _ _ _ _, ?_⟩
  rintro k prev o y hp ho hy mp Pp S rfl rfl rfl
  have hprev : prev.1.2.PosDef := hinv prev (List.mem_of_getElem? hp)
  have hPp := hpred prev.1.2 hprev
  have hs := scan_filterBody_get _ _ _ _ _ _ _ _ hp hy ho
  rw [stepOf, key prev.1 y hprev] at hs
  subst hs
  refine ⟨rfl, ?_, kcov_posDef H hPp hXi, fun x => bayes_identity H hPp hXi _ x y⟩
  exact kcov_eq' H hPp.posSemidef (innov_posDef H hPp.posSemidef hXi)

/-- **C71 (sigma-point smoother).** On a linear model and non-degenerate filtering covariances, `sgp_smoother` with a rule
integrating quadratics exactly returns what `rts` returns. -/
theorem C71_sgp_smoother (B : Backend) (hB : B.Valid) (sgps : SigmaPoints dx) (hr : SecondOrder sgps.w sgps.xi)
    (F Sigma : ℝ → Matrix (Fin dx) (Fin dx) ℝ) (fs : List (Belief dx)) (dt : ℝ) (hfs : ∀ f ∈ fs, f.2.PosDef) :
    sgpSmoother B (fun u t => (F t *ᵥ u, Sigma t)) sgps fs dt = rts B (F dt) (Sigma dt) fs := by
  rw [sgpSmoother, rts, smoothWith_eq, smoothWith_eq]
  congr 2
  refine smoothRec_congr _ _ _ fun f hf s => ?_
  have hP := hfs f hf
  have e : (sgpPrediction B sgps (fun u t => (F t *ᵥ u, Sigma t)) dt f).1 = linearPredict (F dt) (Sigma dt) f :=
    sgpPrediction_linear hr hB (F dt) (Sigma dt) dt f hP
  have hD := expectation_chi_lin hr (F dt) f.1 (B.chol (symmetrize f.2))
  rw [(chol_symm hB hP).mul_transpose] at hD
  simp only
  rw [e]
  congr 1
  have : (sgps.expectation fun i => vecMulVec ((sgpPrediction B sgps (fun u t => (F t *ᵥ u, Sigma t)) dt f).2.1 i)
      ((sgpPrediction B sgps (fun u t => (F t *ᵥ u, Sigma t)) dt f).2.2 i)) - vecMulVec f.1 (linearPredict (F dt) (Sigma dt) f).1
      = f.2 * (F dt)ᵀ := hD
  rw [this, Matrix.transpose_mul, transpose_transpose, hP.posSemidef.symm]

/-- a rule meeting `SecondOrder`: the two points `±1` with weights `1/2`; and a model meeting the other hypotheses. -/
example : SecondOrder ![(1 / 2 : ℝ), 1 / 2] ![![(1 : ℝ)], ![-1]] where
  total := by norm_num [Fin.sum_univ_two]
  mean := by intro a; rw [Subsingleton.elim a 0]; norm_num [Fin.sum_univ_two]
  cov := by intro a b; rw [Subsingleton.elim a 0, Subsingleton.elim b 0]; norm_num [Fin.sum_univ_two]

example (P : Matrix (Fin 2) (Fin 2) ℝ) (hP : P.PosDef) :
    (!![0, 1; 1, 0] * P * !![0, 1; 1, 0]ᵀ + (1 : Matrix (Fin 2) (Fin 2) ℝ)).PosDef :=
  PosDef.posSemidef_add (psd_conj hP.posSemidef _) PosDef.one

/-! ## C84 -/

/-- **C84 (moment equations).** The covariance part of every moment equation is symmetric at symmetric covariances. -/
theorem C84_fields (B : Backend) (drift : (Fin dx → ℝ) → Fin dx → ℝ) (dispersion : (Fin dx → ℝ) → Matrix (Fin dx) (Fin dw) ℝ)
    (disp : Matrix (Fin dx) (Fin dw) ℝ) (sgps : SigmaPoints dx)
    (m mf : Fin dx → ℝ) (v vf : Matrix (Fin dx) (Fin dx) ℝ) (hv : v.IsSymm) :
    (cdEkfOdes drift dispersion m v).2.IsSymm ∧ (cdEksOdes B drift dispersion m v mf vf).2.IsSymm ∧
    (cdSgpShared B sgps drift disp m v).2.IsSymm ∧ (cdSgpOdes B sgps drift disp m v mf vf).2.IsSymm := by
  have hs : (cdSgpShared B sgps drift disp m v).2.IsSymm := by
    rw [IsSymm, cdSgpShared]
    simp only [Matrix.transpose_add, Matrix.transpose_mul, transpose_transpose]
    abel
  refine ⟨?_, ?_, hs, ?_⟩
  · rw [IsSymm, cdEkfOdes]
    simp only [Matrix.transpose_add, Matrix.transpose_mul, transpose_transpose, hv.eq]
    abel
  · rw [IsSymm, cdEksOdes]
    simp only [Matrix.transpose_add, Matrix.transpose_sub, Matrix.transpose_mul, transpose_transpose, hv.eq]
    abel
  · rw [IsSymm, cdSgpOdes]
    simp only [Matrix.transpose_add, Matrix.transpose_sub, Matrix.transpose_mul, transpose_transpose, hv.eq, hs.eq,
      Matrix.transpose_smul]
    abel

/-- **C84 (filters).** With symmetric initial and measurement covariances, every covariance returned by `cd_ekf` and
`cd_sgp_filter` is symmetric, for all drifts, dispersions, sigma-point rules and measurement sequences, whatever the Cholesky
routine returns. -/
theorem C84_filters (B : Backend) (drift : (Fin dx → ℝ) → Fin dx → ℝ) (dispersion : (Fin dx → ℝ) → Matrix (Fin dx) (Fin dw) ℝ)
    (disp : Matrix (Fin dx) (Fin dw) ℝ) (sgps : SigmaPoints dx)
    (meas : (Fin dx → ℝ) → (Fin dy → ℝ) × Matrix (Fin dy) (Fin dy) ℝ) (hmeas : ∀ x, (meas x).2.IsSymm)
    (m0 : Fin dx → ℝ) (v0 : Matrix (Fin dx) (Fin dx) ℝ) (hv0 : v0.IsSymm) (dt : ℝ) (ys : List (Fin dy → ℝ)) (constCov : Bool) :
    (∀ out, cdEkf B drift dispersion meas m0 v0 dt ys = some out → ∀ o ∈ out, o.1.2.IsSymm) ∧
    (∀ o ∈ cdSgpFilter B drift disp meas sgps m0 v0 dt ys constCov, o.1.2.IsSymm) := by
  refine ⟨fun out hout o ho => ?_, fun o ho => ?_⟩
  · rw [cdEkf] at hout
    split_ifs at hout with ok
    rw [Option.some.injEq] at hout
    subst hout
    refine scan_filterBody_inv _ _ (fun b => b.2.IsSymm) (fun c y hc => ?_) ((m0, v0), 0) hv0 ys o (List.mem_cons_of_mem _ ho)
    have hp : (rk4MCov (cdEkfOdes drift dispersion) c.1 c.2 dt).2.IsSymm :=
      rk4MCov_symm _ (fun m v hv => (C84_fields B drift dispersion disp sgps m m v v hv).1) _ _ _ hc
    exact linearUpdate_symm B ok _ _ _ _ y hp (hmeas _)
  · rw [cdSgpFilter] at ho
    refine scan_filterBody_inv _ _ (fun b => b.2.IsSymm) (fun c y hc => ?_) ((m0, v0), 0) hv0 ys o (List.mem_cons_of_mem _ ho)
    have hp : (rk4MCov (cdSgpShared B sgps drift disp) c.1 c.2 dt).2.IsSymm :=
      rk4MCov_symm _ (fun m v hv => (C84_fields B drift dispersion disp sgps m m v v hv).2.2.1) _ _ _ hc
    exact sgpUpdate_symm B sgps meas hmeas _ y constCov hp

/-- **C84 (smoothers).** If the filtering covariances are symmetric, so are all covariances returned by `cd_eks` and
`cd_sgp_smoother`. -/
theorem C84_smoothers (B : Backend) (drift : (Fin dx → ℝ) → Fin dx → ℝ) (dispersion : (Fin dx → ℝ) → Matrix (Fin dx) (Fin dw) ℝ)
    (disp : Matrix (Fin dx) (Fin dw) ℝ) (sgps : SigmaPoints dx) (fs : List (Belief dx)) (hfs : ∀ f ∈ fs, f.2.IsSymm) (dt : ℝ) :
    (∀ ss, cdEks B drift dispersion fs dt = some ss → ∀ s ∈ ss, s.2.IsSymm) ∧
    (∀ ss, cdSgpSmoother B drift disp sgps fs dt = some ss → ∀ s ∈ ss, s.2.IsSymm) := by
  refine ⟨fun ss hss => ?_, fun ss hss => ?_⟩
  · rw [cdEks, smoothWith_eq] at hss
    split_ifs at hss
    rw [Option.some.injEq] at hss
    subst hss
    exact smoothRec_inv _ (fun b => b.2.IsSymm) fs hfs fun f s hs => rk4MCovBackward_symm _
      (fun m v mf vf hv => (C84_fields B drift dispersion disp sgps m mf v vf hv).2.1) _ _ _ _ _ hs
  · rw [cdSgpSmoother, smoothWith_eq] at hss
    split_ifs at hss
    rw [Option.some.injEq] at hss
    subst hss
    exact smoothRec_inv _ (fun b => b.2.IsSymm) fs hfs fun f s hs => rk4MCovBackward_symm _
      (fun m v mf vf hv => (C84_fields B drift dispersion disp sgps m mf v vf hv).2.2.2) _ _ _ _ _ hs

example : (!![2, 1; 1, 3] : Matrix (Fin 2) (Fin 2) ℝ).IsSymm := by
  ext i j; fin_cases i <;> fin_cases j <;> rfl

end Mfs.Props

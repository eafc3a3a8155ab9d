import Verif.Props.KalmanScore

/-!
# C210: the likelihood of the extended Kalman filter integrates to one and is a proper score
-/

namespace Mfs.Props

open Mfs.Spec Mfs.Classical Mfs.Lemmas MeasureTheory Matrix

section chain

variable {X Y : Type} (g : X → Y → ℝ) (next : X → Y → X)

/-- product of the predictive densities along the measurements. -/
def chainLik (x : X) : List Y → ℝ
  | [] => 1
  | y :: ys => g x y * chainLik (next x y) ys

theorem chainLik_continuous [TopologicalSpace X] [TopologicalSpace Y] (hg : Continuous fun q : X × Y => g q.1 q.2) (hn : Continuous fun q : X × Y => next q.1 q.2) (T : ℕ) :
    Continuous fun q : X × (Fin T → Y) => chainLik g next q.1 (List.ofFn q.2) := by
  induction T with
  | zero => simpa [chainLik] using continuous_const
  | succ T ih =>
    have h0 : Continuous fun q : X × (Fin (T + 1) → Y) => (q.1, q.2 0) := continuous_fst.prodMk ((continuous_apply 0).comp continuous_snd)
    have h4 : Continuous fun q : X × (Fin (T + 1) → Y) => fun i : Fin T => q.2 i.succ := continuous_pi fun i => (continuous_apply i.succ).comp continuous_snd
    refine ((hg.comp h0).mul (ih.comp ((hn.comp h0).prodMk h4))).congr fun q => ?_
    rw [List.ofFn_succ, chainLik]
    rfl

theorem lintegral_chainLik {d : ℕ} (g : X → (Fin d → ℝ) → ℝ) (next : X → (Fin d → ℝ) → X) [TopologicalSpace X] (hg : Continuous fun q : X × (Fin d → ℝ) => g q.1 q.2)
    (hn : Continuous fun q : X × (Fin d → ℝ) => next q.1 q.2) (h0 : ∀ x y, 0 ≤ g x y) (h1 : ∀ x, ∫⁻ y, ENNReal.ofReal (g x y) = 1) (T : ℕ) (x : X) :
    ∫⁻ ys : Fin T → Fin d → ℝ, ENNReal.ofReal (chainLik g next x (List.ofFn ys)) = 1 := by
  induction T generalizing x with
  | zero =>
    simp only [List.ofFn_zero, chainLik, ENNReal.ofReal_one, lintegral_one]
    rw [volume_pi, Measure.pi_univ]
    simp
  | succ T ih =>
    have hm : Measurable fun ys : Fin (T + 1) → Fin d → ℝ => ENNReal.ofReal (chainLik g next x (List.ofFn ys)) :=
      ((chainLik_continuous g next hg hn (T + 1)).comp (continuous_const.prodMk continuous_id : Continuous fun ys : Fin (T + 1) → Fin d → ℝ => (x, ys))).measurable.ennreal_ofReal
    rw [lintegral_path_succ T hm]
    simp only [List.ofFn_succ, Fin.cons_zero, Fin.cons_succ, chainLik]
    rw [← h1 x]
    refine lintegral_congr fun y => ?_
    simp only [ENNReal.ofReal_mul (h0 x y)]
    rw [lintegral_const_mul' _ _ ENNReal.ofReal_ne_top, ih, mul_one]

end chain

variable {dx : ℕ}

theorem linearUpdate_continuous {X : Type} [TopologicalSpace X] (B : Backend) (ok : UpdateShapeOk dx 1) {p : X → Belief dx} {H : X → Matrix (Fin 1) (Fin dx) ℝ} {pr : X → Fin 1 → ℝ}
    {Xi : X → Matrix (Fin 1) (Fin 1) ℝ} {y : X → Fin 1 → ℝ} (hp : Continuous p) (hH : Continuous H) (hpr : Continuous pr) (hXi : Continuous Xi) (hy : Continuous y)
    (hS : ∀ x, 0 < (H x * (p x).2 * (H x)ᵀ + Xi x) 0 0) : Continuous fun x => linearUpdate B ok (p x) (H x) (pr x) (Xi x) (y x) := by
  have hv : Continuous fun x => (p x).2 := continuous_snd.comp hp
  have hSc : Continuous fun x => H x * (p x).2 * (H x)ᵀ + Xi x := ((hH.matrix_mul hv).matrix_mul hH.matrix_transpose).add hXi
  have hS0 : Continuous fun x => (H x * (p x).2 * (H x)ᵀ + Xi x) 0 0 := hSc.matrix_elem 0 0
  have hK : Continuous fun x => linearGain B ok (p x).2 (H x) (H x * (p x).2 * (H x)ᵀ + Xi x) := by
    have e : ∀ x, linearGain B ok (p x).2 (H x) (H x * (p x).2 * (H x)ᵀ + Xi x) = Matrix.of fun i j => ((p x).2 * (H x)ᵀ) i j / (H x * (p x).2 * (H x)ᵀ + Xi x) 0 0 := fun x => by
      rw [linearGain, dif_pos rfl]; rfl
    simp only [e]
    exact continuous_matrix fun i j => ((hv.matrix_mul hH.matrix_transpose).matrix_elem i j).div hS0 fun x => (hS x).ne'
  have hN : Continuous fun x => linearNell B (pr x) (H x * (p x).2 * (H x)ᵀ + Xi x) (y x) := by
    have e : ∀ x, linearNell B (pr x) (H x * (p x).2 * (H x)ᵀ + Xi x) (y x) = -logNormalPdf (y x 0) (pr x 0) ((H x * (p x).2 * (H x)ᵀ + Xi x) 0 0) := fun x => by
      rw [linearNell, dif_pos rfl]; rfl
    simp only [e, logNormalPdf]
    have hy0 : Continuous fun x => y x 0 := (continuous_apply 0).comp hy
    have hp0 : Continuous fun x => pr x 0 := (continuous_apply 0).comp hpr
    have hq : Continuous fun x => Real.sqrt ((H x * (p x).2 * (H x)ᵀ + Xi x) 0 0) ^ 2 := (Real.continuous_sqrt.comp hS0).pow 2
    have hq0 : ∀ x, Real.sqrt ((H x * (p x).2 * (H x)ᵀ + Xi x) 0 0) ^ 2 ≠ 0 := fun x => by
      rw [Real.sq_sqrt (hS x).le]; exact (hS x).ne'
    exact (((((hy0.sub hp0).pow 2).div hq hq0).add ((continuous_const.mul hq).log fun x => mul_ne_zero (by positivity) (hq0 x))).neg.div_const 2).neg
  simp only [linearUpdate]
  exact ((((continuous_fst.comp hp).add (hK.matrix_mulVec (hy.sub hpr))).prodMk (hv.sub ((hK.matrix_mul hSc).matrix_mul hK.matrix_transpose))).prodMk hN)

/-- **C210.** Scalar measurements. If the model functions of `ekf` and their Jacobians are continuous, transition covariances positive semidefinite and measurement covariances positive, then the last
negative log-likelihood that `ekf` returns is a continuous function of the measurements, `exp(-nell)` integrates to one over all measurement sequences, and `nell` is a proper score of the data. -/
theorem C210_ekf (B : Backend) (state : (Fin dx → ℝ) → ℝ → Belief dx) (meas : (Fin dx → ℝ) → (Fin 1 → ℝ) × Matrix (Fin 1) (Fin 1) ℝ) (m0 : Fin dx → ℝ) (v0 : Matrix (Fin dx) (Fin dx) ℝ) (dt : ℝ)
    (hs : Continuous fun x => state x dt) (hsJ : Continuous fun x => jac (fun u => (state u dt).1) x) (hsP : ∀ x, (state x dt).2.PosSemidef)
    (hm : Continuous meas) (hmJ : Continuous fun x => jac (fun u => (meas u).1) x) (hmP : ∀ x, (meas x).2.PosDef) (hv0 : v0.PosSemidef) (T : ℕ)
    (nell : (Fin (T + 1) → Fin 1 → ℝ) → ℝ)
    (hn : ∀ ys out o, ekf B state meas m0 v0 dt (List.ofFn ys) = some out → out.getLast? = some o → nell ys = o.2) :
    (∀ ys : Fin (T + 1) → Fin 1 → ℝ, ∃ out o, ekf B state meas m0 v0 dt (List.ofFn ys) = some out ∧ out.getLast? = some o) ∧
    Continuous nell ∧ ∫⁻ ys, ENNReal.ofReal (Real.exp (-nell ys)) = 1 ∧ DensityScore volume nell := by
  have ok : UpdateShapeOk dx 1 := Or.inl rfl
  have hpP : ∀ b : Belief dx, b.2.PosSemidef → (ekfPredict state dt b).2.PosSemidef := fun b hb => (psd_conj hb _).add (hsP _)
  have hup : ∀ b : Belief dx, b.2.PosSemidef → ∀ y, ekfUpdate B ok meas (ekfPredict state dt b) y = _ := fun b hb y =>
    linearUpdate_scalar B ok _ _ _ _ y (hpP b hb) (hmP _)
  let X := {b : Belief dx // b.2.PosSemidef}
  let g : X → (Fin 1 → ℝ) → ℝ := fun x y => Real.exp (-(ekfUpdate B ok meas (ekfPredict state dt x.1) y).2)
  let next : X → (Fin 1 → ℝ) → X := fun x y => ⟨(ekfUpdate B ok meas (ekfPredict state dt x.1) y).1, by
    rw [hup x.1 x.2 y]; exact kcov_posSemidef _ (hpP x.1 x.2) (hmP _)⟩
  have hb : Continuous fun q : X × (Fin 1 → ℝ) => q.1.1 := continuous_subtype_val.comp continuous_fst
  have hb1 : Continuous fun q : X × (Fin 1 → ℝ) => q.1.1.1 := continuous_fst.comp hb
  have hpc : Continuous fun q : X × (Fin 1 → ℝ) => ekfPredict state dt q.1.1 := by
    have h1 := hs.comp hb1
    have h2 := hsJ.comp hb1
    exact (continuous_fst.comp h1).prodMk (((h2.matrix_mul (continuous_snd.comp hb)).matrix_mul h2.matrix_transpose).add (continuous_snd.comp h1))
  have hpc1 := continuous_fst.comp hpc
  have huc : Continuous fun q : X × (Fin 1 → ℝ) => ekfUpdate B ok meas (ekfPredict state dt q.1.1) q.2 :=
    linearUpdate_continuous B ok hpc (hmJ.comp hpc1) (continuous_fst.comp (hm.comp hpc1)) (continuous_snd.comp (hm.comp hpc1)) continuous_snd
      fun q => (innov_posDef _ (hpP q.1.1 q.1.2) (hmP _)).diag_pos
  have hg : Continuous fun q : X × (Fin 1 → ℝ) => g q.1 q.2 := Real.continuous_exp.comp (continuous_snd.comp huc).neg
  have hnx : Continuous fun q : X × (Fin 1 → ℝ) => next q.1 q.2 := (continuous_fst.comp huc).subtype_mk _
  have hg1 : ∀ x, ∫⁻ y, ENNReal.ofReal (g x y) = 1 := fun x => by
    rw [← lintegral_mvnPdf (meas (ekfPredict state dt x.1).1).1 (innov_posDef (jac (fun u => (meas u).1) (ekfPredict state dt x.1).1) (hpP x.1 x.2) (hmP (ekfPredict state dt x.1).1))]
    refine lintegral_congr fun y => congrArg ENNReal.ofReal ?_
    show Real.exp (-(ekfUpdate B ok meas (ekfPredict state dt x.1) y).2) = _
    rw [hup x.1 x.2 y]
    exact linearNell_scalar B _ y (innov_posDef _ (hpP x.1 x.2) (hmP _))
  have hrun : ∀ (ys : List (Fin 1 → ℝ)) (x : X) (n : ℝ) (o : Belief dx × ℝ),
      ((x.1, n) :: (scan (filterBody (ekfPredict state dt) fun p y => ekfUpdate B ok meas p y) (x.1, n) ys).2).getLast? = some o →
      Real.exp (-o.2) = Real.exp (-n) * chainLik g next x ys := by
    intro ys
    induction ys with
    | nil =>
      intro x n o ho
      rw [scan_filterBody_nil, List.getLast?_singleton, Option.some.injEq] at ho
      rw [← ho, chainLik, mul_one]
    | cons y ys ih =>
      intro x n o ho
      rw [scan_filterBody_cons, List.getLast?_cons_cons] at ho
      have := ih (next x y) (n + (ekfUpdate B ok meas (ekfPredict state dt x.1) y).2) o ho
      rw [this, chainLik, neg_add, Real.exp_add, mul_assoc]
  have hout : ∀ ys : Fin (T + 1) → Fin 1 → ℝ, ∃ out o, ekf B state meas m0 v0 dt (List.ofFn ys) = some out ∧ out.getLast? = some o ∧
      Real.exp (-o.2) = chainLik g next ⟨(m0, v0), hv0⟩ (List.ofFn ys) := fun ys => by
    have hl := scan_filterBody_length (ekfPredict state dt) (fun p y => ekfUpdate B ok meas p y) ((m0, v0), 0) (List.ofFn ys)
    rw [List.length_ofFn] at hl
    obtain ⟨o, ho⟩ : ∃ o, (scan (filterBody (ekfPredict state dt) fun p y => ekfUpdate B ok meas p y) ((m0, v0), 0) (List.ofFn ys)).2.getLast? = some o :=
      ⟨_, List.getLast?_eq_some_getLast (by intro h; rw [h] at hl; simp at hl)⟩
    refine ⟨_, o, by rw [ekf, dif_pos ok], ho, ?_⟩
    have := hrun (List.ofFn ys) ⟨(m0, v0), hv0⟩ 0 o (by rw [List.getLast?_cons, ho]; rfl)
    rwa [neg_zero, Real.exp_zero, one_mul] at this
  have he : ∀ ys, Real.exp (-nell ys) = chainLik g next ⟨(m0, v0), hv0⟩ (List.ofFn ys) := fun ys => by
    obtain ⟨out, o, h1, h2, h3⟩ := hout ys
    rw [hn ys out o h1 h2, h3]
  have hc := (chainLik_continuous g next hg hnx (T + 1)).comp (continuous_const.prodMk continuous_id : Continuous fun ys : Fin (T + 1) → Fin 1 → ℝ => ((⟨(m0, v0), hv0⟩ : X), ys))
  have hcn : Continuous nell := by
    refine (hc.log fun ys => by
      show chainLik g next ⟨(m0, v0), hv0⟩ (List.ofFn ys) ≠ 0
      rw [← he]; exact (Real.exp_pos _).ne').neg.congr fun ys => ?_
    show -Real.log (chainLik g next ⟨(m0, v0), hv0⟩ (List.ofFn ys)) = nell ys
    rw [← he, Real.log_exp, neg_neg]
  have hmass : ∫⁻ ys, ENNReal.ofReal (Real.exp (-nell ys)) = 1 := by
    simp only [he]
    exact lintegral_chainLik g next hg hnx (fun _ _ => (Real.exp_pos _).le) hg1 (T + 1) _
  refine ⟨fun ys => ?_, hcn, hmass, densityScore_of_lintegral hcn.measurable hmass⟩
  obtain ⟨out, o, h1, h2, -⟩ := hout ys
  exact ⟨out, o, h1, h2⟩

/-- **C210 (linear data).** If the data have the density of a linear Gaussian model, the expected difference between the negative log-likelihood of `ekf`, for any nonlinear model, and that of `kf` at the true
model exists and is nonnegative; and `ekf` is better by `c` with probability at most `exp (-c)`. -/
theorem C210_linear_data {dx' : ℕ} (B : Backend) (F Sigma : Matrix (Fin dx') (Fin dx') ℝ) (H : Matrix (Fin 1) (Fin dx') ℝ) (Xi : Matrix (Fin 1) (Fin 1) ℝ)
    (m0' : Fin dx' → ℝ) (v0' : Matrix (Fin dx') (Fin dx') ℝ) (hv0' : v0'.PosDef) (hSig : Sigma.PosDef) (hXi : Xi.PosDef)
    (state : (Fin dx → ℝ) → ℝ → Belief dx) (meas : (Fin dx → ℝ) → (Fin 1 → ℝ) × Matrix (Fin 1) (Fin 1) ℝ) (m0 : Fin dx → ℝ) (v0 : Matrix (Fin dx) (Fin dx) ℝ) (dt : ℝ)
    (hs : Continuous fun x => state x dt) (hsJ : Continuous fun x => jac (fun u => (state u dt).1) x) (hsP : ∀ x, (state x dt).2.PosSemidef)
    (hm : Continuous meas) (hmJ : Continuous fun x => jac (fun u => (meas u).1) x) (hmP : ∀ x, (meas x).2.PosDef) (hv0 : v0.PosSemidef) (T : ℕ)
    (nell nell' : (Fin (T + 1) → Fin 1 → ℝ) → ℝ)
    (hn : ∀ ys out o, kf B F Sigma H Xi m0' v0' (List.ofFn ys) = some out → out.getLast? = some o → nell ys = o.2)
    (hn' : ∀ ys out o, ekf B state meas m0 v0 dt (List.ofFn ys) = some out → out.getLast? = some o → nell' ys = o.2) :
    ∫⁻ ys, ENNReal.ofReal (Real.exp (-nell ys) * (nell ys - nell' ys)) ≤ 1 ∧
    ∫⁻ ys, ENNReal.ofReal (Real.exp (-nell ys) * (nell ys - nell' ys)) ≤ ∫⁻ ys, ENNReal.ofReal (Real.exp (-nell ys) * (nell' ys - nell ys)) ∧
    ∀ c : ℝ, ∫⁻ ys in {ys | nell' ys ≤ nell ys - c}, ENNReal.ofReal (Real.exp (-nell ys)) ≤ ENNReal.ofReal (Real.exp (-c)) := by
  obtain ⟨-, h1, h2, -⟩ := C209_kf B F Sigma H Xi m0' v0' hv0' hSig hXi T nell hn
  obtain ⟨-, h1', -, h3⟩ := C210_ekf B state meas m0 v0 dt hs hsJ hsP hm hmJ hmP hv0 T nell' hn'
  obtain ⟨⟨ha, hb⟩, -, hd⟩ := h3 (fun ys => Real.exp (-nell ys)) (by have := h1.measurable; fun_prop) (fun _ => (Real.exp_pos _).le) h2
  have e : ∀ ys, Real.exp (-nell ys) * (nell' ys + Real.log (Real.exp (-nell ys))) = Real.exp (-nell ys) * (nell' ys - nell ys) := fun ys => by
    rw [Real.log_exp, sub_eq_add_neg]
  have e2 : ∀ ys, -(Real.exp (-nell ys) * (nell' ys - nell ys)) = Real.exp (-nell ys) * (nell ys - nell' ys) := fun ys => by ring
  simp only [e, e2] at ha hb
  refine ⟨ha, hb, fun c => hd c _ (measurableSet_le h1'.measurable (h1.measurable.sub_const c)) fun ys hys => ?_⟩
  rw [Real.log_exp, neg_neg]
  exact hys

theorem jac_continuous_of_contDiff {a b : ℕ} {f : (Fin a → ℝ) → Fin b → ℝ} (hf : ContDiff ℝ 1 f) : Continuous fun x => jac f x :=
  continuous_matrix fun i _ => (continuous_apply i).comp ((hf.continuous_fderiv one_ne_zero).clm_apply continuous_const)

/-- non-vacuity: sine dynamics with a state-dependent noise and a cubic measurement. -/
example : ∃ (state : (Fin 1 → ℝ) → ℝ → Belief 1) (meas : (Fin 1 → ℝ) → (Fin 1 → ℝ) × Matrix (Fin 1) (Fin 1) ℝ) (nell : (Fin 3 → Fin 1 → ℝ) → ℝ),
    (Continuous fun x => state x 1) ∧ (Continuous fun x => jac (fun u => (state u 1).1) x) ∧ (∀ x, (state x 1).2.PosSemidef) ∧
    Continuous meas ∧ (Continuous fun x => jac (fun u => (meas u).1) x) ∧ (∀ x, (meas x).2.PosDef) ∧ (∃ x y, (state x 1).2 ≠ (state y 1).2) ∧
    ∀ ys out o, ekf theBackend state meas 0 1 1 (List.ofFn ys) = some out → out.getLast? = some o → nell ys = o.2 := by
  have hd : Continuous fun x : Fin 1 → ℝ => (x 0) ^ 2 • (1 : Matrix (Fin 1) (Fin 1) ℝ) := ((continuous_apply 0).pow 2).smul continuous_const
  refine ⟨fun x _ => (fun i => Real.sin (x i), (x 0) ^ 2 • 1), fun x => (fun i => x i ^ 3, 1),
    fun ys => ((ekf theBackend (fun x _ => (fun i => Real.sin (x i), (x 0) ^ 2 • 1)) (fun x => (fun i => x i ^ 3, 1)) 0 1 1 (List.ofFn ys)).bind (·.getLast?)).elim 0 (·.2),
    ?_, ?_, fun x => PosDef.one.posSemidef.smul (sq_nonneg _), ?_, ?_, fun _ => PosDef.one, ⟨fun _ => 0, fun _ => 1, fun h => ?_⟩, fun ys out o h1 h2 => ?_⟩
  · exact (continuous_pi fun i => Real.continuous_sin.comp (continuous_apply i)).prodMk hd
  · exact jac_continuous_of_contDiff (contDiff_pi.2 fun i => Real.contDiff_sin.comp (contDiff_apply ℝ ℝ i))
  · exact (continuous_pi fun i => (continuous_apply i).pow 3).prodMk continuous_const
  · exact jac_continuous_of_contDiff (contDiff_pi.2 fun i => (contDiff_apply ℝ ℝ i).pow 3)
  · simpa using congrFun (congrFun h 0) 0
  · dsimp only
    rw [h1, Option.bind_some, h2]
    rfl

end Mfs.Props

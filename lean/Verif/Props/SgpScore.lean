import Verif.Props.EkfScore
import Verif.Props.SgpPosDef
import Verif.Lemmas.CholCont
import Mathlib.Analysis.Normed.Ring.Units

/-!
# C213: the likelihood of the sigma-point filter integrates to one and is a proper score
-/

namespace Mfs.Props

open Mfs.Spec Mfs.Classical Mfs.Lemmas MeasureTheory Matrix

variable {dx dy : ℕ}

section cont

variable {X : Type} [TopologicalSpace X] {n : ℕ}

theorem chol_symmetrize_continuous {B : Backend} (hB : B.Valid) {P : X → Matrix (Fin n) (Fin n) ℝ} (hP : Continuous P) (hpd : ∀ x, (P x).PosDef) :
    Continuous fun x => B.chol (symmetrize (P x)) :=
  continuous_iff_continuousAt.2 fun x => Mfs.Cont.tendsto_chol (hP.tendsto x) (Filter.Eventually.of_forall fun y => chol_symm hB (hpd y)) (chol_symm hB (hpd x))

theorem posDef_inv_continuous {S : X → Matrix (Fin n) (Fin n) ℝ} (hS : Continuous S) (hpd : ∀ x, (S x).PosDef) : Continuous fun x => (S x)⁻¹ :=
  continuous_iff_continuousAt.2 fun x => by
    have h := NormedRing.inverse_continuousAt (Units.mk0 (S x).det (hpd x).det_pos.ne')
    exact (continuousAt_matrix_inv (S x) h).comp hS.continuousAt

theorem expectation_continuous {V : Type} [AddCommMonoid V] [Module ℝ V] [TopologicalSpace V] [ContinuousAdd V] [ContinuousConstSMul ℝ V] (sgps : SigmaPoints dx)
    {f : X → Fin sgps.nPoints → V} (hf : ∀ i, Continuous fun x => f x i) : Continuous fun x => sgps.expectation (f x) :=
  continuous_finsetSum _ fun i _ => (hf i).const_smul (sgps.w i)

theorem logMvnPdf_continuous {y mu : X → Fin n → ℝ} {L : X → Matrix (Fin n) (Fin n) ℝ} (hy : Continuous y) (hmu : Continuous mu) (hL : Continuous L) (hl : ∀ x, IsLower (L x))
    (hd : ∀ x i, 0 < L x i i) : Continuous fun x => logMvnPdf (y x) (mu x) (L x) := by
  have hz : ∀ x, triSolveDefaultVec (L x) (y x - mu x) = fun i => (y x i - mu x i) / L x i i := fun x => by
    rw [triSolveDefaultVec, upperPart_lower (hl x), diagonal_inv (fun i => (hd x i).ne')]
    ext i
    rw [Matrix.vecMul_diagonal, Pi.sub_apply, div_eq_mul_inv]
  simp only [logMvnPdf, hz]
  have h1 : Continuous fun x => fun i => (y x i - mu x i) / L x i i := continuous_pi fun i =>
    (((continuous_apply i).comp hy).sub ((continuous_apply i).comp hmu)).div (hL.matrix_elem i i) fun x => (hd x i).ne'
  exact continuous_const.mul ((h1.dotProduct h1).add (continuous_const.mul (continuous_finsetSum _ fun i _ =>
    (continuous_const.mul (hL.matrix_elem i i)).log fun x => mul_ne_zero (by positivity) (hd x i).ne')))

variable {B : Backend} (hB : B.Valid) (sgps : SigmaPoints dx)
include hB

theorem chi_continuous {b : X → Belief dx} (hb : Continuous b) (hpd : ∀ x, (b x).2.PosDef) (i : Fin sgps.nPoints) :
    Continuous fun x => sgps.genSigmaPoints (b x).1 (B.chol (symmetrize (b x).2)) i :=
  (continuous_fst.comp hb).add ((chol_symmetrize_continuous hB (continuous_snd.comp hb) hpd).matrix_mulVec continuous_const)

theorem sgpPrediction_continuous (state : (Fin dx → ℝ) → ℝ → Belief dx) (dt : ℝ) (hs : Continuous fun x => state x dt) {b : X → Belief dx} (hb : Continuous b) (hpd : ∀ x, (b x).2.PosDef) :
    Continuous fun x => (sgpPrediction B sgps state dt (b x)).1 := by
  have h1 : ∀ i, Continuous fun x => state (sgps.genSigmaPoints (b x).1 (B.chol (symmetrize (b x).2)) i) dt := fun i => hs.comp (chi_continuous hB sgps hb hpd i)
  have hm : ∀ i, Continuous fun x => (state (sgps.genSigmaPoints (b x).1 (B.chol (symmetrize (b x).2)) i) dt).1 := fun i => continuous_fst.comp (h1 i)
  have hc : ∀ i, Continuous fun x => (state (sgps.genSigmaPoints (b x).1 (B.chol (symmetrize (b x).2)) i) dt).2 := fun i => continuous_snd.comp (h1 i)
  have he := expectation_continuous sgps hm
  simp only [sgpPrediction]
  exact he.prodMk ((expectation_continuous sgps fun i => ((hm i).matrix_vecMulVec (hm i)).add (hc i)).sub (he.matrix_vecMulVec he))

theorem sgpUpdate_continuous (hr : SecondOrder sgps.w sgps.xi) (hw : ∀ i, 0 ≤ sgps.w i) (meas : (Fin dx → ℝ) → (Fin dy → ℝ) × Matrix (Fin dy) (Fin dy) ℝ) (hm : Continuous meas)
    (hmP : ∀ x, (meas x).2.PosDef) {p : X → Belief dx} {y : X → Fin dy → ℝ} (hp : Continuous p) (hpd : ∀ x, (p x).2.PosDef) (hy : Continuous y) (constCov : Bool) :
    Continuous fun x => sgpUpdate B sgps meas (p x) (y x) constCov := by
  have hchi := chi_continuous hB sgps hp hpd
  have hem : ∀ i, Continuous fun x => (meas (sgps.genSigmaPoints (p x).1 (B.chol (symmetrize (p x).2)) i)).1 := fun i => continuous_fst.comp (hm.comp (hchi i))
  have hex : ∀ i, Continuous fun x => (meas (sgps.genSigmaPoints (p x).1 (B.chol (symmetrize (p x).2)) i)).2 := fun i => continuous_snd.comp (hm.comp (hchi i))
  have hpred := expectation_continuous sgps hem
  have hC : Continuous fun x => sgps.expectation (fun i => vecMulVec (sgps.genSigmaPoints (p x).1 (B.chol (symmetrize (p x).2)) i)
      (meas (sgps.genSigmaPoints (p x).1 (B.chol (symmetrize (p x).2)) i)).1)
      - vecMulVec (p x).1 (sgps.expectation fun i => (meas (sgps.genSigmaPoints (p x).1 (B.chol (symmetrize (p x).2)) i)).1) :=
    (expectation_continuous sgps fun i => (hchi i).matrix_vecMulVec (hem i)).sub ((continuous_fst.comp hp).matrix_vecMulVec hpred)
  have hS : Continuous fun x => sgpInnov B sgps meas (p x) constCov := by
    simp only [sgpInnov]
    refine ((expectation_continuous sgps fun i => (hem i).matrix_vecMulVec (hem i)).sub (hpred.matrix_vecMulVec hpred)).add ?_
    simp only [dif_pos (nPoints_pos hr)]
    cases constCov
    · simpa using expectation_continuous sgps hex
    · simpa using hex _
  have h := fun x => sgpUpdate_eq hB hr hw meas hmP (p x) (hpd x) constCov rfl rfl rfl
  have hSi := posDef_inv_continuous hS fun x => (h x).1
  have hK := (hSi.matrix_mul hC.matrix_transpose).matrix_transpose
  have hc := chol_symmetrize_continuous hB hS fun x => (h x).1
  have hN := (logMvnPdf_continuous hy hpred hc (fun x => (chol_symm hB (h x).1).lower) fun x => (chol_symm hB (h x).1).diag_pos).neg
  refine Continuous.congr ?_ fun x => ((h x).2.2 (y x)).symm
  exact (((continuous_fst.comp hp).add (hK.matrix_mulVec (hy.sub hpred))).prodMk ((continuous_snd.comp hp).sub ((hK.matrix_mul hS).matrix_mul hK.matrix_transpose))).prodMk hN

theorem sgpUpdate_mass (hr : SecondOrder sgps.w sgps.xi) (hw : ∀ i, 0 ≤ sgps.w i) (meas : (Fin dx → ℝ) → (Fin dy → ℝ) × Matrix (Fin dy) (Fin dy) ℝ)
    (hmP : ∀ x, (meas x).2.PosDef) (p : Belief dx) (hp : p.2.PosDef) (constCov : Bool) :
    ∫⁻ y, ENNReal.ofReal (Real.exp (-(sgpUpdate B sgps meas p y constCov).2)) = 1 := by
  obtain ⟨h1, -, h3⟩ := sgpUpdate_eq hB hr hw meas hmP p hp constCov rfl rfl rfl
  have hc := chol_symm hB h1
  simp only [h3, neg_neg, exp_logMvnPdf _ _ hc.lower hc.diag_pos]
  exact lintegral_mvnPdf _ (PosDef.diagonal fun i => pow_pos (hc.diag_pos i) 2)

end cont

/-- **C213.** Let the sigma-point rule integrate quadratics exactly with nonnegative weights, the model functions be continuous, and transition, measurement and initial covariances positive definite.
Then the last negative log-likelihood that `sgp_filter` returns is a continuous function of the measurements, `exp(-nell)` integrates to one over all measurement sequences, and `nell` is a proper score
of the data: for measurements of every dimension. -/
theorem C213_sgp (B : Backend) (hB : B.Valid) (sgps : SigmaPoints dx) (hr : SecondOrder sgps.w sgps.xi) (hw : ∀ i, 0 ≤ sgps.w i) (state : (Fin dx → ℝ) → ℝ → Belief dx)
    (meas : (Fin dx → ℝ) → (Fin dy → ℝ) × Matrix (Fin dy) (Fin dy) ℝ) (m0 : Fin dx → ℝ) (v0 : Matrix (Fin dx) (Fin dx) ℝ) (dt : ℝ) (hs : Continuous fun x => state x dt)
    (hsP : ∀ x, (state x dt).2.PosDef) (hm : Continuous meas) (hmP : ∀ x, (meas x).2.PosDef) (hv0 : v0.PosDef) (constCov : Bool) (T : ℕ) (nell : (Fin (T + 1) → Fin dy → ℝ) → ℝ)
    (hn : ∀ ys o, (sgpFilter B state meas sgps m0 v0 dt (List.ofFn ys) constCov).getLast? = some o → nell ys = o.2) :
    (∀ ys : Fin (T + 1) → Fin dy → ℝ, ∃ o, (sgpFilter B state meas sgps m0 v0 dt (List.ofFn ys) constCov).getLast? = some o) ∧
    Continuous nell ∧ ∫⁻ ys, ENNReal.ofReal (Real.exp (-nell ys)) = 1 ∧ DensityScore volume nell := by
  let up : Belief dx → (Fin dy → ℝ) → Belief dx × ℝ := fun b y => sgpUpdate B sgps meas (sgpPrediction B sgps state dt b).1 y constCov
  have hpP : ∀ b, (sgpPrediction B sgps state dt b).1.2.PosDef := sgpPrediction_posDef hr hw state dt hsP
  let X := {b : Belief dx // b.2.PosDef}
  let g : X → (Fin dy → ℝ) → ℝ := fun x y => Real.exp (-(up x.1 y).2)
  let next : X → (Fin dy → ℝ) → X := fun x y => ⟨(up x.1 y).1, by
    obtain ⟨-, h2, h3⟩ := sgpUpdate_eq hB hr hw meas hmP _ (hpP x.1) constCov rfl rfl rfl
    show (sgpUpdate B sgps meas (sgpPrediction B sgps state dt x.1).1 y constCov).1.2.PosDef
    rw [h3 y]
    exact h2⟩
  have hb : Continuous fun q : X × (Fin dy → ℝ) => q.1.1 := continuous_subtype_val.comp continuous_fst
  have huc : Continuous fun q : X × (Fin dy → ℝ) => up q.1.1 q.2 :=
    sgpUpdate_continuous hB sgps hr hw meas hm hmP (sgpPrediction_continuous hB sgps state dt hs hb fun q => q.1.2) (fun q => hpP _) continuous_snd constCov
  have hg : Continuous fun q : X × (Fin dy → ℝ) => g q.1 q.2 := Real.continuous_exp.comp (continuous_snd.comp huc).neg
  have hnx : Continuous fun q : X × (Fin dy → ℝ) => next q.1 q.2 := (continuous_fst.comp huc).subtype_mk _
  have hg1 : ∀ x, ∫⁻ y, ENNReal.ofReal (g x y) = 1 := fun x => sgpUpdate_mass hB sgps hr hw meas hmP _ (hpP x.1) constCov
  have hrun : ∀ (ys : List (Fin dy → ℝ)) (x : X) (n : ℝ) (o : Belief dx × ℝ),
      ((x.1, n) :: (scan (filterBody (fun f => (sgpPrediction B sgps state dt f).1) fun p y => sgpUpdate B sgps meas p y constCov) (x.1, n) ys).2).getLast? = some o →
      Real.exp (-o.2) = Real.exp (-n) * chainLik g next x ys := by
    intro ys
    induction ys with
    | nil =>
      intro x n o ho
      rw [scan_filterBody_nil, List.getLast?_singleton, Option.some.injEq] at ho
      rw [← ho, chainLik, mul_one]
    | cons y ys ih =>
      intro x n o ho
      rw [scan_filterBody_cons, List.getLast?_cons_cons] at ho
      have := ih (next x y) (n + (up x.1 y).2) o ho
      rw [this, chainLik, neg_add, Real.exp_add, mul_assoc]
  have hout : ∀ ys : Fin (T + 1) → Fin dy → ℝ, ∃ o, (sgpFilter B state meas sgps m0 v0 dt (List.ofFn ys) constCov).getLast? = some o ∧
      Real.exp (-o.2) = chainLik g next ⟨(m0, v0), hv0⟩ (List.ofFn ys) := fun ys => by
    have hl : (sgpFilter B state meas sgps m0 v0 dt (List.ofFn ys) constCov).length = T + 1 := by
      rw [sgpFilter, scan_filterBody_length, List.length_ofFn]
    obtain ⟨o, ho⟩ : ∃ o, (sgpFilter B state meas sgps m0 v0 dt (List.ofFn ys) constCov).getLast? = some o :=
      ⟨_, List.getLast?_eq_some_getLast (by intro h; rw [h] at hl; simp at hl)⟩
    refine ⟨o, ho, ?_⟩
    rw [sgpFilter] at ho
    have := hrun (List.ofFn ys) ⟨(m0, v0), hv0⟩ 0 o (by rw [List.getLast?_cons, ho]; rfl)
    rwa [neg_zero, Real.exp_zero, one_mul] at this
  have he : ∀ ys, Real.exp (-nell ys) = chainLik g next ⟨(m0, v0), hv0⟩ (List.ofFn ys) := fun ys => by
    obtain ⟨o, h2, h3⟩ := hout ys
    rw [hn ys o h2, h3]
  have hc := (chainLik_continuous g next hg hnx (T + 1)).comp (continuous_const.prodMk continuous_id : Continuous fun ys : Fin (T + 1) → Fin dy → ℝ => ((⟨(m0, v0), hv0⟩ : X), ys))
  have hcn : Continuous nell := by
    refine (hc.log fun ys => by
      show chainLik g next ⟨(m0, v0), hv0⟩ (List.ofFn ys) ≠ 0
      rw [← he]; exact (Real.exp_pos _).ne').neg.congr fun ys => ?_
    show -Real.log (chainLik g next ⟨(m0, v0), hv0⟩ (List.ofFn ys)) = nell ys
    rw [← he, Real.log_exp, neg_neg]
  have hmass : ∫⁻ ys, ENNReal.ofReal (Real.exp (-nell ys)) = 1 := by
    simp only [he]
    exact lintegral_chainLik g next hg hnx (fun _ _ => (Real.exp_pos _).le) hg1 (T + 1) _
  refine ⟨fun ys => ?_, hcn, hmass, densityScore_of_lintegral hcn.measurable hmass⟩
  obtain ⟨o, h1, -⟩ := hout ys
  exact ⟨o, h1⟩

/-- **C213 (linear data).** If the data have the density of a linear Gaussian model, the expected difference between the negative log-likelihood of `sgp_filter`, for any nonlinear model, and that of `kf` at the true
model exists and is nonnegative; and `sgp_filter` is better by `c` with probability at most `exp (-c)`. -/
theorem C213_linear_data {dx' : ℕ} (B : Backend) (hB : B.Valid) (sgps : SigmaPoints dx) (hr : SecondOrder sgps.w sgps.xi) (hw : ∀ i, 0 ≤ sgps.w i) (F Sigma : Matrix (Fin dx') (Fin dx') ℝ) (H : Matrix (Fin 1) (Fin dx') ℝ) (Xi : Matrix (Fin 1) (Fin 1) ℝ)
    (m0' : Fin dx' → ℝ) (v0' : Matrix (Fin dx') (Fin dx') ℝ) (hv0' : v0'.PosDef) (hSig : Sigma.PosDef) (hXi : Xi.PosDef)
    (state : (Fin dx → ℝ) → ℝ → Belief dx) (meas : (Fin dx → ℝ) → (Fin 1 → ℝ) × Matrix (Fin 1) (Fin 1) ℝ) (m0 : Fin dx → ℝ) (v0 : Matrix (Fin dx) (Fin dx) ℝ) (dt : ℝ)
    (hs : Continuous fun x => state x dt) (hsP : ∀ x, (state x dt).2.PosDef)
    (hm : Continuous meas) (hmP : ∀ x, (meas x).2.PosDef) (hv0 : v0.PosDef) (constCov : Bool) (T : ℕ)
    (nell nell' : (Fin (T + 1) → Fin 1 → ℝ) → ℝ)
    (hn : ∀ ys out o, kf B F Sigma H Xi m0' v0' (List.ofFn ys) = some out → out.getLast? = some o → nell ys = o.2)
    (hn' : ∀ ys o, (sgpFilter B state meas sgps m0 v0 dt (List.ofFn ys) constCov).getLast? = some o → nell' ys = o.2) :
    ∫⁻ ys, ENNReal.ofReal (Real.exp (-nell ys) * (nell ys - nell' ys)) ≤ 1 ∧
    ∫⁻ ys, ENNReal.ofReal (Real.exp (-nell ys) * (nell ys - nell' ys)) ≤ ∫⁻ ys, ENNReal.ofReal (Real.exp (-nell ys) * (nell' ys - nell ys)) ∧
    ∀ c : ℝ, ∫⁻ ys in {ys | nell' ys ≤ nell ys - c}, ENNReal.ofReal (Real.exp (-nell ys)) ≤ ENNReal.ofReal (Real.exp (-c)) := by
  obtain ⟨-, h1, h2, -⟩ := C209_kf B F Sigma H Xi m0' v0' hv0' hSig hXi T nell hn
  obtain ⟨-, h1', -, h3⟩ := C213_sgp B hB sgps hr hw state meas m0 v0 dt hs hsP hm hmP hv0 constCov T nell' hn'
  obtain ⟨⟨ha, hb⟩, -, hd⟩ := h3 (fun ys => Real.exp (-nell ys)) (by have := h1.measurable; fun_prop) (fun _ => (Real.exp_pos _).le) h2
  have e : ∀ ys, Real.exp (-nell ys) * (nell' ys + Real.log (Real.exp (-nell ys))) = Real.exp (-nell ys) * (nell' ys - nell ys) := fun ys => by
    rw [Real.log_exp, sub_eq_add_neg]
  have e2 : ∀ ys, -(Real.exp (-nell ys) * (nell' ys - nell ys)) = Real.exp (-nell ys) * (nell ys - nell' ys) := fun ys => by ring
  simp only [e, e2] at ha hb
  refine ⟨ha, hb, fun c => hd c _ (measurableSet_le h1'.measurable (h1.measurable.sub_const c)) fun ys hys => ?_⟩
  rw [Real.log_exp, neg_neg]
  exact hys

/-- non-vacuity: the cubature rule in two dimensions with nonlinear dynamics, state-dependent noise and a two-dimensional nonlinear measurement. -/
example : ∃ (state : (Fin 2 → ℝ) → ℝ → Belief 2) (meas : (Fin 2 → ℝ) → (Fin 2 → ℝ) × Matrix (Fin 2) (Fin 2) ℝ) (nell : (Fin 3 → Fin 2 → ℝ) → ℝ),
    SecondOrder (SigmaPoints.cubature 2).w (SigmaPoints.cubature 2).xi ∧ (∀ i, 0 ≤ (SigmaPoints.cubature 2).w i) ∧ (Continuous fun x => state x 1) ∧ (∀ x, (state x 1).2.PosDef) ∧
    Continuous meas ∧ (∀ x, (meas x).2.PosDef) ∧ (∃ x y, (state x 1).2 ≠ (state y 1).2) ∧
    ∀ ys o, (sgpFilter theBackend state meas (SigmaPoints.cubature 2) 0 1 1 (List.ofFn ys) false).getLast? = some o → nell ys = o.2 := by
  have hd : Continuous fun x : Fin 2 → ℝ => (1 + x 0 ^ 2) • (1 : Matrix (Fin 2) (Fin 2) ℝ) := (continuous_const.add ((continuous_apply 0).pow 2)).smul continuous_const
  refine ⟨fun x _ => (fun i => Real.sin (x i), (1 + x 0 ^ 2) • 1), fun x => (fun i => x i ^ 3, 1),
    fun ys => (sgpFilter theBackend (fun x _ => (fun i => Real.sin (x i), (1 + x 0 ^ 2) • 1)) (fun x => (fun i => x i ^ 3, 1)) (SigmaPoints.cubature 2) 0 1 1 (List.ofFn ys) false).getLast?.elim 0 (·.2),
    (C72_cubature 2 (by norm_num)).1, fun i => by simp [SigmaPoints.cubature], ?_, fun x => PosDef.one.smul (by positivity), ?_, fun _ => PosDef.one, ⟨fun _ => 0, fun _ => 1, fun h => ?_⟩,
    fun ys o h => ?_⟩
  · exact (continuous_pi fun i => Real.continuous_sin.comp (continuous_apply i)).prodMk hd
  · exact (continuous_pi fun i => (continuous_apply i).pow 3).prodMk continuous_const
  · simpa using congrFun (congrFun h 0) 0
  · dsimp only
    rw [h]
    rfl

end Mfs.Props

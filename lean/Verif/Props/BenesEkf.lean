import Verif.Model.BenesGhf
import Verif.Props.BenesTme
import Verif.Props.SigmaPoints
import Verif.Props.NoBreak

/-!
# C190: on the Beneš–Bernoulli model the extended Kalman filter ignores the data, the other filters do not

`dardel/benes_bernoulli/ghf.py` says "Note that the extended Kalman filter will fail for this model by definition".
-/

namespace Mfs.Props

open Matrix Mfs.Classical Mfs.SsModels Mfs.Experiments

/-- one step of the variance recursion of `ekf` at the mean `0`. -/
noncomputable def ekfVar (state : (Fin 1 → ℝ) → ℝ → Belief 1) (dt : ℝ) (v : Matrix (Fin 1) (Fin 1) ℝ) : Matrix (Fin 1) (Fin 1) ℝ :=
  jac (fun u => (state u dt).1) 0 * v * (jac (fun u => (state u dt).1) 0)ᵀ + (state 0 dt).2

theorem logistic_zero : logistic 0 = 1 / 2 := by simp [logistic]; norm_num

theorem logistic_neg (x : ℝ) : logistic (-x) = 1 - logistic x := by
  have h1 : (0 : ℝ) < 1 + Real.exp (-x ^ 3 / 5) := by positivity
  have h2 : (0 : ℝ) < 1 + Real.exp (x ^ 3 / 5) := by positivity
  have h3 : Real.exp (-x ^ 3 / 5) * Real.exp (x ^ 3 / 5) = 1 := by rw [← Real.exp_add]; simp; ring_nf
  have e : -(-x) ^ 3 / 5 = x ^ 3 / 5 := by ring
  rw [logistic, logistic, e, eq_sub_iff_add_eq, div_add_div _ _ h2.ne' h1.ne', div_eq_one_iff_eq (by positivity)]
  linear_combination -h3

theorem hasDerivAt_logistic_zero : HasDerivAt logistic 0 0 := by
  have h : HasDerivAt (fun x : ℝ => 1 / (1 + Real.exp (-x ^ 3 / 5))) _ 0 :=
    ((((hasDerivAt_pow 3 (0 : ℝ)).neg.div_const 5).exp.const_add 1).inv (by positivity)).congr_of_eventuallyEq
      (Filter.Eventually.of_forall fun x => by simp)
  refine h.congr_deriv ?_
  simp

theorem jac_ghfMeas_zero : jac (fun u => (ghfMeas u).1) 0 = 0 := by
  have h : HasFDerivAt (fun u : Fin 1 → ℝ => (ghfMeas u).1) (0 : (Fin 1 → ℝ) →L[ℝ] Fin 1 → ℝ) 0 := by
    rw [hasFDerivAt_pi']
    intro i
    have h1 : HasFDerivAt (fun u : Fin 1 → ℝ => u 0) (ContinuousLinearMap.proj 0 : (Fin 1 → ℝ) →L[ℝ] ℝ) 0 :=
      (ContinuousLinearMap.proj 0 : (Fin 1 → ℝ) →L[ℝ] ℝ).hasFDerivAt
    have h2 := HasDerivAt.comp_hasFDerivAt (x := (0 : Fin 1 → ℝ)) (h₂ := logistic) (h₂' := 0) hasDerivAt_logistic_zero h1
    refine h2.congr_fderiv ?_
    ext v
    simp
  ext i j
  rw [jac, Matrix.of_apply, h.fderiv]
  rfl

theorem nell_half (y : Bool) : -logNormalPdf (if y then 1 else 0) (1 / 2) (1 / 4) = (1 + Real.log (Real.pi / 2)) / 2 := by
  have h : √(1 / 4 : ℝ) ^ 2 = 1 / 4 := Real.sq_sqrt (by norm_num)
  rw [logNormalPdf, h]
  have e : 2 * Real.pi * (1 / 4) = Real.pi / 2 := by ring
  rw [e]
  cases y <;> norm_num <;> ring

theorem ekfUpdate_zero (B : Backend) (ok : UpdateShapeOk 1 1) (v : Matrix (Fin 1) (Fin 1) ℝ) (y : Bool) :
    ekfUpdate B ok ghfMeas (0, v) (fun _ => if y then 1 else 0) = ((0, v), (1 + Real.log (Real.pi / 2)) / 2) := by
  have hp : (ghfMeas 0).1 = fun _ => 1 / 2 := by funext i; exact logistic_zero
  have hq : (ghfMeas 0).2 = Matrix.of fun _ _ => 1 / 4 := by
    ext i j
    change logistic 0 * (1 - logistic 0) = 1 / 4
    rw [logistic_zero]; norm_num
  have hK : linearGain B ok v (0 : Matrix (Fin 1) (Fin 1) ℝ) (0 * v * 0ᵀ + Matrix.of fun _ _ => 1 / 4) = 0 := by
    ext i j
    simp [linearGain]
  simp only [ekfUpdate, jac_ghfMeas_zero, hp, hq, linearUpdate, hK]
  refine Prod.ext (Prod.ext ?_ ?_) ?_
  · simp
  · simp
  · rw [linearNell, dif_pos rfl]
    simp only [Matrix.zero_mul, zero_add, Matrix.of_apply]
    exact nell_half y

theorem scan_at_zero (pr : Belief 1 → Belief 1) (up : Belief 1 → (Fin 1 → ℝ) → Belief 1 × ℝ) (g : Matrix (Fin 1) (Fin 1) ℝ → Matrix (Fin 1) (Fin 1) ℝ)
    (c : ℝ) (hp : ∀ v, pr (0, v) = (0, g v)) (hu : ∀ v (y : Bool), up (0, v) (fun _ => if y then 1 else 0) = ((0, v), c))
    (v : Matrix (Fin 1) (Fin 1) ℝ) (n : ℝ) (ys : List Bool) :
    (scan (filterBody pr up) ((0, v), n) (ghfYs ys)).2
      = (List.range ys.length).map fun k => ((0, g^[k + 1] v), n + (k + 1) * c) := by
  induction ys generalizing v n with
  | nil => rfl
  | cons y ys ih =>
    have hs : filterBody pr up ((0, v), n) (fun _ => if y then 1 else 0) = (((0, g v), n + c), ((0, g v), n + c)) := by
      simp only [filterBody, hp, hu]
    have hy : ghfYs (y :: ys) = (fun _ => if y then 1 else 0) :: ghfYs ys := rfl
    rw [hy]
    simp only [scan, hs]
    rw [ih, List.length_cons, List.range_succ_eq_map, List.map_cons, List.map_map]
    simp only [Nat.cast_zero, zero_add, one_mul, Function.iterate_one, Function.comp_def, Nat.succ_eq_add_one]
    congr 1
    refine List.map_congr_left fun k _ => ?_
    refine Prod.ext (Prod.ext rfl ?_) ?_
    · exact (Function.iterate_succ_apply g (k + 1) v).symm
    · push_cast; ring

/-- **C190 (extended Kalman filter).** Let the model of the transition map the mean `0` to the mean `0`. For every sequence of Boolean
measurements `ekf` of the Beneš–Bernoulli measurement model returns the mean `0` at all times, variances of the recursion without
measurements and the log-likelihood of `T` fair coins: nothing depends on the data. -/
theorem C190_ekf (B : Backend) (state : (Fin 1 → ℝ) → ℝ → Belief 1) (dt : ℝ) (h0 : (state 0 dt).1 = 0)
    (v0 : Matrix (Fin 1) (Fin 1) ℝ) (ys : List Bool) :
    ekf B state ghfMeas 0 v0 dt (ghfYs ys)
      = some ((List.range ys.length).map fun k : ℕ => ((0, (ekfVar state dt)^[k + 1] v0), (k + 1) * ((1 + Real.log (Real.pi / 2)) / 2))) := by
  have ok : UpdateShapeOk 1 1 := Or.inl rfl
  rw [ekf, dif_pos ok, scan_at_zero _ _ (ekfVar state dt) _ (fun v => ?_) (fun v y => ekfUpdate_zero B ok v y)]
  · simp
  · simp only [ekfPredict, h0, ekfVar]

/-- **C190 (the script's transition).** With `tme.mean_and_cov` of order at least two, the setting of the script, the variances are
`(1 + dt) ^ (2 k) (v0 + (1 + dt) / (2 + dt)) - (1 + dt) / (2 + dt)` after `k` steps. They grow exponentially, whatever is measured. -/
theorem C190_ekf_script (B : Backend) (dt : ℝ) (hdt : 0 < dt) (order : ℕ) (ho : 2 ≤ order) (v0 : ℝ) (ys : List Bool) :
    ekf B (ghfState order) ghfMeas 0 (Matrix.of fun _ _ => v0) dt (ghfYs ys)
      = some ((List.range ys.length).map fun k : ℕ =>
          ((0, Matrix.of fun _ _ => (1 + dt) ^ (2 * (k + 1)) * (v0 + (1 + dt) / (2 + dt)) - (1 + dt) / (2 + dt)),
            (k + 1) * ((1 + Real.log (Real.pi / 2)) / 2))) := by
  have hst : ∀ x : Fin 1 → ℝ, ghfState order x dt = (fun _ => x 0 + Real.tanh (x 0) * dt, Matrix.of fun _ _ => dt + (1 - Real.tanh (x 0) ^ 2) * dt ^ 2) := by
    intro x
    rw [ghfState, (C153_benes_mean_cov dt hdt order (by omega) (x 0)).1, if_neg (by omega)]
  have h0 : (ghfState order 0 dt).1 = 0 := by
    rw [hst]; funext i; simp
  have hJ : jac (fun u => (ghfState order u dt).1) 0 = Matrix.of fun _ _ => 1 + dt := by
    have h : HasFDerivAt (fun u : Fin 1 → ℝ => (ghfState order u dt).1)
        (ContinuousLinearMap.pi fun _ => (1 + dt) • (ContinuousLinearMap.proj 0 : (Fin 1 → ℝ) →L[ℝ] ℝ)) 0 := by
      simp only [hst]
      rw [hasFDerivAt_pi']
      intro i
      have h1 : HasFDerivAt (fun u : Fin 1 → ℝ => u 0) (ContinuousLinearMap.proj 0 : (Fin 1 → ℝ) →L[ℝ] ℝ) 0 :=
        (ContinuousLinearMap.proj 0 : (Fin 1 → ℝ) →L[ℝ] ℝ).hasFDerivAt
      have ht : HasDerivAt (fun z : ℝ => z + Real.tanh z * dt) (1 + dt) ((0 : Fin 1 → ℝ) 0) := by
        refine ((hasDerivAt_id _).add ((Mfs.Benes.hasDerivAt_tanh _).mul_const dt)).congr_deriv ?_
        simp
      refine (HasDerivAt.comp_hasFDerivAt (x := (0 : Fin 1 → ℝ)) ht h1).congr_fderiv ?_
      ext v
      simp
    ext i j
    rw [jac, Matrix.of_apply, h.fderiv]
    have : j = 0 := Subsingleton.elim _ _
    simp [this]
  have hg : ∀ v : ℝ, ekfVar (ghfState order) dt (Matrix.of fun _ _ => v) = Matrix.of fun _ _ => (1 + dt) ^ 2 * v + dt + dt ^ 2 := by
    intro v
    rw [ekfVar, hJ, hst]
    ext i j
    simp [Matrix.mul_apply]
    ring
  have hd : (2 + dt) ≠ 0 := by positivity
  have hit : ∀ k : ℕ, (ekfVar (ghfState order) dt)^[k] (Matrix.of fun _ _ => v0)
      = Matrix.of fun _ _ => (1 + dt) ^ (2 * k) * (v0 + (1 + dt) / (2 + dt)) - (1 + dt) / (2 + dt) := by
    intro k
    induction k with
    | zero => simp
    | succ k ih =>
      rw [Function.iterate_succ_apply', ih, hg]
      congr 1
      funext _ _
      rw [mul_add 2, pow_add]
      field_simp
      ring
  rw [C190_ekf B (ghfState order) dt h0]
  congr 1
  refine List.map_congr_left fun k _ => ?_
  rw [hit]

/-- **C190 (continuous-discrete extended Kalman filter).** `cd_ekf` of the model does not depend on the data either. -/
theorem C190_cd_ekf {dw : ℕ} (B : Backend) (disp : (Fin 1 → ℝ) → Matrix (Fin 1) (Fin dw) ℝ) (dt : ℝ) (v0 : Matrix (Fin 1) (Fin 1) ℝ)
    (ys : List Bool) : ∃ V : ℕ → Matrix (Fin 1) (Fin 1) ℝ,
    (∀ k, V (k + 1) = (rk4MCov (cdEkfOdes (fun x _ => benesDrift (x 0)) disp) 0 (V k) dt).2) ∧ V 0 = v0 ∧
    cdEkf B (fun x _ => benesDrift (x 0)) disp ghfMeas 0 v0 dt (ghfYs ys)
      = some ((List.range ys.length).map fun k : ℕ => ((0, V (k + 1)), (k + 1) * ((1 + Real.log (Real.pi / 2)) / 2))) := by
  have ok : UpdateShapeOk 1 1 := Or.inl rfl
  set g := fun v => (rk4MCov (cdEkfOdes (fun x _ => benesDrift (x 0)) disp) 0 v dt).2 with hg
  refine ⟨fun k => g^[k] v0, fun k => Function.iterate_succ_apply' g k v0, rfl, ?_⟩
  rw [cdEkf, dif_pos ok, scan_at_zero _ _ g _ (fun v => ?_) (fun v y => ekfUpdate_zero B ok v y)]
  · simp
  · have hz : (fun _ : Fin 1 => benesDrift ((0 : Fin 1 → ℝ) 0)) = 0 := by funext i; simp [benesDrift]
    refine Prod.ext ?_ rfl
    simp only [rk4MCov, cdEkfOdes, hz, smul_zero, add_zero]

/-- two opposite records of measurements give the same run of `ekf`; the hypotheses of `C190_ekf_script` at the values of the script. -/
example (B : Backend) : (0 : ℝ) < 1e-2 ∧ 2 ≤ 3 ∧
    ekf B (ghfState 3) ghfMeas 0 (Matrix.of fun _ _ => 0.3) 1e-2 (ghfYs [true, true]) = ekf B (ghfState 3) ghfMeas 0 (Matrix.of fun _ _ => 0.3) 1e-2 (ghfYs [false, true]) := by
  refine ⟨by norm_num, by norm_num, ?_⟩
  rw [C190_ekf_script B _ (by norm_num) 3 (by norm_num), C190_ekf_script B _ (by norm_num) 3 (by norm_num)]
  rfl

end Mfs.Props

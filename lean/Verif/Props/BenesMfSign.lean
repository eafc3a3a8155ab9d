import Verif.Props.BenesReflect
import Verif.Props.FilterJvp
import Verif.Props.NormalModels

/-!
# C190, continued: the moment filters of the Beneš–Bernoulli model
-/

namespace Mfs.Props

open Matrix Polynomial Mfs.Quad1 Mfs.Filter1 Mfs.Moments1 Mfs.SsModels Mfs.Experiments Mfs.Spec

variable {Y Z : Type}

theorem scan_comap {S O : Type} (f : Z → Y) (g : S → Y → S × O) (s : S) (zs : List Z) :
    scan g s (zs.map f) = scan (fun s z => g s (f z)) s zs := by
  induction zs generalizing s with
  | nil => rfl
  | cons z zs ih => simp only [List.map_cons, scan, ih]

theorem filterRms_comap (B : Backend) (P : ℝ → ℕ → ℝ) (pdf : Y → ℝ → ℝ) (f : Z → Y) (ms : List ℝ) (zs : List Z) (stable : Bool) :
    filterRms B P pdf ms (zs.map f) stable = filterRms B P (fun z => pdf (f z)) ms zs stable := by
  simp only [filterRms, scan_comap]
  rfl

theorem filterCms_comap (B : Backend) (P : ℝ → ℕ → ℝ → ℝ) (cm : ℝ → ℝ) (pdf : Y → ℝ → ℝ) (f : Z → Y) (ms : List ℝ) (m0 : ℝ) (zs : List Z)
    (stable : Bool) :
    filterCms B P cm pdf ms m0 (zs.map f) stable = filterCms B P cm (fun z => pdf (f z)) ms m0 zs stable := by
  simp only [filterCms, scan_comap]
  rfl

/-- the probability mass function of the reflected state and measurement. -/
theorem benesBool_neg (y : Bool) (x : ℝ) : benesBool (!y) (-x) = benesBool y x := by
  have h : ∀ x, benesBool true x = logistic x ∧ benesBool false x = 1 - logistic x := fun x => by
    simp [benesBool_eq, logistic]
  cases y
  · rw [Bool.not_false, (h _).1, (h _).2, logistic_neg]
  · rw [Bool.not_true, (h _).1, (h _).2, logistic_neg]; ring

/-- the initial law of the model is symmetric: odd moments vanish. -/
theorem init1_neg (N k : ℕ) (hk : k < 2 * N) : (-1) ^ k * (init1 N).rms.getD k 0 = (init1 N).rms.getD k 0 := by
  have h : ∀ m : ℝ, rawMomentOfNormal (-m) 0.05 k = (-1) ^ k * rawMomentOfNormal m 0.05 k := by
    intro m
    rw [rawNormal_raw _ _ (by norm_num), rawNormal_raw _ _ (by norm_num)]
    have h1 := gaussL_affine m (0.05 : ℝ).toNNReal 0 (-1) (X ^ k)
    rw [gaussL_apply, gaussL_apply] at h1
    have h2 : (NNReal.mk ((-1 : ℝ) ^ 2) (sq_nonneg (-1)) * (0.05 : ℝ).toNNReal) = (0.05 : ℝ).toNNReal := by
      ext; simp
    rw [h2] at h1
    simp only [eval_pow, eval_X, eval_comp, eval_add, eval_mul, eval_C, add_zero, neg_one_mul] at h1
    rw [h1, ← MeasureTheory.integral_const_mul]
    refine MeasureTheory.integral_congr_ae (.of_forall fun x => ?_)
    change (-x) ^ k = (-1) ^ k * x ^ k
    rw [neg_pow]
  have hr : (init1 N).rms.getD k 0 = rawMomentOfNormal (-0.5) 0.05 k * 0.5 + rawMomentOfNormal 0.5 0.05 k * 0.5 := by
    simp only [init1, GaussianSum1D.new]
    rw [List.getD_eq_getElem _ _ (by simpa using hk)]
    simp
  rw [hr, h 0.5]
  have hs : ((-1 : ℝ) ^ k) * (-1) ^ k = 1 := by rw [← mul_pow]; norm_num
  linear_combination (0.5 * rawMomentOfNormal 0.5 0.05 k) * hs

theorem init1_cms_eq (N : ℕ) : (init1 N).cms = (init1 N).rms ∧ (init1 N).mean = 0 := by
  have h0 : ([(⟨-0.5, 0.05, 0.5⟩ : Component), ⟨0.5, 0.05, 0.5⟩].map fun c => c.mean * c.weight).sum = 0 := by norm_num
  refine ⟨?_, h0⟩
  simp only [init1, GaussianSum1D.new, h0, sub_zero]

theorem init1_affine (N : ℕ) : affineMoments 0 (-1) (init1 N).rms = (init1 N).rms := by
  have hl : (init1 N).rms.length = 2 * N := by simp [init1, GaussianSum1D.new]
  refine List.ext_getElem (by simp [affineMoments]) fun k h1 h2 => ?_
  simp only [affineMoments, List.getElem_map, List.getElem_range]
  rw [Finset.sum_range_succ, Finset.sum_eq_zero]
  · rw [Nat.sub_self, pow_zero, Nat.choose_self, zero_add, mul_one, Nat.cast_one, mul_one, init1_neg N k (by omega), List.getD_eq_getElem _ _ h2]
  · intro j hj
    have := Finset.mem_range.1 hj
    rw [zero_pow (by omega)]
    ring

theorem affineMoments_neg (ms : List ℝ) : affineMoments 0 (-1) ms = ms.mapIdx fun k m => (-1) ^ k * m := by
  refine List.ext_getElem (by simp [affineMoments]) fun k h1 h2 => ?_
  simp only [affineMoments, List.getElem_map, List.getElem_range, List.getElem_mapIdx]
  rw [Finset.sum_range_succ, Finset.sum_eq_zero]
  · have : k < ms.length := by simpa using h2
    rw [Nat.sub_self, pow_zero, Nat.choose_self, zero_add, mul_one, Nat.cast_one, mul_one, List.getD_eq_getElem _ _ this]
  · intro j hj
    have := Finset.mem_range.1 hj
    rw [zero_pow (by omega)]
    ring

/-- **C190, moment filters.** On the Beneš–Bernoulli model, exchange every `True` for `False` and every `False` for `True`: the filter of
raw moments changes the sign of all odd moments, the filter of central moments that of the means and of the odd central moments, and
neither changes its negative log-likelihood. -/
theorem C190_mf_reflection (B : Backend) (hB : B.Valid) (stable : Bool) (N : ℕ) (hN : 2 ≤ N) (ys : List Bool) :
    let F := sdeCondMomentsEuler benesDrift dispersion1 dt1 N
    let g := init1 N
    (filterRms B F.raw benesBool g.rms (ys.map (!·)) stable
      = ((filterRms B F.raw benesBool g.rms ys stable).1.map (fun r => r.mapIdx fun k m => (-1) ^ k * m),
          (filterRms B F.raw benesBool g.rms ys stable).2)) ∧
    filterCms B F.central F.mean benesBool g.cms g.mean (ys.map (!·)) stable
      = ((filterCms B F.central F.mean benesBool g.cms g.mean ys stable).1.map (fun o => (o.1.mapIdx fun k c => (-1) ^ k * c, -o.2)),
          (filterCms B F.central F.mean benesBool g.cms g.mean ys stable).2) := by
  intro F g
  obtain ⟨hl, hpd⟩ := init1_cms N hN
  obtain ⟨hcr, hm⟩ := init1_cms_eq N
  rw [hcr] at hl hpd
  have h0 : (init1 N).rms.getD 0 0 = 1 := by
    simp only [init1, GaussianSum1D.new]
    rw [List.getD_eq_getElem _ _ (by simp; omega)]
    norm_num [rawMomentOfNormal, rawMomentOfStandardNormal]
  have h := C125_euler_units B hB stable 0 (-1) (by norm_num) benesDrift benesDrift dispersion1 (fun _ => -1)
    (fun x => by simp [benesDrift]) (fun x => by simp [dispersion1]) dt1 (by norm_num [dt1]) (fun x => by simp [dispersion1]) N
    benesBool (fun y => benesBool (!y)) (fun y x => by rw [zero_add, neg_one_mul, benesBool_neg]) benesBool_pos (init1 N).rms (by omega)
    (by omega) h0 hpd 0 ys
  have hF : sdeCondMomentsEuler benesDrift (fun _ => -1) dt1 N = F := by
    simp [F, sdeCondMomentsEuler, dispersion1]
  rw [hF] at h
  dsimp only at h
  obtain ⟨h1, h2⟩ := h
  rw [← affineMoments_neg, init1_affine, zero_add, mul_zero] at h2
  rw [init1_affine] at h1
  constructor
  · rw [filterRms_comap]
    rw [show affineMoments 0 (-1) = fun r => r.mapIdx fun k m => (-1) ^ k * m from funext affineMoments_neg] at h1
    exact h1
  · rw [filterCms_comap]
    simp only [g, hcr, hm]
    refine h2.trans ?_
    simp only [zero_add, neg_one_mul]
    rfl

/-- the mean after the first measurement, for a rule with mean zero and positive second moment. -/
theorem mean_pos_of_rule {n : ℕ} (r : (Fin n → ℝ) × (Fin n → ℝ)) (hw : ∀ i, 0 ≤ r.1 i) (h1 : integ r (fun x => x) = 0)
    (h2 : 0 < integ r (fun x => x ^ 2)) : 0 < integ r fun x => x * logistic x := by
  have h : integ r (fun x => x * logistic x) = ∑ i, r.1 i * (r.2 i * (logistic (r.2 i) - 1 / 2)) := by
    have : integ r (fun x => x * logistic x) - 1 / 2 * integ r (fun x => x) = ∑ i, r.1 i * (r.2 i * (logistic (r.2 i) - 1 / 2)) := by
      simp only [integ, Finset.mul_sum, ← Finset.sum_sub_distrib]
      exact Finset.sum_congr rfl fun i _ => by ring
    rw [← this, h1]; ring
  have hnn : ∀ i, 0 ≤ r.1 i * (r.2 i * (logistic (r.2 i) - 1 / 2)) := fun i => by
    by_cases hx : r.2 i = 0
    · rw [hx]; simp
    · exact mul_nonneg (hw i) (logistic_gt hx).le
  rw [h]
  refine lt_of_le_of_ne (Finset.sum_nonneg fun i _ => hnn i) fun he => ?_
  rw [eq_comm, Finset.sum_eq_zero_iff_of_nonneg fun i _ => hnn i] at he
  refine h2.ne' (Finset.sum_eq_zero fun i hi => ?_)
  by_cases hx : r.2 i = 0
  · simp [hx]
  · rcases mul_eq_zero.1 (he i hi) with h | h
    · rw [h, zero_mul]
    · exact absurd h (logistic_gt hx).ne'

/-- **C190, moment filters.** The mean after a first measurement `True` is positive, that after `False` its negative: unlike the extended
Kalman filter, the moment filters of the same model use the measurement. -/
theorem C190_mf_responds (B : Backend) (hB : B.Valid) (stable : Bool) (N : ℕ) (hN : 2 ≤ N) :
    ∃ c : ℝ, 0 < c ∧ ∀ (y : Bool) (ys : List Bool),
      let F := sdeCondMomentsEuler benesDrift dispersion1 dt1 N
      let g := init1 N
      ((filterRms B F.raw benesBool g.rms (y :: ys) stable).1.getD 0 []).getD 1 0 = (if y then c else -c) ∧
      ((filterCms B F.central F.mean benesBool g.cms g.mean (y :: ys) stable).1.getD 0 ([], 0)).2 = (if y then c else -c) := by
  set F := sdeCondMomentsEuler benesDrift dispersion1 dt1 N with hF
  obtain ⟨hl, hpd⟩ := init1_cms N hN
  rw [(init1_cms_eq N).1] at hl hpd
  have h0 : (init1 N).rms.getD 0 0 = 1 := by
    simp only [init1, GaussianSum1D.new]
    rw [List.getD_eq_getElem _ _ (by simp; omega)]
    norm_num [rawMomentOfNormal, rawMomentOfStandardNormal]
  have hdt : 0 < dt1 := by norm_num [dt1]
  -- the rule of the initial law is symmetric
  have hsym : ∀ f : ℝ → ℝ, integ (momentQuadrature B (init1 N).rms 0 1 false stable) f
      = integ (momentQuadrature B (init1 N).rms 0 1 false stable) fun x => f (-x) := by
    intro f
    have := rule_affineMoments B hB (init1 N).rms h0 hpd 0 (-1) (by norm_num) stable stable f
    rw [init1_affine] at this
    simpa using this
  -- the predicted moments
  set ps := predRms B stable F.raw (2 * N) (init1 N).rms with hps
  have hpsl : ps.length = 2 * N := by simp [hps, predRms]
  have hpsk : ∀ k < 2 * N, ps.getD k 0 = integ (momentQuadrature B (init1 N).rms 0 1 false stable) fun x => F.raw x k := by
    intro k hk
    rw [hps, predRms, List.getD_eq_getElem _ _ (by simpa using hk)]
    simp
  have hpspd : (gramOf ps).PosDef := (C128_benes B hB stable stable N hN []).2.1
  have hps1 : ps.getD 1 0 = 0 := by
    rw [hpsk 1 (by omega)]
    have hr : ∀ x, F.raw x 1 = x + benesDrift x * dt1 := fun x => by
      rw [(euler_functional benesDrift dispersion1 dt1 hdt.le N x 1 (by omega)).1, gaussL_apply]
      simp
    simp only [hr]
    have := hsym fun x => x + benesDrift x * dt1
    have hodd : (fun x => -x + benesDrift (-x) * dt1) = fun x => -(x + benesDrift x * dt1) := by
      funext x
      simp only [benesDrift, Real.tanh_neg]
      ring
    rw [hodd] at this
    have hneg : integ (momentQuadrature B (init1 N).rms 0 1 false stable) (fun x => -(x + benesDrift x * dt1))
        = -integ (momentQuadrature B (init1 N).rms 0 1 false stable) (fun x => x + benesDrift x * dt1) := by
      simp only [integ, mul_neg, Finset.sum_neg_distrib]
    rw [hneg] at this
    linarith
  have hps0 : 0 < ps.getD 0 0 ∧ 0 < ps.getD 2 0 := by
    have hd := fun i => hpspd.diag_pos (i := i)
    constructor
    · simpa [gramOf, hankelMat] using hd ⟨0, by omega⟩
    · simpa [gramOf, hankelMat] using hd ⟨1, by omega⟩
  set r := momentQuadrature B ps 0 1 false stable with hr
  have hrw := C09_weights_probability B hB ps (by omega) 0 1 false stable
  have hr1 : integ r (fun x => x) = 0 := by
    have := C08_reproduces_moments B hB ps hpspd false stable 1 (by omega)
    rw [hps1, zero_div] at this
    simpa [integ] using this
  have hr2 : 0 < integ r (fun x => x ^ 2) := by
    have := C08_reproduces_moments B hB ps hpspd false stable 2 (by omega)
    rw [hr]
    refine lt_of_lt_of_eq (div_pos hps0.2 hps0.1) this.symm
  have hpos := mean_pos_of_rule r hrw.1 hr1 hr2
  have hlik : 0 < integ r (benesBool true) := by
    refine lt_of_le_of_ne (Finset.sum_nonneg fun i _ => mul_nonneg (hrw.1 i) (benesBool_pos _ _).le) fun he' => ?_
    have he : ∑ i, r.1 i * benesBool true (r.2 i) = 0 := he'.symm
    rw [Finset.sum_eq_zero_iff_of_nonneg fun i _ => mul_nonneg (hrw.1 i) (benesBool_pos _ _).le] at he
    have : ∑ i, r.1 i = 0 := Finset.sum_eq_zero fun i hi => (mul_eq_zero.1 (he i hi)).resolve_right (benesBool_pos _ _).ne'
    rw [hrw.2] at this
    exact one_ne_zero this
  set c := integ r (fun x => x ^ 1 * benesBool true x) / integ r (benesBool true) with hc
  have hcpos : 0 < c := by
    refine div_pos ?_ hlik
    simpa [benesBool, benesPmf, bernoulliPmf] using hpos
  have htrue : ∀ ys : List Bool, ((filterRms B F.raw benesBool (init1 N).rms (true :: ys) stable).1.getD 0 []).getD 1 0 = c := by
    intro ys
    rw [filterRms_eq, traj, List.getD_cons_zero, nextRms, hl, List.getD_eq_getElem _ _ (by simp; omega)]
    simp only [List.getElem_map, List.getElem_range]
    rfl
  have hraw : ∀ (y : Bool) (ys : List Bool), ((filterRms B F.raw benesBool (init1 N).rms (y :: ys) stable).1.getD 0 []).getD 1 0
      = if y then c else -c := by
    intro y ys
    cases y
    · have h := (C190_mf_reflection B hB stable N hN (true :: ys.map (!·))).1
      rw [List.map_cons, List.map_map, Bool.not_true, show ((!·) ∘ (!·) : Bool → Bool) = id from by funext b; simp, List.map_id] at h
      rw [h]
      have ht := htrue (ys.map (!·))
      rw [← hF]
      generalize (filterRms B F.raw benesBool (init1 N).rms (true :: ys.map (!·)) stable).1 = l at ht ⊢
      rcases l with - | ⟨- | ⟨x, - | ⟨z, t⟩⟩, l⟩
      · exact absurd ht hcpos.ne
      · exact absurd ht hcpos.ne
      · exact absurd ht hcpos.ne
      · have hz : z = c := ht
        rw [← hz]
        simp
    · exact htrue ys
  refine ⟨c, hcpos, fun y ys => ⟨hraw y ys, ?_⟩⟩
  obtain ⟨-, -, -, la, lb, h⟩ := C128_benes B hB stable stable N hN (y :: ys)
  have ha : 0 < (filterRms B F.raw benesBool (init1 N).rms (y :: ys) stable).1.length := by rw [la]; simp
  have hb : 0 < (filterCms B F.central F.mean benesBool (init1 N).cms (init1 N).mean (y :: ys) stable).1.length := by rw [lb]; simp
  obtain ⟨-, -, -, -, L, -, hLX, hLk, -⟩ := h 0 _ _ (List.getElem?_eq_getElem ha) (List.getElem?_eq_getElem hb)
  have h1 := (hLk 1 (by omega)).1
  rw [pow_one, ← hLX] at h1
  rw [List.getD_eq_getElem _ _ hb, ← h1, ← hraw y ys, List.getD_eq_getElem _ _ ha]

/-- the hypotheses, and a run to which the theorems apply. -/
example : (∃ B : Backend, B.Valid) ∧ 2 ≤ 3 ∧ [true, true, false].map (!·) = [false, false, true] := ⟨⟨_, theBackend_valid⟩, by norm_num, rfl⟩

end Mfs.Props

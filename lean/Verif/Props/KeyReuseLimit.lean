import Verif.Props.ConvergencePf
import Verif.Props.KeyLaw

/-!
# C182: with a key used twice the bootstrap filter converges to the filtering laws of another model
-/

namespace Mfs.Props

open Mfs.Smc Mfs.Spec Mfs.Prng Mfs.Experiments Mfs.Converge Mfs.Lemmas Mfs.OrderStat MeasureTheory ProbabilityTheory Filter Topology
open scoped NNReal ENNReal

variable {K : Type} [MeasurableSpace K]

/-- the clouds of `bootstrap_filter` started with the library's sampler of `N(m0, s0²)`, on `x' = a x + σ w` observed in `N(0, R)` noise, with stratified
resampling. -/
noncomputable def reuseCloud (G : Gen K) (m0 s0 a σ R : ℝ) (ys : List ℝ) (n t : ℕ) [NeZero n] (key : K) : Fin n → ℝ :=
  (Prng.bootstrapFilter G (scriptTransition G (fun x => a * x) fun _ => σ ^ 2) (fun y s i => normPdf y (s i) (√R)) ys
    (sampler1 G ssCount [⟨m0, s0 ^ 2, 1⟩]) key (resampleIdx (Prng.systematicOrStratified G ssCount false))).1.getD t
    (sampler1 G ssCount [⟨m0, s0 ^ 2, 1⟩] key)

omit [MeasurableSpace K] in
/-- the clouds that `bootstrap_filter` returns, with the measurements tagged by a flag. -/
theorem bootstrap_lastCloud {n : ℕ} [NeZero n] {X Y : Type} (g : Y → X → ℝ) (tr : Bool × Y → (Fin n → X) → K → Fin n → X) (transition : (Fin n → X) → K → Fin n → X)
    (htr : ∀ y, tr (false, y) = transition) (resampling : (Fin n → ℝ) → K → Fin n → ℕ) (splitFst : K → K) (zs : List Y) (kk : ℕ → K)
    (s : Fin n → X) (r : ℝ) :
    (scan (bootstrapBody transition (fun y s i => g y (s i)) (resampleIdx resampling) splitFst) (s, r) (zs.zip (List.ofFn fun i : Fin zs.length => kk i))).2.getLastD s
      = lastCloud (fun y => g y.2) tr resampling splitFst (zs.map (Prod.mk false)) s fun i => kk i := by
  induction zs generalizing s r kk with
  | nil => rfl
  | cons y zs ih =>
    have hz : (y :: zs).zip (List.ofFn fun i : Fin (y :: zs).length => kk i) = (y, kk 0) :: zs.zip (List.ofFn fun i : Fin zs.length => kk (i + 1)) := by
      have : (List.ofFn fun i : Fin (zs.length + 1) => kk i) = kk 0 :: List.ofFn fun i : Fin zs.length => kk (i + 1) := List.ofFn_succ
      rw [List.length_cons, this, List.zip_cons_cons]
    rw [hz]
    show _ = lastCloud (fun y => g y.2) tr resampling splitFst (zs.map (Prod.mk false)) (cloudStep (fun y : Bool × Y => g y.2) (tr (false, y)) resampling splitFst s (false, y) (kk 0))
      fun i => kk (i + 1)
    rw [← ih (fun i => kk (i + 1)) _ (r - Real.log ((∑ i, g y (transition s (kk 0) i)) / n)), htr]
    simp only [scan, bootstrapBody, List.getLastD_cons]
    rfl

/-- the transition that the key used twice makes of the first step. -/
noncomputable def reuseTr (G : Gen K) (m0 s0 a σ : ℝ) {n : ℕ} (y : Bool × ℝ) (s : Fin n → ℝ) (k : K) : Fin n → ℝ :=
  if y.1 then fun i => a * m0 + √((a * s0 + σ) ^ 2) * G.normal k n i else scriptTransition G (fun x => a * x) (fun _ => σ ^ 2) s k

/-- the same as a kernel. -/
noncomputable def reuseKernel (m0 s0 a σ : ℝ) (y : Bool × ℝ) : Kernel ℝ ℝ :=
  if y.1 then Kernel.const ℝ (gaussianReal (a * m0) ((a * s0 + σ) ^ 2).toNNReal) else linKernel a (σ ^ 2).toNNReal

instance (m0 s0 a σ : ℝ) (y : Bool × ℝ) : IsMarkovKernel (reuseKernel m0 s0 a σ y) := by
  rw [reuseKernel]; split_ifs <;> infer_instance

theorem reuse_markovEY (m0 s0 a σ R : ℝ) (φ : ℝ → ℝ) (ys : List ℝ) :
    markovEY (reuseKernel m0 s0 a σ) (fun y z => normPdf y.2 z (√R)) φ (ys.map (Prod.mk false))
      = markovE (linKernel a (σ ^ 2).toNNReal) (fun y z => normPdf y z (√R)) φ ys := by
  induction ys with
  | nil => rfl
  | cons y ys ih => funext x; simp only [List.map_cons, markovEY, markovE, ih, reuseKernel, Bool.false_eq_true, if_false]

omit [MeasurableSpace K] in
theorem reuseCloud_eq {G : Gen K} (hl : ∀ k num, (G.split k num).length = num) {m0 s0 a σ R : ℝ} (hs : 0 ≤ s0) (hσ : 0 ≤ σ) (ha : 0 ≤ a) (y : ℝ) (ys : List ℝ)
    (hk : ∀ key, G.key key (y :: ys).length 0 = G.fst key) (n t : ℕ) [NeZero n] (ht : t < (y :: ys).length) (s : Fin n → ℝ) (key : K)
    (hle : (((true, y) :: (ys.take t).map (Prod.mk false)) : List (Bool × ℝ)).length ≤ (y :: ys).length) :
    lastCloud (fun (y : Bool × ℝ) z => normPdf y.2 z (√R)) (reuseTr G m0 s0 a σ) (Prng.systematicOrStratified G ssCount false) G.fst
      ((true, y) :: (ys.take t).map (Prod.mk false)) s (fun i => G.key key (y :: ys).length (Fin.castLE hle i))
      = reuseCloud G m0 s0 a σ R (y :: ys) n t key := by
  set body := bootstrapBody (n := n) (scriptTransition G (fun x => a * x) fun _ => σ ^ 2) (fun y s i => normPdf y (s i) (√R))
    (resampleIdx (Prng.systematicOrStratified G ssCount false)) G.fst with hbody
  set x0 : Fin n → ℝ := sampler1 G ssCount [⟨m0, s0 ^ 2, 1⟩] key with hx0
  have hsp : G.split key (y :: ys).length = List.ofFn fun i : Fin (y :: ys).length => G.key key (y :: ys).length i := by
    refine List.ext_getElem (by rw [hl, List.length_ofFn]) fun i h1 h2 => ?_
    rw [List.getElem_ofFn, Gen.key, List.getD_eq_getElem _ _ h1]
  have htk : (G.split key (y :: ys).length).take (t + 1) = G.key key (y :: ys).length 0 :: List.ofFn fun i : Fin (ys.take t).length => G.key key (y :: ys).length (i + 1) := by
    rw [hsp]
    refine List.ext_getElem ?_ fun i h1 h2 => ?_
    · simp only [List.length_take, List.length_ofFn, List.length_cons] at ht ⊢
      omega
    · cases i <;> simp
  have h1 : reuseCloud G m0 s0 a σ R (y :: ys) n t key
      = (scan body (x0, 0) ((y :: ys.take t).zip (G.key key (y :: ys).length 0 :: List.ofFn fun i : Fin (ys.take t).length => G.key key (y :: ys).length (i + 1)))).2.getLastD x0 := by
    rw [← htk, ← List.take_succ_cons, ← take_zip', scan_take, List.getLastD_eq_getLast?, List.getLast?_take]
    have hlen : t < (scan body (x0, 0) ((y :: ys).zip (G.split key (y :: ys).length))).2.length := by
      rw [scan_len, List.length_zip, hl, min_self]; exact ht
    show (scan body (x0, 0) ((y :: ys).zip (G.split key (y :: ys).length))).2.getD t x0 = _
    rw [List.getD_eq_getElem _ _ hlen, if_neg (Nat.succ_ne_zero t), Nat.add_sub_cancel, List.getElem?_eq_getElem hlen]
    rfl
  have hfirst : scriptTransition G (fun x => a * x) (fun _ => σ ^ 2) x0 (G.key key (y :: ys).length 0)
      = fun i : Fin n => a * m0 + √((a * s0 + σ) ^ 2) * G.normal (G.key key (y :: ys).length 0) n i := by
    funext i
    rw [hk key]
    simp [scriptTransition, hx0, sampler1, Real.sqrt_sq hs, Real.sqrt_sq hσ, Real.sqrt_sq (by positivity : 0 ≤ a * s0 + σ)]
    ring
  rw [h1, List.zip_cons_cons]
  show lastCloud (fun (y : Bool × ℝ) z => normPdf y.2 z (√R)) (reuseTr G m0 s0 a σ) (Prng.systematicOrStratified G ssCount false) G.fst
      ((ys.take t).map (Prod.mk false)) (cloudStep (fun (y : Bool × ℝ) z => normPdf y.2 z (√R)) (reuseTr G m0 s0 a σ (true, y)) (Prng.systematicOrStratified G ssCount false) G.fst
        s (true, y) (G.key key (y :: ys).length 0)) (fun i => G.key key (y :: ys).length (i + 1)) = _
  rw [← bootstrap_lastCloud (fun y z => normPdf y z (√R)) (reuseTr G m0 s0 a σ) (scriptTransition G (fun x => a * x) fun _ => σ ^ 2) (fun _ => rfl) _ _ _
    (fun i => G.key key (y :: ys).length (i + 1)) _ (0 - Real.log ((∑ i, normPdf y (scriptTransition G (fun x => a * x) (fun _ => σ ^ 2) x0 (G.key key (y :: ys).length 0) i) (√R)) / n))]
  have hstep : cloudStep (fun (y : Bool × ℝ) z => normPdf y.2 z (√R)) (reuseTr G m0 s0 a σ (true, y)) (Prng.systematicOrStratified G ssCount false) G.fst
        s (true, y) (G.key key (y :: ys).length 0) = (body (x0, 0) (y, G.key key (y :: ys).length 0)).1.1 := by
    simp only [hbody, bootstrapBody, hfirst, cloudStep, reuseTr, if_true, resampleIdx]
    rfl
  rw [hstep]
  simp only [scan, hbody, List.getLastD_cons]
  rfl

/-- **C182.** When the first of the keys for the measurements is also the first of two keys (as it always is for two measurements), the particle averages of every
integrable function tend in probability, at every time, to its filtering mean for the model whose *initial variance is `s0² + 2 s0 σ / a`* instead of `s0²`. -/
theorem C182_limit {G : Gen K} {ρ : Measure K} (hG : IdealGen G ρ) {m0 s0 a σ R : ℝ} (hs : 0 < s0) (ha : 0 < a) (hσ : 0 < σ) (hR : 0 < R) (ys : List ℝ)
    (hk : ∀ key, G.key key ys.length 0 = G.fst key) (t : ℕ) (ht : t < ys.length) (f : ℝ → ℝ) (hf : Measurable f)
    (hi : Integrable f (gaussianReal ((kf a (σ ^ 2) R m0 (s0 ^ 2 + 2 * s0 * σ / a) ys).1.getD t (0, 0)).1
      ((kf a (σ ^ 2) R m0 (s0 ^ 2 + 2 * s0 * σ / a) ys).1.getD t (0, 0)).2.toNNReal)) (ε : ℝ) (hε : 0 < ε) :
    Tendsto (fun n : ℕ => ρ.real {key | ε ≤ |(∑ j, f (reuseCloud G m0 s0 a σ R ys (n + 1) t key j)) / (n + 1 : ℕ)
      - ∫ x, f x ∂gaussianReal ((kf a (σ ^ 2) R m0 (s0 ^ 2 + 2 * s0 * σ / a) ys).1.getD t (0, 0)).1
        ((kf a (σ ^ 2) R m0 (s0 ^ 2 + 2 * s0 * σ / a) ys).1.getD t (0, 0)).2.toNNReal|}) atTop (𝓝 0) := by
  have := hG.prob
  set v0 := s0 ^ 2 + 2 * s0 * σ / a with hv0
  have hv0p : 0 < v0 := by positivity
  obtain ⟨y, zs, rfl⟩ : ∃ y zs, ys = y :: zs := by
    cases ys with
    | nil => simp at ht
    | cons y zs => exact ⟨y, zs, rfl⟩
  set c := (scan (kfBody a (σ ^ 2) R) (m0, v0, 0) ((y :: zs).take (t + 1))).1 with hc
  have hget : (kf a (σ ^ 2) R m0 v0 (y :: zs)).1.getD t (0, 0) = (c.1, c.2.1) := kf_getD a (σ ^ 2) R (y :: zs) (m0, v0, 0) t ht (0, 0)
  rw [hget] at hi ⊢
  have hS : 0 < σ ^ 2 := by positivity
  have hS0 : (σ ^ 2).toNNReal ≠ 0 := by rw [Ne, Real.toNNReal_eq_zero, not_le]; exact hS
  have hvp : (a ^ 2).toNNReal * v0.toNNReal + (σ ^ 2).toNNReal = ((a * s0 + σ) ^ 2).toNNReal := by
    apply NNReal.eq
    rw [NNReal.coe_add, NNReal.coe_mul, Real.coe_toNNReal _ (sq_nonneg (a * s0 + σ)), Real.coe_toNNReal _ (sq_nonneg a), Real.coe_toNNReal _ hv0p.le,
      Real.coe_toNNReal _ hS.le, hv0]
    field_simp
    ring
  set l : List (Bool × ℝ) := (true, y) :: (zs.take t).map (Prod.mk false) with hl
  have hllen : l.length = t + 1 := by
    simp only [hl, List.length_cons, List.length_map, List.length_take]
    simp only [List.length_cons] at ht
    omega
  have hle : l.length ≤ (y :: zs).length := by rw [hllen]; exact ht
  have hη : ∀ φ : ℝ → ℝ, Measurable φ → ∀ B, (∀ x, |φ x| ≤ B) →
      ∫ x, markovEY (reuseKernel m0 s0 a σ) (fun y z => normPdf y.2 z (√R)) (fun x => φ (id x)) l x ∂gaussianReal 0 (0 : ℝ).toNNReal
        = Real.exp (0 - c.2.2) * ∫ x, φ x ∂gaussianReal c.1 c.2.1.toNNReal := by
    intro φ hφ B hB
    have hpg : PolyGrowth φ := ⟨B, 0, fun x => by have := hB x; have := abs_nonneg (φ x); simp only [pow_zero]; linarith⟩
    rw [← (kf_markovE a hS hR hφ hpg ((y :: zs).take (t + 1)) m0 v0 0 hv0p).2]
    obtain ⟨h1, h2⟩ := markovE_good (F := a) hS0 hR hφ hpg (zs.take t)
    rw [List.take_succ_cons]
    have e1 : ∫ x, markovE (linKernel a (σ ^ 2).toNNReal) (fun y z => normPdf y z (√R)) φ (y :: zs.take t) x ∂gaussianReal m0 v0.toNNReal
        = ∫ z, normPdf y z (√R) * markovE (linKernel a (σ ^ 2).toNNReal) (fun y z => normPdf y z (√R)) φ (zs.take t) z
          ∂(gaussianReal m0 v0.toNNReal).bind (linKernel a (σ ^ 2).toNNReal) :=
      ((linKernel_good a hS0).integral_bind (gaussianReal_expMoments m0 _) ((normPdf_continuous y _).measurable.mul h1)
        (polyGrowth_normPdf_mul y hR h2)).symm
    rw [e1, bind_linKernel, hvp]
    simp only [hl, id, markovEY, reuse_markovEY, reuseKernel, if_true, Kernel.const_apply]
    simp
  rw [Metric.tendsto_atTop]
  intro δ hδ
  obtain ⟨Rc, hRc, hcut, N, hN⟩ := exists_cutoff (gaussianReal c.1 c.2.1.toNNReal) hf hi
    (4 * (2 * (t + 1) + 1) * (normPdf 0 0 (√R) ^ (t + 1)) ^ 2) (Real.exp (0 - c.2.2)) (ε := ε / 3) (δ := δ / 2) (by positivity) (by positivity)
  refine ⟨N, fun n hn' => ?_⟩
  rw [Real.dist_0_eq_abs, abs_of_nonneg measureReal_nonneg]
  obtain ⟨hrm, hrange, hres, hvr⟩ := idealGen_stratified hG (n + 1)
  have hkeys : ρ.map (fun key => ((fun i : Fin (n + 1) => (0 : ℝ) + √0 * G.normal key (n + 1) i), fun i : Fin (y :: zs).length => G.key key (y :: zs).length i))
      = (Measure.pi fun _ => gaussianReal 0 (0 : ℝ).toNNReal).prod (Measure.pi fun _ => ρ) :=
    idealGen_normals hG (y :: zs).length (n + 1) (fun _ => 0) (fun _ => 0) fun _ => le_rfl
  have h := runR_prob (n := n + 1) (reuseTr G m0 s0 a σ) (fun (y : Bool × ℝ) z => normPdf y.2 z (√R)) l
    (fun key i => (0 : ℝ) + √0 * G.normal key (n + 1) i) (Prng.systematicOrStratified G ssCount false) G.fst
    (fun key i => G.key key (y :: zs).length (Fin.castLE hle i)) ρ ρ ρ (reuseKernel m0 s0 a σ) (gaussianReal 0 (0 : ℝ).toNNReal) (normPdf 0 0 (√R))
    (fun y => (normPdf_continuous y.2 _).measurable) (fun _ _ => normPdf_pos _ _ _)
    (fun y x => by
      refine (normPdf_le y.2 _ hR).trans (le_of_eq ?_)
      simp [normPdf, normLogpdf])
    (fun y => by
      refine measurable_pi_lambda _ fun i => ?_
      have h2 : Measurable fun r : (Fin (n + 1) → ℝ) × K => G.normal r.2 (n + 1) i := (hG.measurable_normal _ _).comp measurable_snd
      rcases y with ⟨b, y⟩
      cases b
      · simp only [reuseTr, scriptTransition, Bool.false_eq_true, if_false]
        fun_prop
      · simp only [reuseTr, if_true]
        fun_prop)
    hrm (hG.measurable_key 2 0) (ideal_take hle hkeys)
    (fun y s => by
      rcases y with ⟨b, y⟩
      cases b
      · simp only [reuseTr, reuseKernel, Bool.false_eq_true, if_false]
        exact idealGen_normals_fst hG (n + 1) _ _ fun i => hS.le
      · simp only [reuseTr, reuseKernel, if_true, Kernel.const_apply]
        exact idealGen_normals_fst hG (n + 1) (fun _ => a * m0) (fun _ => (a * s0 + σ) ^ 2) fun i => sq_nonneg _)
    hrange hres hvr id measurable_id (gaussianReal c.1 c.2.1.toNNReal) (Real.exp (0 - c.2.2)) hη f hf hi (ε / 3) Rc (by positivity) hRc hcut
  have e : ∀ key j, f (id (lastCloud (fun (y : Bool × ℝ) z => normPdf y.2 z (√R)) (reuseTr G m0 s0 a σ) (Prng.systematicOrStratified G ssCount false) G.fst l
      (fun i => (0 : ℝ) + √0 * G.normal key (n + 1) i) (fun i => G.key key (y :: zs).length (Fin.castLE hle i)) j))
      = f (reuseCloud G m0 s0 a σ R (y :: zs) (n + 1) t key j) := fun key j =>
    congrArg f (congrFun (reuseCloud_eq hG.length hs.le hσ.le ha.le y zs hk (n + 1) t ht _ key hle) j)
  simp only [e] at h
  rw [hllen] at h
  push_cast at h
  simp only [mul_div_cancel₀ ε (three_ne_zero' ℝ)] at h
  have h' := hN (n + 1) (by omega)
  push_cast at h' ⊢
  linarith

/-! ## The limit is wrong -/

/-- the filtering variances increase with the initial variance. -/
theorem kf_var_lt {F Sigma R : ℝ} (hF : F ≠ 0) (hS : 0 < Sigma) (hR : 0 < R) (ys : List ℝ) (m m' v v' r r' : ℝ) (hv : 0 < v) (h : v < v') :
    (scan (kfBody F Sigma R) (m, v, r) ys).1.2.1 < (scan (kfBody F Sigma R) (m', v', r') ys).1.2.1 := by
  induction ys generalizing m m' v v' r r' with
  | nil => exact h
  | cons y ys ih =>
    have key : ∀ w : ℝ, 0 < w → (F * w * F + Sigma) - (F * w * F + Sigma) * ((F * w * F + Sigma) / (F * w * F + Sigma + R)) = R - R ^ 2 / (F * w * F + Sigma + R) := by
      intro w hw
      have : 0 < F * w * F + Sigma + R := by nlinarith [mul_pos hw (sq_pos_of_ne_zero hF)]
      field_simp
      ring
    have hp : ∀ w : ℝ, 0 < w → 0 < F * w * F + Sigma := fun w hw => by nlinarith [mul_pos hw (sq_pos_of_ne_zero hF)]
    refine ih _ _ _ _ _ _ ?_ ?_
    · show 0 < (F * v * F + Sigma) - (F * v * F + Sigma) * ((F * v * F + Sigma) / (F * v * F + Sigma + R))
      rw [key v hv, sub_pos, div_lt_iff₀ (by linarith [hp v hv])]
      nlinarith [hp v hv]
    · show (F * v * F + Sigma) - (F * v * F + Sigma) * ((F * v * F + Sigma) / (F * v * F + Sigma + R))
        < (F * v' * F + Sigma) - (F * v' * F + Sigma) * ((F * v' * F + Sigma) / (F * v' * F + Sigma + R))
      rw [key v hv, key v' (hv.trans h)]
      have h1 : F * v * F + Sigma + R < F * v' * F + Sigma + R := by nlinarith [mul_pos (sub_pos.2 h) (sq_pos_of_ne_zero hF)]
      have h2 : 0 < F * v * F + Sigma + R := by linarith [hp v hv]
      have : R ^ 2 / (F * v' * F + Sigma + R) < R ^ 2 / (F * v * F + Sigma + R) := by gcongr
      linarith

/-- **C182 (variances).** The variance of the particles tends in probability, at every time, to a number *larger* than the filtering variance of the model. -/
theorem C182_variance {G : Gen K} {ρ : Measure K} (hG : IdealGen G ρ) {m0 s0 a σ R : ℝ} (hs : 0 < s0) (ha : 0 < a) (hσ : 0 < σ) (hR : 0 < R) (ys : List ℝ)
    (hk : ∀ key, G.key key ys.length 0 = G.fst key) (t : ℕ) (ht : t < ys.length) :
    ((kf a (σ ^ 2) R m0 (s0 ^ 2) ys).1.getD t (0, 0)).2 < ((kf a (σ ^ 2) R m0 (s0 ^ 2 + 2 * s0 * σ / a) ys).1.getD t (0, 0)).2 ∧
    ∀ ε, 0 < ε → Tendsto (fun n : ℕ => ρ.real {key | ε ≤ |(sampleMeanVar (reuseCloud G m0 s0 a σ R ys (n + 1) t key)).2
      - ((kf a (σ ^ 2) R m0 (s0 ^ 2 + 2 * s0 * σ / a) ys).1.getD t (0, 0)).2|}) atTop (𝓝 0) := by
  have := hG.prob
  have hS : 0 < σ ^ 2 := by positivity
  have hv0p : 0 < s0 ^ 2 + 2 * s0 * σ / a := by positivity
  have hpos : 0 < ((kf a (σ ^ 2) R m0 (s0 ^ 2 + 2 * s0 * σ / a) ys).1.getD t (0, 0)).2 := by
    rw [show (kf a (σ ^ 2) R m0 (s0 ^ 2 + 2 * s0 * σ / a) ys).1.getD t (0, 0) = _ from kf_getD a (σ ^ 2) R ys (m0, _, 0) t ht (0, 0)]
    exact (kf_markovE a hS hR (f := fun _ => 0) measurable_const ⟨0, 0, by simp⟩ _ m0 _ 0 hv0p).1
  refine ⟨?_, fun ε hε => ?_⟩
  · rw [show (kf a (σ ^ 2) R m0 (s0 ^ 2) ys).1.getD t (0, 0) = _ from kf_getD a (σ ^ 2) R ys (m0, _, 0) t ht (0, 0),
      show (kf a (σ ^ 2) R m0 (s0 ^ 2 + 2 * s0 * σ / a) ys).1.getD t (0, 0) = _ from kf_getD a (σ ^ 2) R ys (m0, _, 0) t ht (0, 0)]
    refine kf_var_lt ha.ne' hS hR _ _ _ _ _ _ _ (by positivity) ?_
    have : 0 < 2 * s0 * σ / a := by positivity
    linarith
  · obtain ⟨p, hp⟩ : ∃ p, p = (kf a (σ ^ 2) R m0 (s0 ^ 2 + 2 * s0 * σ / a) ys).1.getD t (0, 0) := ⟨_, rfl⟩
    have h1 := C182_limit hG hs ha hσ hR ys hk t ht (m0 := m0) (fun x => x) measurable_id
    have h2 := C182_limit hG hs ha hσ hR ys hk t ht (m0 := m0) (fun x => (x - p.1) ^ 2) (by fun_prop)
    rw [← hp] at h1 h2 hpos ⊢
    have hi1 : Integrable (fun x : ℝ => x) (gaussianReal p.1 p.2.toNNReal) := (memLp_id_gaussianReal (μ := p.1) (v := p.2.toNNReal) 1).integrable le_rfl
    have hi2 : Integrable (fun x : ℝ => (x - p.1) ^ 2) (gaussianReal p.1 p.2.toNNReal) :=
      ((memLp_id_gaussianReal (μ := p.1) (v := p.2.toNNReal) 2).sub (memLp_const p.1)).integrable_sq
    have e1 : ∫ x, x ∂gaussianReal p.1 p.2.toNNReal = p.1 := integral_id_gaussianReal
    have e2 : ∫ x, (x - p.1) ^ 2 ∂gaussianReal p.1 p.2.toNNReal = p.2 := by
      have := variance_id_gaussianReal (μ := p.1) (v := p.2.toNNReal)
      rw [variance_eq_integral aemeasurable_id] at this
      simp only [id, e1, Real.coe_toNNReal _ hpos.le] at this
      exact this
    have g1 := h1 hi1 (min 1 (ε / 2)) (by positivity)
    have g2 := h2 hi2 (ε / 2) (by positivity)
    rw [e1] at g1
    rw [e2] at g2
    have g3 := g1.add g2
    rw [add_zero] at g3
    refine squeeze_zero (fun _ => measureReal_nonneg) (fun n => ?_) g3
    refine le_trans (measureReal_mono ?_ (measure_ne_top _ _)) (measureReal_union_le _ _)
    intro key hkey
    simp only [Set.mem_union, Set.mem_ofPred_eq] at hkey ⊢
    by_contra hcon
    simp only [not_or, not_le] at hcon
    rw [sampleMeanVar_snd _ p.1] at hkey
    obtain ⟨c1, c2⟩ := hcon
    have c3 : |(sampleMeanVar (reuseCloud G m0 s0 a σ R ys (n + 1) t key)).1 - p.1| < min 1 (ε / 2) := c1
    generalize (sampleMeanVar (reuseCloud G m0 s0 a σ R ys (n + 1) t key)).1 - p.1 = d at hkey c3
    have c4 : d ^ 2 < ε / 2 := by
      rw [← sq_abs]
      have ha0 := abs_nonneg d
      have := lt_of_lt_of_le c3 (min_le_left _ _)
      have := lt_of_lt_of_le c3 (min_le_right _ _)
      nlinarith
    have c5 : |(∑ j, (reuseCloud G m0 s0 a σ R ys (n + 1) t key j - p.1) ^ 2) / ((n + 1 : ℕ) : ℝ) - p.2| < ε / 2 := c2
    rw [abs_lt] at c5
    rcases le_abs.1 hkey with h | h <;> nlinarith [sq_nonneg d]

/-- **C182.** Hence the sample variance is *not* close to the filtering variance, with probability tending to one. -/
theorem C182_inconsistent {G : Gen K} {ρ : Measure K} (hG : IdealGen G ρ) {m0 s0 a σ R : ℝ} (hs : 0 < s0) (ha : 0 < a) (hσ : 0 < σ) (hR : 0 < R) (ys : List ℝ)
    (hk : ∀ key, G.key key ys.length 0 = G.fst key) (t : ℕ) (ht : t < ys.length) :
    ∃ ε > 0, Tendsto (fun n : ℕ => ρ.real {key | |(sampleMeanVar (reuseCloud G m0 s0 a σ R ys (n + 1) t key)).2
      - ((kf a (σ ^ 2) R m0 (s0 ^ 2) ys).1.getD t (0, 0)).2| < ε}) atTop (𝓝 0) := by
  have := hG.prob
  obtain ⟨h1, h2⟩ := C182_variance hG hs ha hσ hR ys hk t ht (m0 := m0)
  obtain ⟨V, hV⟩ : ∃ V, V = ((kf a (σ ^ 2) R m0 (s0 ^ 2) ys).1.getD t (0, 0)).2 := ⟨_, rfl⟩
  obtain ⟨V', hV'⟩ : ∃ V', V' = ((kf a (σ ^ 2) R m0 (s0 ^ 2 + 2 * s0 * σ / a) ys).1.getD t (0, 0)).2 := ⟨_, rfl⟩
  rw [← hV, ← hV'] at h1
  rw [← hV'] at h2
  rw [← hV]
  refine ⟨(V' - V) / 2, by linarith, ?_⟩
  refine squeeze_zero (fun _ => measureReal_nonneg) (fun n => measureReal_mono ?_ (measure_ne_top _ _)) (h2 ((V' - V) / 2) (by linarith))
  intro key hkey
  simp only [Set.mem_ofPred_eq] at hkey ⊢
  rw [abs_lt] at hkey
  rw [le_abs]
  right
  linarith

/-- **C182 (first mean).** The mean of the first cloud tends in probability to an update with the predictive variance `(a s0 + σ)²`; it is the Kalman mean only when the
measurement is the predicted one. -/
theorem C182_mean {G : Gen K} {ρ : Measure K} (hG : IdealGen G ρ) {m0 s0 a σ R : ℝ} (hs : 0 < s0) (ha : 0 < a) (hσ : 0 < σ) (hR : 0 < R) (y : ℝ) (ys : List ℝ)
    (hk : ∀ key, G.key key (y :: ys).length 0 = G.fst key) :
    (∀ ε, 0 < ε → Tendsto (fun n : ℕ => ρ.real {key | ε ≤ |(∑ j, reuseCloud G m0 s0 a σ R (y :: ys) (n + 1) 0 key j) / (n + 1 : ℕ)
      - (a * m0 + (a * s0 + σ) ^ 2 / ((a * s0 + σ) ^ 2 + R) * (y - a * m0))|}) atTop (𝓝 0)) ∧
    (a * m0 + (a * s0 + σ) ^ 2 / ((a * s0 + σ) ^ 2 + R) * (y - a * m0) = ((kf a (σ ^ 2) R m0 (s0 ^ 2) (y :: ys)).1.getD 0 (0, 0)).1 ↔ y = a * m0) := by
  have hP : a * (s0 ^ 2 + 2 * s0 * σ / a) * a + σ ^ 2 = (a * s0 + σ) ^ 2 := by field_simp; ring
  constructor
  · intro ε hε
    have h := C182_limit hG hs ha hσ hR (y :: ys) hk 0 (by simp) (m0 := m0) (fun x => x) measurable_id
    have e : ∀ m v, ∫ x, x ∂gaussianReal m v = m := fun m v => integral_id_gaussianReal
    have h' := h ((memLp_id_gaussianReal 1).integrable le_rfl) ε hε
    rw [e] at h'
    have e2 : ((kf a (σ ^ 2) R m0 (s0 ^ 2 + 2 * s0 * σ / a) (y :: ys)).1.getD 0 (0, 0)).1
        = a * m0 + (a * (s0 ^ 2 + 2 * s0 * σ / a) * a + σ ^ 2) / (a * (s0 ^ 2 + 2 * s0 * σ / a) * a + σ ^ 2 + R) * (y - a * m0) := rfl
    rw [e2, hP] at h'
    exact h'
  · have e2 : ((kf a (σ ^ 2) R m0 (s0 ^ 2) (y :: ys)).1.getD 0 (0, 0)).1
        = a * m0 + (a * s0 ^ 2 * a + σ ^ 2) / (a * s0 ^ 2 * a + σ ^ 2 + R) * (y - a * m0) := rfl
    rw [e2]
    constructor
    · intro h
      have h3 : ((a * s0 + σ) ^ 2 / ((a * s0 + σ) ^ 2 + R) - (a * s0 ^ 2 * a + σ ^ 2) / (a * s0 ^ 2 * a + σ ^ 2 + R)) * (y - a * m0) = 0 := by linarith
      have h4 : (a * s0 + σ) ^ 2 / ((a * s0 + σ) ^ 2 + R) - (a * s0 ^ 2 * a + σ ^ 2) / (a * s0 ^ 2 * a + σ ^ 2 + R)
          = R * (2 * a * s0 * σ) / (((a * s0 + σ) ^ 2 + R) * (a * s0 ^ 2 * a + σ ^ 2 + R)) := by
        have : 0 < a * s0 ^ 2 * a + σ ^ 2 + R := by positivity
        field_simp
        ring
      rw [h4] at h3
      rcases mul_eq_zero.1 h3 with h5 | h5
      · have : 0 < R * (2 * a * s0 * σ) / (((a * s0 + σ) ^ 2 + R) * (a * s0 ^ 2 * a + σ ^ 2 + R)) := by positivity
        exact absurd h5 this.ne'
      · linarith
    · rintro rfl
      simp

-- with two measurements, for every ideal generator
example {G : Gen K} {ρ : Measure K} (hG : IdealGen G ρ) : ∃ ε > 0, Tendsto (fun n : ℕ => ρ.real {key | |(sampleMeanVar (reuseCloud G 0 1 1 1 1 [1, 2] (n + 1) 1 key)).2
      - ((kf 1 (1 ^ 2) 1 0 (1 ^ 2) [1, 2]).1.getD 1 (0, 0)).2| < ε}) atTop (𝓝 0) :=
  C182_inconsistent hG one_pos one_pos one_pos one_pos [1, 2] (fun _ => rfl) 1 (by simp)

-- an ideal generator meeting the hypothesis for every number of measurements
example : ∃ ε > 0, Tendsto (fun n : ℕ => treeLaw.real {key | |(sampleMeanVar (reuseCloud treeGen 0 1 1 1 1 [1, 2, 3] (n + 1) 2 key)).2
      - ((kf 1 (1 ^ 2) 1 0 (1 ^ 2) [1, 2, 3]).1.getD 2 (0, 0)).2| < ε}) atTop (𝓝 0) :=
  C182_inconsistent treeGen_ideal one_pos one_pos one_pos one_pos [1, 2, 3]
    (fun key => by rw [treeGen_key (by simp), Gen.fst, treeGen_key (by simp)]) 2 (by simp)

end Mfs.Props

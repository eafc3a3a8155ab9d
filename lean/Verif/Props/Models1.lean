import Verif.Model.SsInit
import Verif.Props.NoBreak
import Verif.Props.SsModels

/-!
# C128: the filters run on the one-dimensional models of the library
-/

namespace Mfs.Props

open Matrix Mfs.Spec Mfs.Quad1 Mfs.Filter1 Mfs.Moments1 Mfs.SsModels Polynomial ProbabilityTheory MeasureTheory

variable {Y : Type}

/-- the filter of raw moments only asks for the conditional moments of order below the number of moments. -/
theorem filterRms_congr (B : Backend) (P P' : ℝ → ℕ → ℝ) (pdf : Y → ℝ → ℝ) (ms0 : List ℝ) (ys : List Y) (stable : Bool)
    (h : ∀ x, ∀ k < ms0.length, P x k = P' x k) : filterRms B P pdf ms0 ys stable = filterRms B P' pdf ms0 ys stable := by
  have : rmsStep B stable P pdf ms0.length = rmsStep B stable P' pdf ms0.length := by
    funext c y
    have h1 : (List.range ms0.length).map (fun k => wsum (momentQuadrature B c.1 0 1 false stable) fun x => P x k)
        = (List.range ms0.length).map fun k => wsum (momentQuadrature B c.1 0 1 false stable) fun x => P' x k :=
      List.map_congr_left fun k hk => by simp only [h _ k (List.mem_range.1 hk)]
    unfold rmsStep
    dsimp only
    rw [h1]
  rw [filterRms, filterRms, this]

theorem filterCms_congr (B : Backend) (P P' : ℝ → ℕ → ℝ → ℝ) (cm : ℝ → ℝ) (pdf : Y → ℝ → ℝ) (ms0 : List ℝ) (m0 : ℝ) (ys : List Y)
    (stable : Bool) (h : ∀ x m, ∀ k < ms0.length, P x k m = P' x k m) :
    filterCms B P cm pdf ms0 m0 ys stable = filterCms B P' cm pdf ms0 m0 ys stable := by
  have : cmsStep B stable P cm pdf ms0.length = cmsStep B stable P' cm pdf ms0.length := by
    funext c y
    have h1 : ∀ m, (List.range ms0.length).map (fun k => wsum (momentQuadrature B c.1.1 c.1.2 1 false stable) fun x => P x k m)
        = (List.range ms0.length).map fun k => wsum (momentQuadrature B c.1.1 c.1.2 1 false stable) fun x => P' x k m := fun m =>
      List.map_congr_left fun k hk => by simp only [h _ _ k (List.mem_range.1 hk)]
    unfold cmsStep
    simp only []
    rw [h1]
  rw [filterCms, filterCms, this]

/-- expectation of polynomials under a Gaussian mixture. -/
noncomputable def mixL (comps : List Component) : ℝ[X] →ₗ[ℝ] ℝ :=
  (comps.map fun c => c.weight • gaussL c.mean c.variance.toNNReal).sum

theorem mixL_apply (comps : List Component) (p : ℝ[X]) :
    mixL comps p = (comps.map fun c => gaussL c.mean c.variance.toNNReal p * c.weight).sum := by
  induction comps with
  | nil => simp [mixL]
  | cons c cs ih =>
    rw [mixL] at ih ⊢
    rw [List.map_cons, List.sum_cons, LinearMap.add_apply, ih, List.map_cons, List.sum_cons, LinearMap.smul_apply, smul_eq_mul, mul_comm]

theorem mixL_eq_integral (comps : List Component) (hw : ∀ c ∈ comps, 0 ≤ c.weight) (p : ℝ[X]) :
    mixL comps p = ∫ x, p.eval x ∂mixture comps := by
  rw [(integral_mixture comps hw _ fun m v => integrable_poly_gaussianReal m v p).2, mixL_apply]
  rfl

theorem mixL_sq_pos (comps : List Component) (hw : ∀ c ∈ comps, 0 ≤ c.weight) (h1 : (comps.map (·.weight)).sum = 1)
    (hvar : ∀ c ∈ comps, 0 < c.variance) (q : ℝ[X]) (hq : q ≠ 0) : 0 < mixL comps (q ^ 2) := by
  rw [mixL_apply]
  have hpos : ∀ c ∈ comps, 0 < gaussL c.mean c.variance.toNNReal (q ^ 2) := fun c hc =>
    gaussL_sq_pos _ (by rw [Ne, Real.toNNReal_eq_zero, not_le]; exact hvar c hc) q hq
  obtain ⟨c, hc, hcw⟩ : ∃ c ∈ comps, 0 < c.weight := by
    by_contra hcon
    push Not at hcon
    have h0 : ∀ cs : List Component, (∀ c ∈ cs, c.weight ≤ 0) → (cs.map (·.weight)).sum ≤ 0 := by
      intro cs
      induction cs with
      | nil => simp
      | cons c cs ih =>
        intro h
        rw [List.map_cons, List.sum_cons]
        have := ih fun c' hc' => h c' (List.mem_cons_of_mem _ hc')
        have := h c (by simp)
        linarith
    have := h0 comps hcon
    linarith
  refine lt_of_lt_of_le (mul_pos (hpos c hc) hcw) (List.single_le_sum (fun x hx => ?_) _ (List.mem_map.2 ⟨c, hc, rfl⟩))
  obtain ⟨c', hc', rfl⟩ := List.mem_map.1 hx
  exact mul_nonneg (hpos c' hc').le (hw c' hc')

/-- the moments of a Gaussian sum with positive variances form, at every order, a valid initial vector of the filters. -/
theorem gaussianSum_valid (comps : List Component) (hw : ∀ c ∈ comps, 0 ≤ c.weight) (h1 : (comps.map (·.weight)).sum = 1)
    (hvar : ∀ c ∈ comps, 0 < c.variance) (N : ℕ) (hN : 2 ≤ N) :
    let g := GaussianSum1D.new comps N
    (gramOf g.rms).PosDef ∧ SameLaw (2 * N) (mixL comps) g.rms (g.cms, g.mean) (g.scms, g.mean, √g.variance) ∧ 0 < g.variance := by
  intro g
  obtain ⟨hp, hm, hV, hr, hc, hs⟩ := C47_gaussian_sum comps hw h1 (fun c hc => (hvar c hc).le) N hN
  have hL : ∀ p : ℝ[X], mixL comps p = ∫ x, p.eval x ∂mixture comps := mixL_eq_integral comps hw
  have hVpos : 0 < Var[fun x => x; mixture comps] := by
    rw [variance_eq_integral (by fun_prop)]
    have := mixL_sq_pos comps hw h1 hvar (X - C (∫ x, x ∂mixture comps)) (X_sub_C_ne_zero _)
    rw [hL] at this
    simpa using this
  change g.mean = _ at hm
  change g.variance = _ at hV
  change g.rms = _ at hr
  change g.cms = _ at hc
  have hs := hs hVpos
  change g.scms = _ at hs
  have hrk : ∀ k < 2 * N, g.rms.getD k 0 = mixL comps (X ^ k) := fun k hk => by
    rw [hr, getD_map_range _ hk, hL]
    simp
  refine ⟨?_, ⟨?_, by simp [hr], by simp [hc], by simp [hs], rfl, ?_, hrk, ?_, ?_⟩, by rw [hV]; exact hVpos⟩
  · have hlen : g.rms.length / 2 = N := by rw [hr]; simp
    rw [gramOf, hlen, posDef_hankel_iff (mixL comps) N _ hrk]
    exact fun q hq _ => mixL_sq_pos comps hw h1 hvar q hq
  · rw [hL]; simp
  · rw [hV]
    exact (Real.sqrt_pos.2 hVpos).ne'
  · intro k hk
    dsimp only
    rw [hc, getD_map_range _ hk, hL, hm]
    simp
  · intro k hk
    dsimp only
    rw [hs, getD_map_range _ hk, hL, hm, hV]
    simp [div_eq_inv_mul]

/-- A model with conditional laws `E` that are positive on squares of polynomials, started from a Gaussian sum with positive variances: the filters of raw
and of central moments run forever and are the same filter. `F` are the conditional moment functions. -/
theorem run_valid_of (B : Backend) (hB : B.Valid) (l₁ l₂ : Bool) (pdf : Y → ℝ → ℝ) (hpdf : ∀ y x, 0 < pdf y x)
    (comps : List Component) (hw : ∀ c ∈ comps, 0 ≤ c.weight) (h1 : (comps.map (·.weight)).sum = 1)
    (hvar : ∀ c ∈ comps, 0 < c.variance) (N : ℕ) (hN : 2 ≤ N) (E : ℝ → ℝ[X] →ₗ[ℝ] ℝ) (hE1 : ∀ x, E x 1 = 1)
    (hEpos : ∀ x q, q ≠ 0 → 0 < E x (q ^ 2))
    (raw : ℝ → ℕ → ℝ) (central : ℝ → ℕ → ℝ → ℝ) (mean : ℝ → ℝ)
    (hraw : ∀ x, ∀ k < 2 * N, raw x k = E x (X ^ k))
    (hcen : ∀ x c, ∀ k < 2 * N, central x k c = E x ((X - C c) ^ k))
    (hmean : ∀ x, mean x = E x X) (ys : List Y) :
    let g := GaussianSum1D.new comps N
    let a := filterRms B raw pdf g.rms ys l₁
    let b := filterCms B central mean pdf g.cms g.mean ys l₂
    (gramOf g.rms).PosDef ∧ (gramOf (predRms B l₁ raw (2 * N) g.rms)).PosDef ∧ b.2 = a.2 ∧
    a.1.length = ys.length ∧ b.1.length = ys.length ∧
    ∀ (k : ℕ) r c, a.1[k]? = some r → b.1[k]? = some c →
      (gramOf r).PosDef ∧ (gramOf c.1).PosDef ∧ (gramOf (predRms B l₁ raw (2 * N) r)).PosDef ∧
        (gramOf (predCms B l₂ central mean (2 * N) c).1).PosDef ∧
      ∃ L : ℝ[X] →ₗ[ℝ] ℝ, L 1 = 1 ∧ c.2 = L X ∧ (∀ k < 2 * N, r.getD k 0 = L (X ^ k) ∧ c.1.getD k 0 = L ((X - C c.2) ^ k)) ∧
        0 < L ((X - C c.2) ^ 2) := by
  intro g a b
  obtain ⟨hg, hlaw, hgv⟩ := gaussianSum_valid comps hw h1 hvar N hN
  change (gramOf g.rms).PosDef at hg
  change SameLaw _ _ g.rms (g.cms, g.mean) (g.scms, g.mean, √g.variance) at hlaw
  have hlr := hlaw.len_raw
  have hlc := hlaw.len_central
  dsimp only at hlr hlc
  have hEm : mean = meanOf E := by
    funext x
    rw [hmean, meanOf]
  have ha : a = filterRms B (rawOf E) pdf g.rms ys l₁ := filterRms_congr B _ _ pdf _ ys l₁ fun x k hk => hraw x k (by omega)
  have hb : b = filterCms B (centralOf E) (meanOf E) pdf g.cms g.mean ys l₂ := by
    change filterCms B central mean pdf g.cms g.mean ys l₂ = _
    rw [hEm]
    exact filterCms_congr B _ _ _ pdf _ _ ys l₂ fun x c k hk => hcen x c k (by omega)
  have hsame := C126_same_filter (cv := fun _ => 1) hB hE1 hEpos (fun _ => one_pos) hpdf l₁ l₂ false g.rms g.cms g.scms g.mean (√g.variance)
    (mixL comps) (by omega) (by rw [hlr]; exact hlaw) hg ys
  obtain ⟨s1, -, s3, s4, s5, s6⟩ := hsame
  rw [← ha, ← hb] at s1
  rw [← ha] at s3
  rw [← hb] at s4
  have hn1 := (C126_never_breaks B hB l₁ pdf hpdf E (2 * N) (by omega) (fun x q hq _ => hEpos x q hq) ys).1 raw hraw g.rms hlr
  have hn2 := (C126_never_breaks B hB l₂ pdf hpdf E (2 * N) (by omega) (fun x q hq _ => hEpos x q hq) ys).2.1 central mean
    (fun x c k hk => hcen x c k hk) g.cms g.mean hlc
  refine ⟨hg, hn1.1, s1, s3, s4, fun k r c hr hc => ?_⟩
  have e1 := hn1.2 r (List.mem_of_getElem? hr)
  have e2 := hn2.2 c (List.mem_of_getElem? hc)
  have hk : k < ys.length := by
    rw [← s3]
    exact (List.getElem?_eq_some_iff.1 hr).1
  rw [← ha, ← hb] at s6
  obtain ⟨L, hL, hmu, hpos, hsq⟩ := s6 k r c _ hr hc (List.getElem?_eq_getElem (by rw [s5]; exact hk))
  refine ⟨e1.1, e2.1, e1.2, e2.2, L, hL.one, hmu, fun j hj => ⟨hL.raw j (by omega), hL.central j (by omega)⟩, ?_⟩
  rw [hmu, ← hsq]
  positivity

/-- A model with normal transitions of positive variance, started from a Gaussian sum with positive variances: the filters of raw
and of central moments run forever and are the same filter. `F` are the conditional moment functions. -/
theorem run_valid (B : Backend) (hB : B.Valid) (l₁ l₂ : Bool) (pdf : Y → ℝ → ℝ) (hpdf : ∀ y x, 0 < pdf y x)
    (comps : List Component) (hw : ∀ c ∈ comps, 0 ≤ c.weight) (h1 : (comps.map (·.weight)).sum = 1)
    (hvar : ∀ c ∈ comps, 0 < c.variance) (N : ℕ) (hN : 2 ≤ N) (m v : ℝ → ℝ) (hv : ∀ x, 0 < v x)
    (raw : ℝ → ℕ → ℝ) (central : ℝ → ℕ → ℝ → ℝ) (mean : ℝ → ℝ)
    (hraw : ∀ x, ∀ k < 2 * N, raw x k = gaussL (m x) (v x).toNNReal (X ^ k))
    (hcen : ∀ x c, ∀ k < 2 * N, central x k c = gaussL (m x) (v x).toNNReal ((X - C c) ^ k))
    (hmean : ∀ x, mean x = m x) (ys : List Y) :
    let g := GaussianSum1D.new comps N
    let a := filterRms B raw pdf g.rms ys l₁
    let b := filterCms B central mean pdf g.cms g.mean ys l₂
    (gramOf g.rms).PosDef ∧ (gramOf (predRms B l₁ raw (2 * N) g.rms)).PosDef ∧ b.2 = a.2 ∧
    a.1.length = ys.length ∧ b.1.length = ys.length ∧
    ∀ (k : ℕ) r c, a.1[k]? = some r → b.1[k]? = some c →
      (gramOf r).PosDef ∧ (gramOf c.1).PosDef ∧ (gramOf (predRms B l₁ raw (2 * N) r)).PosDef ∧
        (gramOf (predCms B l₂ central mean (2 * N) c).1).PosDef ∧
      ∃ L : ℝ[X] →ₗ[ℝ] ℝ, L 1 = 1 ∧ c.2 = L X ∧ (∀ k < 2 * N, r.getD k 0 = L (X ^ k) ∧ c.1.getD k 0 = L ((X - C c.2) ^ k)) ∧
        0 < L ((X - C c.2) ^ 2) := by
  refine run_valid_of B hB l₁ l₂ pdf hpdf comps hw h1 hvar N hN (fun x => gaussL (m x) (v x).toNNReal) (fun x => by simp [gaussL_apply])
    (fun x q hq => gaussL_sq_pos _ (by rw [Ne, Real.toNNReal_eq_zero, not_le]; exact hv x) q hq) raw central mean hraw hcen (fun x => ?_) ys
  rw [hmean]
  simp [gaussL_apply]

/-- what a user of the filters sees of a valid run: see `C128_benes`. -/
def ValidRun (B : Backend) (l₁ l₂ : Bool) (pdf : Y → ℝ → ℝ) (F : CondFns) (g : GaussianSum1D) (N : ℕ) (ys : List Y) : Prop :=
  let a := filterRms B F.raw pdf g.rms ys l₁
  let b := filterCms B F.central F.mean pdf g.cms g.mean ys l₂
  (gramOf g.rms).PosDef ∧ (gramOf (predRms B l₁ F.raw (2 * N) g.rms)).PosDef ∧ b.2 = a.2 ∧
  a.1.length = ys.length ∧ b.1.length = ys.length ∧
  ∀ (k : ℕ) r c, a.1[k]? = some r → b.1[k]? = some c →
    (gramOf r).PosDef ∧ (gramOf c.1).PosDef ∧ (gramOf (predRms B l₁ F.raw (2 * N) r)).PosDef ∧
      (gramOf (predCms B l₂ F.central F.mean (2 * N) c).1).PosDef ∧
    ∃ L : ℝ[X] →ₗ[ℝ] ℝ, L 1 = 1 ∧ c.2 = L X ∧ (∀ k < 2 * N, r.getD k 0 = L (X ^ k) ∧ c.1.getD k 0 = L ((X - C c.2) ^ k)) ∧
      0 < L ((X - C c.2) ^ 2)

theorem init1_ok : (∀ c ∈ [(⟨-0.5, 0.05, 0.5⟩ : Component), ⟨0.5, 0.05, 0.5⟩], 0 ≤ c.weight) ∧
    ([(⟨-0.5, 0.05, 0.5⟩ : Component), ⟨0.5, 0.05, 0.5⟩].map (·.weight)).sum = 1 ∧
    ∀ c ∈ [(⟨-0.5, 0.05, 0.5⟩ : Component), ⟨0.5, 0.05, 0.5⟩], 0 < c.variance := by
  refine ⟨?_, by norm_num, ?_⟩ <;> · simp only [List.mem_cons, List.not_mem_nil, or_false, forall_eq_or_imp, forall_eq]; norm_num

theorem logistic_pos (x : ℝ) : 0 < logistic x ∧ logistic x < 1 := by
  have h := Real.exp_pos (-x ^ 3 / 5)
  rw [logistic]
  exact ⟨by positivity, (div_lt_one (by positivity)).2 (by linarith)⟩

theorem benesBool_pos (y : Bool) (x : ℝ) : 0 < benesBool y x := by
  obtain ⟨h0, h1⟩ := logistic_pos x
  cases y <;> simp [benesBool, benesPmf, bernoulliPmf] <;> linarith

theorem wellPmf_pos (y : ℕ) (x p : ℝ) : 0 < wellPmf y x p := Real.exp_pos _

/-- the initial law and normal transitions of positive variance. -/
theorem init1_validRun (B : Backend) (hB : B.Valid) (l₁ l₂ : Bool) (pdf : Y → ℝ → ℝ) (hpdf : ∀ y x, 0 < pdf y x) (N : ℕ) (hN : 2 ≤ N)
    (m v : ℝ → ℝ) (hv : ∀ x, 0 < v x) (F : CondFns) (hraw : ∀ x, ∀ k < 2 * N, F.raw x k = gaussL (m x) (v x).toNNReal (X ^ k))
    (hcen : ∀ x c, ∀ k < 2 * N, F.central x k c = gaussL (m x) (v x).toNNReal ((X - C c) ^ k)) (hmean : ∀ x, F.mean x = m x)
    (ys : List Y) : ValidRun B l₁ l₂ pdf F (init1 N) N ys :=
  run_valid B hB l₁ l₂ pdf hpdf _ init1_ok.1 init1_ok.2.1 init1_ok.2.2 N hN m v hv F.raw F.central F.mean hraw hcen hmean ys

/-- **C128, Beneš–Bernoulli.** The model `benes_bernoulli(N)`, `N ≥ 2`, its initial moments and `sde_cond_moments_euler`, on any
sequence of Boolean measurements: every Gram matrix met by the filters of raw and of central moments, given or predicted, is
positive definite, the two filters return the same negative log-likelihood, one record per measurement, and each pair of records
contains the raw moments and the mean and central moments of one law, whose variance is positive. -/
theorem C128_benes (B : Backend) (hB : B.Valid) (l₁ l₂ : Bool) (N : ℕ) (hN : 2 ≤ N) (ys : List Bool) :
    ValidRun B l₁ l₂ benesBool (sdeCondMomentsEuler benesDrift dispersion1 dt1 N) (init1 N) N ys := by
  have hdt : 0 < dt1 := by norm_num [dt1]
  have hf := fun x k (hk : k < 2 * N) => euler_functional benesDrift dispersion1 dt1 hdt.le N x k hk
  exact init1_validRun B hB l₁ l₂ _ benesBool_pos N hN (fun x => x + benesDrift x * dt1) (fun x => dispersion1 x ^ 2 * dt1)
    (fun x => by rw [dispersion1]; positivity) _ (fun x k hk => (hf x k hk).1) (fun x c k hk => (hf x k hk).2 c) (fun _ => rfl) ys

/-- **C128, double well with Poisson measurements**, for all parameters of the drift and of the emission. -/
theorem C128_well (B : Backend) (hB : B.Valid) (l₁ l₂ : Bool) (N : ℕ) (hN : 2 ≤ N) (p₁ p₂ : ℝ) (ys : List ℕ) :
    ValidRun B l₁ l₂ (fun y x => wellPmf y x p₂) (sdeCondMomentsEuler (fun x => wellDrift x p₁) dispersion1 dt1 N) (init1 N) N ys := by
  have hdt : 0 < dt1 := by norm_num [dt1]
  have hf := fun x k (hk : k < 2 * N) => euler_functional (fun x => wellDrift x p₁) dispersion1 dt1 hdt.le N x k hk
  exact init1_validRun B hB l₁ l₂ _ (fun y x => wellPmf_pos y x p₂) N hN (fun x => x + wellDrift x p₁ * dt1)
    (fun x => dispersion1 x ^ 2 * dt1) (fun x => by rw [dispersion1]; positivity) _ (fun x k hk => (hf x k hk).1)
    (fun x c k hk => (hf x k hk).2 c) (fun _ => rfl) ys

/-- **C128, `sde_cond_moments_tme_normal`.** The same for the moments of the normal law with the mean and variance of the package
`tme`, provided that these variances are positive and that the package is consistent about the mean. -/
theorem C128_tme_normal (B : Backend) (hB : B.Valid) (l₁ l₂ : Bool) (N : ℕ) (hN : 2 ≤ N) (expect : (ℝ → ℝ) → ℝ → ℝ)
    (meanCov : ℝ → ℝ × ℝ) (hmean : ∀ x, expect (fun u => u) x = (meanCov x).1) (hvar : ∀ x, 0 < (meanCov x).2) :
    (∀ ys, ValidRun B l₁ l₂ benesBool (sdeCondMomentsTmeNormal expect meanCov N) (init1 N) N ys) ∧
    ∀ p ys, ValidRun B l₁ l₂ (fun y x => wellPmf y x p) (sdeCondMomentsTmeNormal expect meanCov N) (init1 N) N ys := by
  have hraw : ∀ x, ∀ k < 2 * N, (sdeCondMomentsTmeNormal expect meanCov N).raw x k
      = gaussL (meanCov x).1 (meanCov x).2.toNNReal (X ^ k) := by
    intro x k hk
    rw [gaussL_apply, sdeCondMomentsTmeNormal]
    dsimp only
    rw [jget_map_range _ hk, rawNormal_raw _ _ (hvar x).le]
    simp
  have hcen : ∀ x c, ∀ k < 2 * N, (sdeCondMomentsTmeNormal expect meanCov N).central x k c
      = gaussL (meanCov x).1 (meanCov x).2.toNNReal ((X - C c) ^ k) := by
    intro x c k hk
    rw [gaussL_apply, sdeCondMomentsTmeNormal]
    dsimp only
    rw [jget_map_range _ hk, rawNormal_central _ _ _ (hvar x).le]
    simp
  exact ⟨fun ys => init1_validRun B hB l₁ l₂ _ benesBool_pos N hN (fun x => (meanCov x).1) (fun x => (meanCov x).2) hvar _ hraw hcen hmean ys,
    fun p ys => init1_validRun B hB l₁ l₂ _ (fun y x => wellPmf_pos y x p) N hN (fun x => (meanCov x).1) (fun x => (meanCov x).2) hvar _
      hraw hcen hmean ys⟩

/-- the hypotheses: the expansion of order one for a drift `-x` and unit dispersion. -/
example : (∀ x : ℝ, (fun (f : ℝ → ℝ) (x : ℝ) => f (x - 0.01 * x)) (fun u => u) x = ((x - 0.01 * x, (0.01 : ℝ)) : ℝ × ℝ).1) ∧
    (∀ x : ℝ, 0 < ((x - 0.01 * x, (0.01 : ℝ)) : ℝ × ℝ).2) ∧ ∃ B : Backend, B.Valid :=
  ⟨fun _ => rfl, fun _ => by norm_num, _, theBackend_valid⟩

end Mfs.Props

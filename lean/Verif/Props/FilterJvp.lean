import Verif.Lemmas.FilterJvp
import Verif.Props.Models1

/-!
# C172: forward-mode differentiation of the one-dimensional filters
-/

namespace Mfs.Props

open Matrix Mfs.Spec Filter Topology Mfs.Quad1 Mfs.Filter1 Mfs.Cont Mfs.Smooth Mfs.Jvp Mfs.Moments1 Mfs.SsModels Polynomial
open scoped ContDiff

variable {n : ℕ} {t : ℝ} {B : Backend} {Y : Type}

/-- **C172, raw moments.** Let initial moments, conditional moments and measurement density depend on a parameter in a continuously
differentiable way, and let the tangents supplied for them be their derivatives. Where the run is valid, forward mode through
`moment_filter_rms` returns finite tangents, namely the derivatives of the negative log-likelihood and of all filtering moments. -/
theorem C172_rms_jvp (hB : B.Valid) (P : ℝ → ℝ → ℕ → ℝ) (dP : ℝ → ℕ → ℝ → ℝ) (hP : ∀ k < n, Joint 1 t fun u x => P u x k)
    (hdP : ∀ k < n, ∀ x dx, dP x k dx = fderiv ℝ (fun p : ℝ × ℝ => P p.1 p.2 k) (t, x) (1, dx)) (pdf : ℝ → Y → ℝ → ℝ) (dpdf : Y → ℝ → ℝ → ℝ)
    (ys : List Y) (hpdf : ∀ y ∈ ys, Joint 1 t fun u => pdf u y)
    (hdpdf : ∀ y ∈ ys, ∀ x dx, dpdf y x dx = fderiv ℝ (fun p : ℝ × ℝ => pdf p.1 y p.2) (t, x) (1, dx))
    (s : ℝ → List ℝ) (ds : List ℝ) (hs : Sm 1 t n s) (hl : ds.length = n) (hd : ∀ k < n, HasDerivAt (fun u => (s u).getD k 0) (ds.getD k 0) t)
    (hok : RunOK (OkRms B false (P t) (pdf t) n) (nextRms B false (P t) (pdf t) n) (s t) ys) :
    ∃ r, filterRmsJvp B (P t) dP (pdf t) dpdf (s t) ds ys = some r ∧ HasDerivAt (fun u => (filterRms B (P u) (pdf u) (s u) ys).2) r.2 t ∧
      r.1.length = ys.length ∧ ∀ j < ys.length, ∀ k < n,
        HasDerivAt (fun u => ((filterRms B (P u) (pdf u) (s u) ys).1.getD j []).getD k 0) ((r.1.getD j []).getD k 0) t := by
  obtain ⟨r, hr, h1, h2, h3⟩ := scan_jvp (SmD t n) (OkRms B false (P t) (pdf t) n) (g := fun u => nextRms B false (P u) (pdf u) n)
    (h := fun u s y => Real.log (likRms B false (P u) (pdf u) n s y)) (step := fun u => rmsStep B false (P u) (pdf u) n) (fun u c y => rfl)
    (stepJvp := rmsStepJvp B (P t) dP (pdf t) dpdf n) [] [] ys
    (fun y hy s ds a da hs ha hok => rms_step_jvp hB (fun k hk => ⟨hP k hk, hdP k hk⟩) ⟨hpdf y hy, hdpdf y hy⟩ hs ha hok)
    s ds (fun _ => 0) 0 ⟨hs, hl, hd⟩ (D1.const 0) hok
  refine ⟨(r.2, r.1.2), ?_, ?_, h2, fun j hj k hk => ?_⟩
  · rw [filterRmsJvp, hs.len, hr, Option.map_some]
  · simpa only [filterRms, hs.len] using h1.2
  · simpa only [filterRms, hs.len] using (h3 j hj).2.2 k hk

/-- **C172, central moments.** The same for `moment_filter_cms`, jointly with the initial mean, and for the output means. -/
theorem C172_cms_jvp (hB : B.Valid) (P : ℝ → ℝ → ℕ → ℝ → ℝ) (dP : ℝ → ℕ → ℝ → ℝ → ℝ → ℝ)
    (hP : ∀ k < n, ∀ x c, ContDiffAt ℝ 1 (fun p : ℝ × ℝ × ℝ => P p.1 p.2.1 k p.2.2) (t, x, c))
    (hdP : ∀ k < n, ∀ x c dx dc, dP x k c dx dc = fderiv ℝ (fun p : ℝ × ℝ × ℝ => P p.1 p.2.1 k p.2.2) (t, x, c) (1, dx, dc))
    (cm : ℝ → ℝ → ℝ) (dcm : ℝ → ℝ → ℝ) (hcm : Joint 1 t cm) (hdcm : ∀ x dx, dcm x dx = fderiv ℝ (fun p : ℝ × ℝ => cm p.1 p.2) (t, x) (1, dx))
    (pdf : ℝ → Y → ℝ → ℝ) (dpdf : Y → ℝ → ℝ → ℝ) (ys : List Y) (hpdf : ∀ y ∈ ys, Joint 1 t fun u => pdf u y)
    (hdpdf : ∀ y ∈ ys, ∀ x dx, dpdf y x dx = fderiv ℝ (fun p : ℝ × ℝ => pdf p.1 y p.2) (t, x) (1, dx))
    (s : ℝ → List ℝ) (ds : List ℝ) (hs : Sm 1 t n s) (hl : ds.length = n) (hd : ∀ k < n, HasDerivAt (fun u => (s u).getD k 0) (ds.getD k 0) t)
    (m : ℝ → ℝ) (dm : ℝ) (hm : ContDiffAt ℝ 1 m t) (hdm : HasDerivAt m dm t)
    (hok : RunOK (OkCms B false (P t) (cm t) (pdf t) n) (nextCms B false (P t) (cm t) (pdf t) n) (s t, m t) ys) :
    ∃ r, filterCmsJvp B (P t) dP (cm t) dcm (pdf t) dpdf (s t) ds (m t) dm ys = some r ∧
      HasDerivAt (fun u => (filterCms B (P u) (cm u) (pdf u) (s u) (m u) ys).2) r.2 t ∧ r.1.length = ys.length ∧ ∀ j < ys.length,
        HasDerivAt (fun u => ((filterCms B (P u) (cm u) (pdf u) (s u) (m u) ys).1.getD j ([], 0)).2) (r.1.getD j ([], 0)).2 t ∧ ∀ k < n,
        HasDerivAt (fun u => ((filterCms B (P u) (cm u) (pdf u) (s u) (m u) ys).1.getD j ([], 0)).1.getD k 0) ((r.1.getD j ([], 0)).1.getD k 0) t := by
  obtain ⟨r, hr, h1, h2, h3⟩ := scan_jvp (fun (s : ℝ → List ℝ × ℝ) (ds : List ℝ × ℝ) => SmD t n (fun u => (s u).1) ds.1 ∧ D1 t (fun u => (s u).2) ds.2)
    (OkCms B false (P t) (cm t) (pdf t) n) (g := fun u => nextCms B false (P u) (cm u) (pdf u) n)
    (h := fun u s y => Real.log (likCms B false (P u) (cm u) (pdf u) n s y)) (step := fun u => cmsStep B false (P u) (cm u) (pdf u) n) (fun u c y => rfl)
    (stepJvp := cmsStepJvp B (P t) dP (cm t) dcm (pdf t) dpdf n) ([], 0) ([], 0) ys
    (fun y hy s ds a da hs ha hok => cms_step_jvp hB hP hdP ⟨hcm, hdcm⟩ ⟨hpdf y hy, hdpdf y hy⟩ hs ha hok)
    (fun u => (s u, m u)) (ds, dm) (fun _ => 0) 0 ⟨⟨hs, hl, hd⟩, hm, hdm⟩ (D1.const 0) hok
  refine ⟨(r.2, r.1.2), ?_, ?_, h2, fun j hj => ⟨?_, fun k hk => ?_⟩⟩
  · rw [filterCmsJvp, hs.len, hr, Option.map_some]
  · simpa only [filterCms, hs.len] using h1.2
  · simpa only [filterCms, hs.len] using (h3 j hj).2.2
  · simpa only [filterCms, hs.len] using (h3 j hj).1.2.2 k hk

/-- **C172, scaled moments.** The same for `moment_filter_scms`, jointly with the initial mean and scale, and for the output means and
scales. -/
theorem C172_scms_jvp (hB : B.Valid) (P : ℝ → ℝ → ℕ → ℝ → ℝ → ℝ) (dP : ℝ → ℕ → ℝ → ℝ → ℝ → ℝ → ℝ → ℝ)
    (hP : ∀ k < n, ∀ x m c, 0 < c → ContDiffAt ℝ 1 (fun p : ℝ × ℝ × ℝ × ℝ => P p.1 p.2.1 k p.2.2.1 p.2.2.2) (t, x, m, c))
    (hdP : ∀ k < n, ∀ x m c dx dm dc, 0 < c → dP x k m c dx dm dc
      = fderiv ℝ (fun p : ℝ × ℝ × ℝ × ℝ => P p.1 p.2.1 k p.2.2.1 p.2.2.2) (t, x, m, c) (1, dx, dm, dc))
    (cm cv : ℝ → ℝ → ℝ) (dcm dcv : ℝ → ℝ → ℝ) (hcm : Joint 1 t cm) (hdcm : ∀ x dx, dcm x dx = fderiv ℝ (fun p : ℝ × ℝ => cm p.1 p.2) (t, x) (1, dx))
    (hcv : Joint 1 t cv) (hdcv : ∀ x dx, dcv x dx = fderiv ℝ (fun p : ℝ × ℝ => cv p.1 p.2) (t, x) (1, dx))
    (pdf : ℝ → Y → ℝ → ℝ) (dpdf : Y → ℝ → ℝ → ℝ) (ys : List Y) (hpdf : ∀ y ∈ ys, Joint 1 t fun u => pdf u y)
    (hdpdf : ∀ y ∈ ys, ∀ x dx, dpdf y x dx = fderiv ℝ (fun p : ℝ × ℝ => pdf p.1 y p.2) (t, x) (1, dx))
    (s : ℝ → List ℝ) (ds : List ℝ) (hs : Sm 1 t n s) (hl : ds.length = n) (hd : ∀ k < n, HasDerivAt (fun u => (s u).getD k 0) (ds.getD k 0) t)
    (m c : ℝ → ℝ) (dm dc : ℝ) (hm : ContDiffAt ℝ 1 m t) (hdm : HasDerivAt m dm t) (hc : ContDiffAt ℝ 1 c t) (hdc : HasDerivAt c dc t)
    (hok : RunOK (OkScms B false (P t) (cm t) (cv t) (pdf t) n) (nextScms B false (P t) (cm t) (cv t) (pdf t) n) (s t, m t, c t) ys) :
    ∃ r, filterScmsJvp B (P t) dP (cm t) (cv t) dcm dcv (pdf t) dpdf (s t) ds (m t) dm (c t) dc ys = some r ∧
      HasDerivAt (fun u => (filterScms B (P u) (cm u) (cv u) (pdf u) (s u) (m u) (c u) ys).2) r.2 t ∧ r.1.length = ys.length ∧ ∀ j < ys.length,
        HasDerivAt (fun u => ((filterScms B (P u) (cm u) (cv u) (pdf u) (s u) (m u) (c u) ys).1.getD j ([], 0, 0)).2.1) (r.1.getD j ([], 0, 0)).2.1 t ∧
        HasDerivAt (fun u => ((filterScms B (P u) (cm u) (cv u) (pdf u) (s u) (m u) (c u) ys).1.getD j ([], 0, 0)).2.2) (r.1.getD j ([], 0, 0)).2.2 t ∧
        ∀ k < n, HasDerivAt (fun u => ((filterScms B (P u) (cm u) (cv u) (pdf u) (s u) (m u) (c u) ys).1.getD j ([], 0, 0)).1.getD k 0)
          ((r.1.getD j ([], 0, 0)).1.getD k 0) t := by
  obtain ⟨r, hr, h1, h2, h3⟩ := scan_jvp (fun (s : ℝ → List ℝ × ℝ × ℝ) (ds : List ℝ × ℝ × ℝ) =>
      SmD t n (fun u => (s u).1) ds.1 ∧ D1 t (fun u => (s u).2.1) ds.2.1 ∧ D1 t (fun u => (s u).2.2) ds.2.2)
    (OkScms B false (P t) (cm t) (cv t) (pdf t) n) (g := fun u => nextScms B false (P u) (cm u) (cv u) (pdf u) n)
    (h := fun u s y => Real.log (likScms B false (P u) (cm u) (cv u) (pdf u) n s y)) (step := fun u => scmsStep B false (P u) (cm u) (cv u) (pdf u) n)
    (fun u c y => rfl) (stepJvp := scmsStepJvp B (P t) dP (cm t) (cv t) dcm dcv (pdf t) dpdf n) ([], 0, 0) ([], 0, 0) ys
    (fun y hy s ds a da hs ha hok => scms_step_jvp hB hP hdP ⟨hcm, hdcm⟩ ⟨hcv, hdcv⟩ ⟨hpdf y hy, hdpdf y hy⟩ hs ha hok)
    (fun u => (s u, m u, c u)) (ds, dm, dc) (fun _ => 0) 0 ⟨⟨hs, hl, hd⟩, ⟨hm, hdm⟩, hc, hdc⟩ (D1.const 0) hok
  refine ⟨(r.2, r.1.2), ?_, ?_, h2, fun j hj => ⟨?_, ?_, fun k hk => ?_⟩⟩
  · rw [filterScmsJvp, hs.len, hr, Option.map_some]
  · simpa only [filterScms, hs.len] using h1.2
  · simpa only [filterScms, hs.len] using (h3 j hj).2.1.2
  · simpa only [filterScms, hs.len] using (h3 j hj).2.2.2
  · simpa only [filterScms, hs.len] using (h3 j hj).1.2.2 k hk

/-! ### The objective of the parameter estimation -/

/-- the central moments of the Euler–Maruyama transition are smooth in parameter, state and centre. -/
theorem euler_central_smooth {E : Type*} [NormedAddCommGroup E] [NormedSpace ℝ E] {θ : E} {r : WithTop ℕ∞} (drift dispersion : E → ℝ → ℝ)
    (hdr : Joint r θ drift) (hdi : Joint r θ dispersion) (hdi0 : ∀ x, dispersion θ x ≠ 0) (dt : ℝ) (hdt : 0 < dt) (N k : ℕ) (hk : k < 2 * N) (x c : ℝ) :
    ContDiffAt ℝ r (fun p : E × ℝ × ℝ => (sdeCondMomentsEuler (drift p.1) (dispersion p.1) dt N).central p.2.1 k p.2.2) (θ, x, c) := by
  have e : (fun p : E × ℝ × ℝ => (sdeCondMomentsEuler (drift p.1) (dispersion p.1) dt N).central p.2.1 k p.2.2) = fun p : E × ℝ × ℝ =>
      ∑ j ∈ Finset.range (k + 1), √(dispersion p.1 p.2.1 ^ 2 * dt) ^ j * (p.2.1 + drift p.1 p.2.1 * dt - p.2.2) ^ (k - j) * (k.choose j : ℝ) * gaussL 0 1 (X ^ j) :=
    funext fun p => ((euler_functional (drift p.1) (dispersion p.1) dt hdt.le N p.2.1 k hk).2 p.2.2).trans (gaussL_sub_pow _ _ _ (by positivity) k)
  rw [e]
  have hq : ContDiffAt ℝ r (fun p : E × ℝ × ℝ => (p.1, p.2.1)) (θ, x, c) := contDiffAt_fst.prodMk (contDiffAt_fst.comp _ contDiffAt_snd)
  have hd0 : dispersion θ x ^ 2 * dt ≠ 0 := mul_ne_zero (pow_ne_zero 2 (hdi0 x)) hdt.ne'
  have h1 : ContDiffAt ℝ r (fun p : E × ℝ × ℝ => √(dispersion p.1 p.2.1 ^ 2 * dt)) (θ, x, c) :=
    ContDiffAt.comp (g := fun p : E × ℝ => √(dispersion p.1 p.2 ^ 2 * dt)) (θ, x, c) ((((hdi x).pow 2).mul contDiffAt_const).sqrt hd0) hq
  have h2 : ContDiffAt ℝ r (fun p : E × ℝ × ℝ => p.2.1 + drift p.1 p.2.1 * dt) (θ, x, c) :=
    ContDiffAt.comp (g := fun p : E × ℝ => p.2 + drift p.1 p.2 * dt) (θ, x, c) (contDiffAt_snd.add ((hdr x).mul contDiffAt_const)) hq
  have h3 : ContDiffAt ℝ r (fun p : E × ℝ × ℝ => p.2.2) (θ, x, c) := contDiffAt_snd.comp _ contDiffAt_snd
  exact ContDiffAt.sum fun j _ => (((h1.pow j).mul ((h2.sub h3).pow _)).mul contDiffAt_const).mul contDiffAt_const

theorem softplus_smooth {r : WithTop ℕ∞} : ContDiff ℝ r softplus :=
  (Real.contDiff_exp.add contDiff_const).log fun x => (add_pos (Real.exp_pos x) one_pos).ne'

theorem wellPmf_smooth {r : WithTop ℕ∞} (y : ℕ) : ContDiff ℝ r fun p : ℝ × ℝ => wellPmf y p.1 p.2 := by
  have hpos : ∀ p : ℝ × ℝ, 1 < 1 + Real.exp (p.2 * p.1) := fun p => by linarith [Real.exp_pos (p.2 * p.1)]
  have h1 : ContDiff ℝ r fun p : ℝ × ℝ => wellEmission p.1 p.2 :=
    (contDiff_const.add (Real.contDiff_exp.comp (contDiff_snd.mul contDiff_fst))).log fun p => (one_pos.trans (hpos p)).ne'
  have h2 : ContDiff ℝ r fun p : ℝ × ℝ => Real.log (wellEmission p.1 p.2) := h1.log fun p => (Real.log_pos (hpos p)).ne'
  exact Real.contDiff_exp.comp (((contDiff_const.mul h2).sub h1).sub contDiff_const)

theorem init1_cms (N : ℕ) (hN : 2 ≤ N) : (init1 N).cms.length = 2 * N ∧ (gramOf (init1 N).cms).PosDef := by
  obtain ⟨hw, h1, hvar⟩ := init1_ok
  obtain ⟨-, hlaw, -⟩ := gaussianSum_valid _ hw h1 hvar N hN
  have hl : (init1 N).cms.length = 2 * N := hlaw.len_central
  refine ⟨hl, ?_⟩
  have hp := pred_gram_posDef (m := 1) (fun _ => 1, fun _ => 0) (fun _ => zero_le_one) (by simp)
    (fun _ => mixL [(⟨-0.5, 0.05, 0.5⟩ : Component), ⟨0.5, 0.05, 0.5⟩]) (2 * N) (fun _ q hq _ => mixL_sq_pos _ hw h1 hvar q hq) 1 (init1 N).mean one_ne_zero
  have he : (init1 N).cms = (List.range (2 * N)).map fun k => integ (((fun _ => 1, fun _ => 0) : (Fin 1 → ℝ) × (Fin 1 → ℝ)))
      fun _ => mixL [(⟨-0.5, 0.05, 0.5⟩ : Component), ⟨0.5, 0.05, 0.5⟩] ((C 1 * (X - C (init1 N).mean)) ^ k) := by
    refine List.ext_getElem (by simp [hl]) fun k hk _ => ?_
    have : (init1 N).cms.getD k 0 = mixL [(⟨-0.5, 0.05, 0.5⟩ : Component), ⟨0.5, 0.05, 0.5⟩] ((X - C (init1 N).mean) ^ k) := hlaw.central k (by omega)
    rw [List.getD_eq_getElem _ _ hk] at this
    simp only [List.getElem_map, List.getElem_range, integ, Finset.univ_unique, Finset.sum_singleton, one_mul, C_1]
    exact this
  rw [he]
  exact hp

theorem well_runOK (hB : B.Valid) (N : ℕ) (hN : 2 ≤ N) (p₁ p₂ : ℝ) (ys : List ℕ) :
    RunOK (OkCms B false (sdeCondMomentsEuler (fun x => wellDrift x p₁) dispersion1 dt1 N).central (sdeCondMomentsEuler (fun x => wellDrift x p₁) dispersion1 dt1 N).mean
      (fun y x => wellPmf y x p₂) (2 * N)) (nextCms B false (sdeCondMomentsEuler (fun x => wellDrift x p₁) dispersion1 dt1 N).central
      (sdeCondMomentsEuler (fun x => wellDrift x p₁) dispersion1 dt1 N).mean (fun y x => wellPmf y x p₂) (2 * N)) ((init1 N).cms, (init1 N).mean) ys := by
  have hdt : 0 < dt1 := by norm_num [dt1]
  obtain ⟨hl, hpd⟩ := init1_cms N hN
  have hof : List.ofFn (fun k : Fin (2 * N) => (init1 N).cms.getD k 0) = (init1 N).cms := by
    refine List.ext_getElem (by simp [hl]) fun k hk hk' => ?_
    rw [List.getElem_ofFn, List.getD_eq_getElem _ _ hk']
  have h := (C168_runs_valid hB false (fun y x => wellPmf y x p₂) (fun y x => wellPmf_pos y x p₂) (n := 2 * N) (by omega) _
    (fun x q hq _ => euler_pos (fun x => wellDrift x p₁) dispersion1 dt1 hdt (fun _ => one_ne_zero) x q hq)
    (fun k => (init1 N).cms.getD k 0) (by rw [hof]; exact hpd) ys).2.1 (sdeCondMomentsEuler (fun x => wellDrift x p₁) dispersion1 dt1 N).central
    (sdeCondMomentsEuler (fun x => wellDrift x p₁) dispersion1 dt1 N).mean
    (fun x c k hk => (euler_functional (fun x => wellDrift x p₁) dispersion1 dt1 hdt.le N x k hk).2 c) (init1 N).mean
  rw [hof] at h
  exact h

/-- **C172, parameter estimation.** The objective minimised by `dardel/parameter_estimation/mf.py --euler` is an analytic function of the
two parameters on the whole plane, for every order `N ≥ 2` and every sequence of measurements; forward mode through it returns a finite
number at every parameter and in every direction, and this number is its directional derivative there. -/
theorem C172_estimation (hB : B.Valid) (N : ℕ) (hN : 2 ≤ N) (ys : List ℕ) :
    ContDiff ℝ ω (objWell B N ys) ∧ ∀ params v, objWellJvp B N ys params v = some (fderiv ℝ (objWell B N ys) params v) := by
  have hdt : 0 < dt1 := by norm_num [dt1]
  obtain ⟨hl, hpd⟩ := init1_cms N hN
  have hof : List.ofFn (fun k : Fin (2 * N) => (init1 N).cms.getD k 0) = (init1 N).cms := by
    refine List.ext_getElem (by simp [hl]) fun k hk hk' => ?_
    rw [List.getElem_ofFn, List.getD_eq_getElem _ _ hk']
  have hdrift : ContDiff ℝ ω fun p : ℝ × ℝ => wellDrift p.1 p.2 := by unfold wellDrift; fun_prop
  have hsm : ContDiff ℝ ω (objWell B N ys) := contDiff_iff_contDiffAt.2 fun θ => by
    have hs1 : ContDiff ℝ ω fun p : (ℝ × ℝ) × ℝ => softplus p.1.1 := softplus_smooth.comp (contDiff_fst.comp contDiff_fst)
    have hs2 : ContDiff ℝ ω fun p : (ℝ × ℝ) × ℝ => softplus p.1.2 := softplus_smooth.comp (contDiff_snd.comp contDiff_fst)
    have hdr : Joint ω θ fun (p : ℝ × ℝ) x => wellDrift x (softplus p.1) := fun x => (hdrift.comp (contDiff_snd.prodMk hs1)).contDiffAt
    have hdi : Joint ω θ fun (_ : ℝ × ℝ) x => dispersion1 x := fun x => contDiffAt_const
    have h := (C168_cms_smooth (r := ω) (θ := θ) (n := 2 * N) hB false
      (fun p => (sdeCondMomentsEuler (fun x => wellDrift x (softplus p.1)) dispersion1 dt1 N).central)
      (fun k hk x c => euler_central_smooth (fun (p : ℝ × ℝ) x => wellDrift x (softplus p.1)) (fun _ => dispersion1) hdr hdi (fun _ => one_ne_zero) dt1 hdt N k hk x c)
      (fun p => (sdeCondMomentsEuler (fun x => wellDrift x (softplus p.1)) dispersion1 dt1 N).mean)
      (fun x => contDiffAt_snd.add ((hdr x).mul contDiffAt_const)) (fun p y x => wellPmf y x (softplus p.2)) (fun _ k => (init1 N).cms.getD k 0) contDiffAt_const
      (fun _ => (init1 N).mean) contDiffAt_const (T := ys.length) (fun _ => ys.get)
      (fun j x => ((wellPmf_smooth _).comp (contDiff_snd.prodMk hs2)).contDiffAt) (by
        rw [hof, List.ofFn_get]
        exact well_runOK hB N hN _ _ ys)).1
    simp only [hof, List.ofFn_get] at h
    exact h
  refine ⟨hsm, fun params v => ?_⟩
  have hp1 : ContDiff ℝ 1 fun p : ℝ × ℝ => softplus (params.1 + p.1 * v.1) := softplus_smooth.comp (by fun_prop)
  have hp2 : ContDiff ℝ 1 fun p : ℝ × ℝ => softplus (params.2 + p.1 * v.2) := softplus_smooth.comp (by fun_prop)
  have hdr : Joint 1 (0 : ℝ) fun u x => wellDrift x (softplus (params.1 + u * v.1)) := fun x =>
    ((hdrift.of_le le_top).comp (contDiff_snd.prodMk hp1)).contDiffAt
  obtain ⟨r, hr, hd, -⟩ := C172_cms_jvp (t := 0) (n := 2 * N) hB
    (fun u => (sdeCondMomentsEuler (fun x => wellDrift x (softplus (params.1 + u * v.1))) dispersion1 dt1 N).central) _
    (fun k hk x c => euler_central_smooth (fun (u : ℝ) x => wellDrift x (softplus (params.1 + u * v.1))) (fun _ => dispersion1) hdr (fun x => contDiffAt_const)
      (fun _ => one_ne_zero) dt1 hdt N k hk x c) (fun _ _ _ _ _ _ => rfl)
    (fun u => (sdeCondMomentsEuler (fun x => wellDrift x (softplus (params.1 + u * v.1))) dispersion1 dt1 N).mean) _
    (fun x => contDiffAt_snd.add ((hdr x).mul contDiffAt_const)) (fun _ _ => rfl) (fun u y x => wellPmf y x (softplus (params.2 + u * v.2))) _ ys
    (fun y _ x => ((wellPmf_smooth y).comp (contDiff_snd.prodMk hp2)).contDiffAt) (fun _ _ _ _ => rfl) (fun _ => (init1 N).cms)
    (List.replicate (init1 N).cms.length 0) ⟨fun _ => hl, fun _ _ => contDiffAt_const⟩ (by simp [hl])
    (fun k hk => by simpa [List.getD_replicate, hl, hk] using hasDerivAt_const (0 : ℝ) ((init1 N).cms.getD k 0)) (fun _ => (init1 N).mean) 0 contDiffAt_const
    (hasDerivAt_const _ _) (well_runOK hB N hN _ _ ys)
  have hjvp : objWellJvp B N ys params v = some r.2 := by
    rw [objWellJvp]
    exact congrArg (Option.map fun r => r.2) hr
  rw [hjvp]
  congr 1
  have hline : HasDerivAt (fun u : ℝ => (params.1 + u * v.1, params.2 + u * v.2)) v 0 := by
    refine HasDerivAt.prodMk ?_ ?_
    · simpa using ((hasDerivAt_id (0 : ℝ)).mul_const v.1).const_add params.1
    · simpa using ((hasDerivAt_id (0 : ℝ)).mul_const v.2).const_add params.2
  have h0 : ((params.1 + 0 * v.1, params.2 + 0 * v.2) : ℝ × ℝ) = params := by simp
  have hf : HasFDerivAt (objWell B N ys) (fderiv ℝ (objWell B N ys) params) params := (hsm.contDiffAt.differentiableAt (by simp)).hasFDerivAt
  rw [← h0] at hf
  have hc := hf.comp_hasDerivAt 0 hline
  rw [h0] at hc
  exact hd.unique hc

/-- the hypotheses of the statements on the estimation, and of C172 for central moments through it: a backend and an order. -/
example : theBackend.Valid ∧ 2 ≤ 3 ∧ RunOK (OkCms theBackend false (sdeCondMomentsEuler (fun x => wellDrift x 3) dispersion1 dt1 3).central
    (sdeCondMomentsEuler (fun x => wellDrift x 3) dispersion1 dt1 3).mean (fun y x => wellPmf y x 3) (2 * 3))
    (nextCms theBackend false (sdeCondMomentsEuler (fun x => wellDrift x 3) dispersion1 dt1 3).central
    (sdeCondMomentsEuler (fun x => wellDrift x 3) dispersion1 dt1 3).mean (fun y x => wellPmf y x 3) (2 * 3)) ((init1 3).cms, (init1 3).mean) [0, 2, 1] :=
  ⟨theBackend_valid, by norm_num, well_runOK theBackend_valid 3 (by norm_num) 3 3 _⟩

/-- valid runs of the filters of raw and of scaled moments: a normal transition of unit variance and a normal measurement. -/
example (ys : List ℝ) : (RunOK (OkRms theBackend false (fun x k => gaussL (x / 2) 1 (X ^ k)) (fun y x : ℝ => Real.exp (-(y - x) ^ 2 / 2)) 4)
      (nextRms theBackend false (fun x k => gaussL (x / 2) 1 (X ^ k)) (fun y x : ℝ => Real.exp (-(y - x) ^ 2 / 2)) 4) (List.ofFn ![1, 0, 1, 0]) ys) ∧
    RunOK (OkScms theBackend false (fun x k m c => gaussL (x / 2) 1 ((C c⁻¹ * (X - C m)) ^ k)) (fun x => x / 2) (fun _ => 1)
      (fun y x : ℝ => Real.exp (-(y - x) ^ 2 / 2)) 4) (nextScms theBackend false (fun x k m c => gaussL (x / 2) 1 ((C c⁻¹ * (X - C m)) ^ k))
      (fun x => x / 2) (fun _ => 1) (fun y x : ℝ => Real.exp (-(y - x) ^ 2 / 2)) 4) (List.ofFn ![1, 0, 1, 0], 0, 1) ys := by
  have hpd : (gramOf (List.ofFn ![(1 : ℝ), 0, 1, 0])).PosDef := by
    have : List.ofFn ![(1 : ℝ), 0, 1, 0] = [1, 0, 1, 0] := by simp [List.ofFn_succ]
    exact (congrArg (fun l => (gramOf l).PosDef) this).mpr gramOf_example
  have h := C168_runs_valid theBackend_valid false (fun y x : ℝ => Real.exp (-(y - x) ^ 2 / 2)) (fun _ _ => Real.exp_pos _) (n := 4) (by norm_num)
    (fun x => gaussL (x / 2) 1) (fun x q hq _ => gaussL_sq_pos _ one_ne_zero q hq) ![1, 0, 1, 0] hpd ys
  exact ⟨h.1 _ fun _ _ _ => rfl, h.2.2 le_rfl _ _ _ (fun _ => one_pos) (fun _ _ _ _ _ => rfl) 0 1⟩

end Mfs.Props

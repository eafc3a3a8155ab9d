import Verif.Lemmas.TmeNan

/-!
# C176: smoothness and forward-mode derivatives of the filters with moments from `tme`
-/

namespace Mfs.Props

open Matrix Mfs.Spec Filter Topology Mfs.Quad1 Mfs.Filter1 Mfs.Cont Mfs.Smooth Mfs.Jvp Mfs.Moments1 Mfs.SsModels Polynomial
open scoped ContDiff

variable {n : ℕ} {B : Backend} {Y : Type} {E : Type*} [NormedAddCommGroup E] [NormedSpace ℝ E] {θ : E} {r : WithTop ℕ∞}

theorem add_one_le_of_smooth (hr : r = ∞ ∨ r = ω) : r + 1 ≤ r := by
  rcases hr with rfl | rfl
  · exact le_of_eq (by rfl)
  · exact le_of_eq (by rfl)

theorem prod_range_pow (s : ℝ) (M : ℕ) : ((List.range M).map fun k => s ^ k).prod = s ^ ∑ j ∈ Finset.range M, j := by
  induction M with
  | zero => simp
  | succ M ih => rw [List.range_succ, List.map_append, List.prod_append, ih, Finset.sum_range_succ, pow_add]; simp

/-- **C176, moments.** Let drift and dispersion be of class `C^∞` (or analytic) in parameter and state. Then all conditional moments computed by
`sde_cond_moments_tme` and by `sde_cond_moments_tme_normal` are of this class in parameter, state, centre and (non-zero) scale. -/
theorem C176_moments (hr : r = ∞ ∨ r = ω) (a b : E → ℝ → ℝ) (ha : Joint r θ a) (hb : Joint r θ b) (dt : ℝ) (order N : ℕ) (x c d : ℝ) (hd : 0 < d) (k : ℕ) :
    let F t := sdeCondMomentsTme (Tme.expectation (a t) (b t) dt order) (Tme.meanCov (a t) (b t) dt order)
    let G t := sdeCondMomentsTmeNormal (Tme.expectation (a t) (b t) dt order) (Tme.meanCov (a t) (b t) dt order) N
    (ContDiffAt ℝ r (fun p : E × ℝ => (F p.1).raw p.2 k) (θ, x) ∧ ContDiffAt ℝ r (fun p : E × ℝ × ℝ => (F p.1).central p.2.1 k p.2.2) (θ, x, c) ∧
      ContDiffAt ℝ r (fun p : E × ℝ × ℝ × ℝ => (F p.1).scaled p.2.1 k p.2.2.1 p.2.2.2) (θ, x, c, d) ∧ ContDiffAt ℝ r (fun p : E × ℝ => (F p.1).mean p.2) (θ, x) ∧
      ContDiffAt ℝ r (fun p : E × ℝ => (F p.1).meanVar p.2) (θ, x)) ∧
    (k < 2 * N → ContDiffAt ℝ r (fun p : E × ℝ => (G p.1).raw p.2 k) (θ, x) ∧ ContDiffAt ℝ r (fun p : E × ℝ × ℝ => (G p.1).central p.2.1 k p.2.2) (θ, x, c) ∧
      ContDiffAt ℝ r (fun p : E × ℝ × ℝ × ℝ => (G p.1).scaled p.2.1 k p.2.2.1 p.2.2.2) (θ, x, c, d) ∧ ContDiffAt ℝ r (fun p : E × ℝ => (G p.1).mean p.2) (θ, x) ∧
      ContDiffAt ℝ r (fun p : E × ℝ => (G p.1).meanVar p.2) (θ, x)) := by
  intro F G
  have hr' := add_one_le_of_smooth hr
  have hmean := Tme.contDiffAt_expectation hr' (ha x) (hb x) (phi := fun _ u => u) contDiffAt_snd dt order
  have hmv := Tme.contDiffAt_meanCov hr' (ha x) (hb x) dt order
  -- the point of parameter and state as a function of the further arguments
  have q2 : ContDiffAt ℝ r (fun p : E × ℝ × ℝ => (p.1, p.2.1)) (θ, x, c) := contDiffAt_fst.prodMk (contDiffAt_fst.comp _ contDiffAt_snd)
  have q3 : ContDiffAt ℝ r (fun p : E × ℝ × ℝ × ℝ => (p.1, p.2.1)) (θ, x, c, d) := contDiffAt_fst.prodMk (contDiffAt_fst.comp _ contDiffAt_snd)
  refine ⟨⟨?_, ?_, ?_, hmean, hmv⟩, fun hk => ⟨?_, ?_, ?_, hmean, hmv⟩⟩
  · exact Tme.contDiffAt_expectation hr' (ha x) (hb x) (phi := fun _ u => u ^ k) (contDiffAt_snd.pow k) dt order
  · have h1 : ContDiffAt ℝ r (fun p : (E × ℝ) × ℝ => (p.1.1, p.2)) ((θ, c), x) := (contDiffAt_fst.comp _ contDiffAt_fst).prodMk contDiffAt_snd
    have h2 := Tme.contDiffAt_expectation (F := E × ℝ) (a := fun t => a t.1) (b := fun t => b t.1) (q := ((θ, c), x)) hr'
      (ContDiffAt.comp (g := fun p : E × ℝ => a p.1 p.2) ((θ, c), x) (ha x) h1) (ContDiffAt.comp (g := fun p : E × ℝ => b p.1 p.2) ((θ, c), x) (hb x) h1)
      (phi := fun t u => (u - t.2) ^ k) ((contDiffAt_snd.sub (contDiffAt_snd.comp _ contDiffAt_fst)).pow k) dt order
    have h3 : ContDiffAt ℝ r (fun p : E × ℝ × ℝ => ((p.1, p.2.2), p.2.1)) (θ, x, c) :=
      (contDiffAt_fst.prodMk (contDiffAt_snd.comp _ contDiffAt_snd)).prodMk (contDiffAt_fst.comp _ contDiffAt_snd)
    exact ContDiffAt.comp (g := fun p : (E × ℝ) × ℝ => Tme.expectation (a p.1.1) (b p.1.1) dt order (fun u => (u - p.1.2) ^ k) p.2) (θ, x, c) h2 h3
  · have h1 : ContDiffAt ℝ r (fun p : (E × ℝ × ℝ) × ℝ => (p.1.1, p.2)) ((θ, c, d), x) := (contDiffAt_fst.comp _ contDiffAt_fst).prodMk contDiffAt_snd
    have hphi : ContDiffAt ℝ r (fun p : (E × ℝ × ℝ) × ℝ => ((p.2 - p.1.2.1) / p.1.2.2) ^ k) ((θ, c, d), x) := by
      have g1 : ContDiffAt ℝ r (fun p : (E × ℝ × ℝ) × ℝ => p.1.2.1) ((θ, c, d), x) := contDiffAt_fst.comp _ (contDiffAt_snd.comp _ contDiffAt_fst)
      have g2 : ContDiffAt ℝ r (fun p : (E × ℝ × ℝ) × ℝ => p.1.2.2) ((θ, c, d), x) := contDiffAt_snd.comp _ (contDiffAt_snd.comp _ contDiffAt_fst)
      exact ((contDiffAt_snd.sub g1).div g2 hd.ne').pow k
    have h2 := Tme.contDiffAt_expectation (F := E × ℝ × ℝ) (a := fun t => a t.1) (b := fun t => b t.1) (q := ((θ, c, d), x)) hr'
      (ContDiffAt.comp (g := fun p : E × ℝ => a p.1 p.2) ((θ, c, d), x) (ha x) h1) (ContDiffAt.comp (g := fun p : E × ℝ => b p.1 p.2) ((θ, c, d), x) (hb x) h1)
      (phi := fun t u => ((u - t.2.1) / t.2.2) ^ k) hphi dt order
    have h3 : ContDiffAt ℝ r (fun p : E × ℝ × ℝ × ℝ => ((p.1, p.2.2), p.2.1)) (θ, x, c, d) :=
      (contDiffAt_fst.prodMk (contDiffAt_snd.comp _ contDiffAt_snd)).prodMk (contDiffAt_fst.comp _ contDiffAt_snd)
    exact ContDiffAt.comp (g := fun p : (E × ℝ × ℝ) × ℝ => Tme.expectation (a p.1.1) (b p.1.1) dt order (fun u => ((u - p.1.2.1) / p.1.2.2) ^ k) p.2) (θ, x, c, d) h2 h3
  · have e : (fun p : E × ℝ => (G p.1).raw p.2 k) = fun p : E × ℝ => rawMomentOfNormal (Tme.meanCov (a p.1) (b p.1) dt order p.2).1
        (Tme.meanCov (a p.1) (b p.1) dt order p.2).2 k := funext fun p => jget_map_range _ hk
    rw [e]
    exact ContDiffAt.comp (g := fun q : ℝ × ℝ => rawMomentOfNormal q.1 q.2 k) (θ, x) (Tme.contDiff_rawMomentOfNormal k).contDiffAt hmv
  · have e : (fun p : E × ℝ × ℝ => (G p.1).central p.2.1 k p.2.2) = fun p : E × ℝ × ℝ => rawMomentOfNormal
        ((Tme.meanCov (a p.1) (b p.1) dt order p.2.1).1 - p.2.2) (Tme.meanCov (a p.1) (b p.1) dt order p.2.1).2 k := funext fun p => jget_map_range _ hk
    rw [e]
    have h1 := ContDiffAt.comp (g := fun p : E × ℝ => Tme.meanCov (a p.1) (b p.1) dt order p.2) (θ, x, c) hmv q2
    exact ContDiffAt.comp (g := fun q : ℝ × ℝ => rawMomentOfNormal q.1 q.2 k) (θ, x, c) (Tme.contDiff_rawMomentOfNormal k).contDiffAt
      (((contDiffAt_fst.comp _ h1).sub (contDiffAt_snd.comp _ contDiffAt_snd)).prodMk (contDiffAt_snd.comp _ h1))
  · have e : (fun p : E × ℝ × ℝ × ℝ => (G p.1).scaled p.2.1 k p.2.2.1 p.2.2.2) = fun p : E × ℝ × ℝ × ℝ => rawMomentOfNormal
        ((Tme.meanCov (a p.1) (b p.1) dt order p.2.1).1 - p.2.2.1) (Tme.meanCov (a p.1) (b p.1) dt order p.2.1).2 k /
          p.2.2.2 ^ (∑ j ∈ Finset.range (2 * N), j) := funext fun p => by
      refine congrArg₂ (· / ·) (jget_map_range _ hk) ?_
      exact prod_range_pow _ _
    rw [e]
    have h1 := ContDiffAt.comp (g := fun p : E × ℝ => Tme.meanCov (a p.1) (b p.1) dt order p.2) (θ, x, c, d) hmv q3
    have h4 := ContDiffAt.comp (g := fun q : ℝ × ℝ => rawMomentOfNormal q.1 q.2 k) (f := fun p : E × ℝ × ℝ × ℝ =>
        ((Tme.meanCov (a p.1) (b p.1) dt order p.2.1).1 - p.2.2.1, (Tme.meanCov (a p.1) (b p.1) dt order p.2.1).2)) (θ, x, c, d) (Tme.contDiff_rawMomentOfNormal k).contDiffAt
      (((contDiffAt_fst.comp _ h1).sub (contDiffAt_fst.comp _ (contDiffAt_snd.comp _ contDiffAt_snd))).prodMk (contDiffAt_snd.comp _ h1))
    exact h4.div ((contDiffAt_snd.comp _ (contDiffAt_snd.comp _ contDiffAt_snd)).pow _) (pow_ne_zero _ hd.ne')

/-- **C176, filters.** With the moments of `sde_cond_moments_tme`, for drift and dispersion, initial moments and a density that are of class `C^∞` (or
analytic) in parameter and state, the negative log-likelihoods of the three filters are of this class in the parameter wherever the run is valid. -/
theorem C176_tme_smooth (hB : B.Valid) (stable : Bool) (hr : r = ∞ ∨ r = ω) (a b : E → ℝ → ℝ) (ha : Joint r θ a) (hb : Joint r θ b) (dt : ℝ) (order : ℕ)
    (pdf : E → Y → ℝ → ℝ) (m : E → Fin n → ℝ) (hm : ContDiffAt ℝ r m θ) (mean scale : E → ℝ) (hmean : ContDiffAt ℝ r mean θ) (hscale : ContDiffAt ℝ r scale θ)
    {T : ℕ} (ys : E → Fin T → Y) (hpdf : ∀ j, Joint r θ fun t => pdf t (ys t j)) :
    let F t := sdeCondMomentsTme (Tme.expectation (a t) (b t) dt order) (Tme.meanCov (a t) (b t) dt order)
    (RunOK (OkRms B stable (F θ).raw (pdf θ) n) (nextRms B stable (F θ).raw (pdf θ) n) (List.ofFn (m θ)) (List.ofFn (ys θ)) →
      ContDiffAt ℝ r (fun t => (filterRms B (F t).raw (pdf t) (List.ofFn (m t)) (List.ofFn (ys t)) stable).2) θ) ∧
    (RunOK (OkCms B stable (F θ).central (F θ).mean (pdf θ) n) (nextCms B stable (F θ).central (F θ).mean (pdf θ) n) (List.ofFn (m θ), mean θ) (List.ofFn (ys θ)) →
      ContDiffAt ℝ r (fun t => (filterCms B (F t).central (F t).mean (pdf t) (List.ofFn (m t)) (mean t) (List.ofFn (ys t)) stable).2) θ) ∧
    (RunOK (OkScms B stable (F θ).scaled (fun x => ((F θ).meanVar x).1) (fun x => ((F θ).meanVar x).2) (pdf θ) n)
        (nextScms B stable (F θ).scaled (fun x => ((F θ).meanVar x).1) (fun x => ((F θ).meanVar x).2) (pdf θ) n) (List.ofFn (m θ), mean θ, scale θ) (List.ofFn (ys θ)) →
      ContDiffAt ℝ r (fun t => (filterScms B (F t).scaled (fun x => ((F t).meanVar x).1) (fun x => ((F t).meanVar x).2) (pdf t) (List.ofFn (m t)) (mean t) (scale t)
        (List.ofFn (ys t)) stable).2) θ) := by
  intro F
  have h := fun x c d hd k => (C176_moments hr a b ha hb dt order 0 x c d hd k).1
  refine ⟨fun hok => ?_, fun hok => ?_, fun hok => ?_⟩
  · exact (C168_rms_smooth hB stable (fun t => (F t).raw) (fun k _ x => (h x 0 1 one_pos k).1) pdf m hm ys hpdf hok).1
  · exact (C168_cms_smooth hB stable (fun t => (F t).central) (fun k _ x c => (h x c 1 one_pos k).2.1) (fun t => (F t).mean)
      (fun x => (h x 0 1 one_pos 0).2.2.2.1) pdf m hm mean hmean ys hpdf hok).1
  · exact (C168_scms_smooth hB stable (fun t => (F t).scaled) (fun k _ x c d hd => (h x c d hd k).2.2.1) (fun t x => ((F t).meanVar x).1)
      (fun t x => ((F t).meanVar x).2) (fun x => contDiffAt_fst.comp _ (h x 0 1 one_pos 0).2.2.2.2) (fun x => contDiffAt_snd.comp _ (h x 0 1 one_pos 0).2.2.2.2)
      pdf m hm mean scale hmean hscale ys hpdf hok).1

/-- **C176, normal approximation.** With the moments of `sde_cond_moments_tme_normal`, a positive density, and a parameter at which all conditional variances
met along the run are positive: the negative log-likelihood of the filter of central moments is a number at all parameters nearby, and is of class `C^∞` (or
analytic) there. -/
theorem C176_normal_smooth (hB : B.Valid) (hr : r = ∞ ∨ r = ω) (a b : E → ℝ → ℝ) (ha : Joint r θ a) (hb : Joint r θ b) (dt : ℝ) (order N : ℕ) (hn : 2 ≤ n)
    (hN : n ≤ 2 * N) (pdf : E → Y → ℝ → ℝ) (hpos : ∀ y x, 0 < pdf θ y x) (m : E → Fin n → ℝ) (hm : ContDiffAt ℝ r m θ) (hpd : (gramOf (List.ofFn (m θ))).PosDef) (mean : E → ℝ)
    (hmean : ContDiffAt ℝ r mean θ) (ys : List Y) (hpdf : ∀ y ∈ ys, Joint r θ fun t => pdf t y)
    (hv : RunOK (fun s _ => TmeNan.VarPos B (fun x => (Tme.meanCov (a θ) (b θ) dt order x).2) s)
      (nextCms B false (sdeCondMomentsTmeNormal (Tme.expectation (a θ) (b θ) dt order) (Tme.meanCov (a θ) (b θ) dt order) N).central
        (Tme.expectation (a θ) (b θ) dt order fun u => u) (pdf θ) n) (List.ofFn (m θ), mean θ) ys) :
    let f t := (filterCms B (sdeCondMomentsTmeNormal (Tme.expectation (a t) (b t) dt order) (Tme.meanCov (a t) (b t) dt order) N).central
      (Tme.expectation (a t) (b t) dt order fun u => u) (pdf t) (List.ofFn (m t)) (mean t) ys).2
    ContDiffAt ℝ r f θ ∧ ∀ᶠ t in 𝓝 θ, TmeNan.nellCms B (TmeNan.central (a t) (b t) dt order) (Tme.expectation (a t) (b t) dt order fun u => u) (pdf t)
      (List.ofFn (m t)) (mean t) ys = some (f t) := by
  have h := fun x c k hk => (C176_moments hr a b ha hb dt order N x c 1 one_pos k).2 hk
  let G := fun t => sdeCondMomentsTmeNormal (Tme.expectation (a t) (b t) dt order) (Tme.meanCov (a t) (b t) dt order) N
  have hP : ∀ k < n, ∀ x c, ContDiffAt ℝ r (fun p : E × ℝ × ℝ => (G p.1).central p.2.1 k p.2.2) (θ, x, c) := fun k hk x c => (h x c k (by omega)).2.1
  have hcm : Joint r θ fun t => Tme.expectation (a t) (b t) dt order fun u => u := fun x => (h x 0 0 (by omega)).2.2.2.1
  have hV : Joint r θ fun t x => (Tme.meanCov (a t) (b t) dt order x).2 := fun x => contDiffAt_snd.comp _ (h x 0 0 (by omega)).2.2.2.2
  have hPV : ∀ x, 0 < (Tme.meanCov (a θ) (b θ) dt order x).2 → ∀ k < n, ∀ c, (G θ).central x k c =
      gaussL (Tme.meanCov (a θ) (b θ) dt order x).1 (Tme.meanCov (a θ) (b θ) dt order x).2.toNNReal ((X - C c) ^ k) := fun x hx k hk c =>
    TmeNan.tmeNormal_central _ _ N k (by omega) x c hx.le
  refine ⟨?_, ?_⟩
  · have hok := TmeNan.run_ok hB hn (pdf θ) hpos _ _ _ (fun x => (Tme.meanCov (a θ) (b θ) dt order x).2) hPV ys _ List.length_ofFn hpd hv
    have := (C168_cms_smooth hB false (fun t => (G t).central) hP _ hcm pdf m hm mean hmean (T := ys.length) (fun _ => ys.get)
      (fun j => hpdf _ (List.get_mem ys j)) (by rw [List.ofFn_get]; exact hok)).1
    simpa only [List.ofFn_get] using this
  · filter_upwards [TmeNan.run_eventually hB hn (fun t => (G t).central) hP _ _ hcm hV _ hPV pdf hpos ys hpdf (fun t => (List.ofFn (m t), mean t)) (Sm.ofFn hm) hmean hpd hv]
      with t ht
    refine TmeNan.nellCms_of_run (fun x => 0 < (Tme.meanCov (a t) (b t) dt order x).2) _ (G t).central _ _ _ _ (fun x hx k hk c => ?_) ys ?_
    · rw [List.length_ofFn] at hk
      rw [TmeNan.central_eq _ _ _ _ N x k (by omega), if_neg fun h' => (h'.1.trans hx).false]
    · rw [List.length_ofFn]
      exact ht

theorem runOK_iff_take {S Z : Type} {Q : S → Prop} {g : S → Z → S} (s : S) (ys : List Z) :
    RunOK (fun s _ => Q s) g s ys ↔ ∀ s' ∈ (s :: traj g s ys).take ys.length, Q s' := by
  induction ys generalizing s with
  | nil => simp [RunOK]
  | cons y ys ih => simp only [RunOK, ih, traj, List.length_cons, List.take_succ_cons, List.forall_mem_cons]

/-- the conditional variances of order two at all nodes met by the objective of the parameter estimation satisfy `Q`. -/
def WellVariances (Q : ℝ → Prop) (B : Backend) (N : ℕ) (ys : List ℕ) (p : ℝ × ℝ) : Prop :=
  RunOK (fun s _ => ∀ i, Q (Tme.meanCov (fun x => wellDrift x p.1) dispersion1 dt1 2 ((momentQuadrature B s.1 s.2 1 false false).2 i)).2)
    (nextCms B false (sdeCondMomentsTmeNormal (Tme.expectation (fun x => wellDrift x p.1) dispersion1 dt1 2) (Tme.meanCov (fun x => wellDrift x p.1) dispersion1 dt1 2) N).central
      (Tme.expectation (fun x => wellDrift x p.1) dispersion1 dt1 2 fun u => u) (fun y x => wellPmf y x p.2) (2 * N)) ((init1 N).cms, (init1 N).mean) ys

theorem wellDrift_smooth : ContDiff ℝ ω fun p : ℝ × ℝ => wellDrift p.1 p.2 := by unfold wellDrift; fun_prop

theorem init1_ofFn (N : ℕ) (hN : 2 ≤ N) : List.ofFn (fun k : Fin (2 * N) => (init1 N).cms.getD k 0) = (init1 N).cms := by
  obtain ⟨hl, -⟩ := init1_cms N hN
  refine List.ext_getElem (by simp [hl]) fun k hk hk' => ?_
  rw [List.getElem_ofFn, List.getD_eq_getElem _ _ hk']

/-- **C176, parameter estimation.** The objective minimised by `dardel/parameter_estimation/mf.py` without `--euler`, at parameters where the conditional
variances met along the run are positive: it is finite and analytic in the parameters nearby, and forward mode through it returns its directional
derivatives. -/
theorem C176_estimation (hB : B.Valid) (N : ℕ) (hN : 2 ≤ N) (ys : List ℕ) (params : ℝ × ℝ)
    (hv : WellVariances (fun v => 0 < v) B N ys (softplus params.1, softplus params.2)) :
    ∃ f : ℝ × ℝ → ℝ, ContDiffAt ℝ ω f params ∧ (∀ᶠ p in 𝓝 params, TmeNan.objWell B N ys p = some (f p)) ∧
      ∀ v, TmeNan.objWellJvp B N ys params v = some (fderiv ℝ f params v) := by
  obtain ⟨hl, hpd⟩ := init1_cms N hN
  have hof := init1_ofFn N hN
  have hs1 : ContDiff ℝ ω fun p : (ℝ × ℝ) × ℝ => softplus p.1.1 := softplus_smooth.comp (contDiff_fst.comp contDiff_fst)
  have hs2 : ContDiff ℝ ω fun p : (ℝ × ℝ) × ℝ => softplus p.1.2 := softplus_smooth.comp (contDiff_snd.comp contDiff_fst)
  have hdr : Joint ω params fun (p : ℝ × ℝ) x => wellDrift x (softplus p.1) := fun x => (wellDrift_smooth.comp (contDiff_snd.prodMk hs1)).contDiffAt
  have hdi : Joint ω params fun (_ : ℝ × ℝ) x => dispersion1 x := fun x => contDiffAt_const
  obtain ⟨hf, hev⟩ := C176_normal_smooth (n := 2 * N) (θ := params) hB (Or.inr rfl) _ _ hdr hdi dt1 2 N (by omega) le_rfl
    (fun p y x => wellPmf y x (softplus p.2)) (fun y x => wellPmf_pos y x _) (fun _ k => (init1 N).cms.getD k 0) contDiffAt_const (by rw [hof]; exact hpd)
    (fun _ => (init1 N).mean) contDiffAt_const ys (fun y _ x => ((wellPmf_smooth _).comp (contDiff_snd.prodMk hs2)).contDiffAt) (by rw [hof]; exact hv)
  simp only [hof] at hf hev
  refine ⟨_, hf, hev, fun v => ?_⟩
  let G := fun p : ℝ => sdeCondMomentsTmeNormal (Tme.expectation (fun x => wellDrift x (softplus p)) dispersion1 dt1 2)
    (Tme.meanCov (fun x => wellDrift x (softplus p)) dispersion1 dt1 2) N
  have hp1 : ContDiff ℝ ω fun p : ℝ × ℝ => softplus (params.1 + p.1 * v.1) := softplus_smooth.comp (by fun_prop)
  have hp2 : ContDiff ℝ 1 fun p : ℝ × ℝ => softplus (params.2 + p.1 * v.2) := softplus_smooth.comp (by fun_prop)
  have hdr1 : Joint ω (0 : ℝ) fun u x => wellDrift x (softplus (params.1 + u * v.1)) := fun x => (wellDrift_smooth.comp (contDiff_snd.prodMk hp1)).contDiffAt
  have hmom := fun x c k hk => (C176_moments (θ := (0 : ℝ)) (Or.inr rfl) _ (fun _ => dispersion1) hdr1 (fun x => contDiffAt_const) dt1 2 N x c 1 one_pos k).2 hk
  have h0 : ((params.1 + 0 * v.1, params.2 + 0 * v.2) : ℝ × ℝ) = params := by simp
  have h01 : params.1 + 0 * v.1 = params.1 := by simp
  have h02 : params.2 + 0 * v.2 = params.2 := by simp
  have hV := hv
  have hok := TmeNan.run_ok hB (by omega) (fun y x => wellPmf y x (softplus params.2)) (fun y x => wellPmf_pos y x _) (G params.1).central
    (Tme.expectation (fun x => wellDrift x (softplus params.1)) dispersion1 dt1 2 fun u => u) (fun x => (Tme.meanCov (fun x => wellDrift x (softplus params.1)) dispersion1 dt1 2 x).1)
    (fun x => (Tme.meanCov (fun x => wellDrift x (softplus params.1)) dispersion1 dt1 2 x).2)
    (fun x hx k hk c => TmeNan.tmeNormal_central _ _ N k hk x c hx.le) ys ((init1 N).cms, (init1 N).mean) hl hpd hV
  obtain ⟨r, hr, hd, -⟩ := C172_cms_jvp (t := 0) (n := 2 * N) hB (fun u => (G (params.1 + u * v.1)).central) _
    (fun k hk x c => (hmom x c k hk).2.1.of_le le_top) (fun _ _ _ _ _ _ => rfl)
    (fun u => (G (params.1 + u * v.1)).mean) _
    (fun x => (hmom x 0 0 (by omega)).2.2.2.1.of_le le_top) (fun _ _ => rfl) (fun u y x => wellPmf y x (softplus (params.2 + u * v.2))) _ ys
    (fun y _ x => ((wellPmf_smooth y).comp (contDiff_snd.prodMk hp2)).contDiffAt) (fun _ _ _ _ => rfl) (fun _ => (init1 N).cms)
    (List.replicate (init1 N).cms.length 0) ⟨fun _ => hl, fun _ _ => contDiffAt_const⟩ (by simp [hl])
    (fun k hk => by simpa [List.getD_replicate, hl, hk] using hasDerivAt_const (0 : ℝ) ((init1 N).cms.getD k 0)) (fun _ => (init1 N).mean) 0 contDiffAt_const
    (hasDerivAt_const _ _) (by simp only [h01, h02]; exact hok)
  have hjvp : TmeNan.objWellJvp B N ys params v = some r.2 := by
    rw [TmeNan.objWellJvp]
    refine (if_pos ?_).trans (congrArg (Option.map fun r => r.2) hr)
    have e := congrArg Prod.fst (filterCms_eq B false (G params.1).central (G params.1).mean (fun y x => wellPmf y x (softplus params.2)) (init1 N).cms (init1 N).mean ys)
    simp only [h01, h02]
    rw [WellVariances, runOK_iff_take] at hV
    have e' : (scan (cmsStep B false (G params.1).central (G params.1).mean (fun y x => wellPmf y x (softplus params.2)) (init1 N).cms.length)
        (((init1 N).cms, (init1 N).mean), 0) ys).2 = _ := e
    intro s hs
    refine hV s ?_
    rw [e', hl] at hs
    exact hs
  rw [hjvp]
  congr 1
  have hline : HasDerivAt (fun u : ℝ => (params.1 + u * v.1, params.2 + u * v.2)) v 0 := by
    refine HasDerivAt.prodMk ?_ ?_
    · simpa using ((hasDerivAt_id (0 : ℝ)).mul_const v.1).const_add params.1
    · simpa using ((hasDerivAt_id (0 : ℝ)).mul_const v.2).const_add params.2
  have hfd := (hf.differentiableAt (by simp)).hasFDerivAt
  have hc := HasFDerivAt.comp_hasDerivAt_of_eq (x := (0 : ℝ)) hfd hline h0.symm
  exact hd.unique hc

end Mfs.Props

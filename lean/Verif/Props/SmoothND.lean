import Verif.Lemmas.RuleSmoothND

/-!
# C169, C170: the multidimensional rule and filters are differentiable in their inputs
-/

namespace Mfs.Props

open Matrix Mfs.Spec Filter Topology Mfs.QuadND Mfs.Cont Mfs.FilterND Mfs.Smooth Mfs.Spectral
open scoped ContDiff

variable {N d : ℕ} {basis full : List (List ℕ)} {mats : List (List (List ℤ))} {r : ℕ∞}

/-- **C169.** Wherever the Gram matrix of the moments is positive definite, the value of the multidimensional rule on a function
of class `C^r` (`r` finite or infinite) is of class `C^r` jointly in the moments, the mean and the scale. Eigenvalues may be
repeated, so that nodes and eigenvectors themselves need be neither differentiable nor continuous; nothing is assumed on how they
are chosen. -/
theorem C169_nd_rule_smooth (B : Backend) (hB : B.Valid) (T : Tables N d basis full mats) (sort ldl : Bool) (F : List ℝ → ℝ)
    (hF : ContDiff ℝ r fun v : Fin d → ℝ => F (List.ofFn v)) :
    ContDiffOn ℝ r (fun ms : Fin full.length → ℝ => integND (momentQuadratureND B (List.ofFn ms) mats none none sort ldl) F)
      {ms | (gramOn basis (momentAt full (List.ofFn ms))).PosDef} ∧
    ContDiffOn ℝ r (fun p : (Fin full.length → ℝ) × (Fin d → ℝ) => integND (momentQuadratureND B (List.ofFn p.1) mats (some (List.ofFn p.2)) none sort ldl) F)
      {p | (gramOn basis (momentAt full (List.ofFn p.1))).PosDef} ∧
    ContDiffOn ℝ r (fun p : (Fin full.length → ℝ) × (Fin d → ℝ) × (Fin d → ℝ) =>
        integND (momentQuadratureND B (List.ofFn p.1) mats (some (List.ofFn p.2.1)) (some (List.ofFn p.2.2)) sort ldl) F)
      {p | (gramOn basis (momentAt full (List.ofFn p.1))).PosDef} := by
  refine ⟨fun ms h => ?_, fun p h => ?_, fun p h => ?_⟩
  · exact (smooth_rule_raw T B hB (Sm.ofFn contDiffAt_id) h sort ldl (JointND.const hF)).contDiffWithinAt
  · exact (smooth_rule_central T B hB (Sm.ofFn contDiffAt_fst) h (Sm.ofFn contDiffAt_snd) sort ldl (JointND.const hF)).contDiffWithinAt
  · exact (smooth_rule_scaled T B hB (Sm.ofFn contDiffAt_fst) h (Sm.ofFn (contDiffAt_fst.comp p contDiffAt_snd))
      (Sm.ofFn (contDiffAt_snd.comp p contDiffAt_snd)) sort ldl (JointND.const hF)).contDiffWithinAt

/-- the moments of two independent fair signs form such a vector, and the function may be any polynomial times an exponential. -/
example (T : Tables 2 2 [[0, 0], [0, 1], [1, 0]] full mats) :
    (gramOn [[0, 0], [0, 1], [1, 0]] (momentAt full (List.ofFn fun i : Fin full.length => signMoment full[i]))).PosDef ∧
    ContDiff ℝ ∞ (fun v : Fin 2 → ℝ => (fun x : List ℝ => Real.exp (-(x.getD 0 0) ^ 2) * x.getD 1 0 ^ 3) (List.ofFn v)) := by
  constructor
  · have : (List.ofFn fun i : Fin full.length => signMoment full[i]) = full.map signMoment := by
      apply List.ext_getElem <;> simp
    rw [this, T.gram]
    exact sign_gram
  · simp only [List.ofFn_succ, List.getD_cons_zero, List.getD_cons_succ]
    fun_prop

/-! ## C170 -/

variable {E : Type} [NormedAddCommGroup E] [NormedSpace ℝ E] {θ : E} {Y : Type} {B : Backend}

/-- **C170, raw moments.** Let initial moments, conditional moments, measurements and measurement density depend on a parameter
in such a way that the moments are of class `C^r` in parameter and state, and so is the density at each measurement. Then at
every parameter where the run is valid (Gram matrices positive definite, predictive likelihoods positive), the negative
log-likelihood and all filtering moments of the multidimensional filter are of class `C^r` in the parameter. -/
theorem C170_nd_rms_smooth (hB : B.Valid) (stable : Bool) (Tb : Tables N d basis full mats) (P : E → CondMoments Unit)
    (hP : ∀ k < full.length, JointND r θ d fun t x => ((P t).row full () x).getD k 0) (pdf : E → Y → List ℝ → ℝ)
    (m : E → Fin full.length → ℝ) (hm : ContDiffAt ℝ r m θ) {T : ℕ} (ys : E → Fin T → Y) (hpdf : ∀ j, JointND r θ d fun t => pdf t (ys t j))
    (hok : RunOK (okRms B stable (pdf θ) basis full mats (P θ)) (nextRms B stable (pdf θ) full mats (P θ)) (List.ofFn (m θ)) (List.ofFn (ys θ))) :
    ∃ (recs : E → List (List ℝ)) (nell : E → ℝ),
      (∀ t, filterRms B (P t) (pdf t) (List.ofFn (ys t)) (full, mats) (List.ofFn (m t)) stable = .ok (recs t, nell t)) ∧
      ContDiffAt ℝ r nell θ ∧ ∀ j < T, ∀ k < full.length, ContDiffAt ℝ r (fun t => ((recs t).getD j []).getD k 0) θ := by
  refine ⟨fun t => traj (nextRms B stable (pdf t) full mats (P t)) (List.ofFn (m t)) (List.ofFn (ys t)),
    fun t => - ((liks (nextRms B stable (pdf t) full mats (P t)) (likRms B stable (pdf t) full mats (P t)) (List.ofFn (m t)) (List.ofFn (ys t))).map Real.log).sum,
    fun t => ?_, ?_⟩
  · rw [FilterND.filterRms_eq, if_neg (by simp)]
  have key := traj_smooth (r := r) (θ := θ) (Sm r θ full.length) (okRms B stable (pdf θ) basis full mats (P θ)) (g := fun t => nextRms B stable (pdf t) full mats (P t))
    (lik := fun t => likRms B stable (pdf t) full mats (P t)) T ys (by
      rintro j s hs ⟨g1, g2, g3⟩
      have hpred : Sm r θ full.length fun t => predRms B stable full mats (P t) (s t) :=
        Sm.map_range fun k hk => smooth_rule_raw Tb B hB hs g1 false stable (hP k hk)
      have hlik : ContDiffAt ℝ r (fun t => likRms B stable (pdf t) full mats (P t) (s t) (ys t j)) θ :=
        smooth_rule_raw Tb B hB hpred g2 false stable (hpdf j)
      refine ⟨Sm.map_list full fun α hα => ?_, g3, hlik⟩
      refine (smooth_rule_raw Tb B hB hpred g2 false stable ?_).div hlik g3.ne'
      exact (JointND.const (F := fun x => monomial x α) (smooth_monomial (Tb.mem_full.1 hα).1)).mul (hpdf j)) [] (fun t => List.ofFn (m t)) (Sm.ofFn hm) hok
  exact ⟨key.1.neg, fun j hj k hk => (key.2 j hj).smooth k hk⟩

/-- **C170, central moments.** The same for the filter of central moments, jointly with the initial mean; the output means are
smooth too. -/
theorem C170_nd_cms_smooth (hB : B.Valid) (stable : Bool) (Tb : Tables N d basis full mats) (P : E → CondMoments (List ℝ))
    (hP : ∀ k < full.length, ∀ c x, ContDiffAt ℝ r (fun p : E × (Fin d → ℝ) × (Fin d → ℝ) => ((P p.1).row full (List.ofFn p.2.1) (List.ofFn p.2.2)).getD k 0) (θ, c, x))
    (cm : E → List ℝ → List ℝ) (hcm : ∀ j < d, JointND r θ d fun t x => (cm t x).getD j 0) (pdf : E → Y → List ℝ → ℝ)
    (m : E → Fin full.length → ℝ) (hm : ContDiffAt ℝ r m θ) (mean : E → Fin d → ℝ) (hmean : ContDiffAt ℝ r mean θ) {T : ℕ} (ys : E → Fin T → Y)
    (hpdf : ∀ j, JointND r θ d fun t => pdf t (ys t j))
    (hok : RunOK (okCms B stable (pdf θ) d basis full mats (P θ) (cm θ)) (nextCms B stable (pdf θ) d full mats (P θ) (cm θ)) (List.ofFn (m θ), List.ofFn (mean θ))
      (List.ofFn (ys θ))) :
    ∃ (recs : E → List (List ℝ × List ℝ)) (nell : E → ℝ),
      (∀ t, filterCms B (P t) (cm t) (pdf t) (List.ofFn (ys t)) (full, mats) (List.ofFn (m t)) (List.ofFn (mean t)) stable = .ok (recs t, nell t)) ∧
      ContDiffAt ℝ r nell θ ∧ ∀ j < T, (∀ k < full.length, ContDiffAt ℝ r (fun t => ((recs t).getD j ([], [])).1.getD k 0) θ) ∧
        ∀ k < d, ContDiffAt ℝ r (fun t => ((recs t).getD j ([], [])).2.getD k 0) θ := by
  refine ⟨fun t => traj (nextCms B stable (pdf t) d full mats (P t) (cm t)) (List.ofFn (m t), List.ofFn (mean t)) (List.ofFn (ys t)),
    fun t => - ((liks (nextCms B stable (pdf t) d full mats (P t) (cm t)) (likCms B stable (pdf t) d full mats (P t) (cm t))
      (List.ofFn (m t), List.ofFn (mean t)) (List.ofFn (ys t))).map Real.log).sum, fun t => ?_, ?_⟩
  · rw [FilterND.filterCms_eq]
    simp only [Tb.head_len, List.length_ofFn, ne_eq, not_true, if_false]
  have hl : (eyeRows d).length = d := by simp [eyeRows]
  have key := traj_smooth (r := r) (θ := θ) (fun s : E → List ℝ × List ℝ => Sm r θ full.length (fun t => (s t).1) ∧ Sm r θ d (fun t => (s t).2))
    (okCms B stable (pdf θ) d basis full mats (P θ) (cm θ)) (g := fun t => nextCms B stable (pdf t) d full mats (P t) (cm t))
    (lik := fun t => likCms B stable (pdf t) d full mats (P t) (cm t)) T ys (by
      rintro j s ⟨hs, hc⟩ ⟨g1, g2, g3⟩
      have hmn : Sm r θ d fun t => (predCms B stable d full mats (P t) (cm t) (s t)).2 :=
        Sm.map_range fun k hk => smooth_rule_central Tb B hB hs g1 hc false stable (hcm k hk)
      have hpred : Sm r θ full.length fun t => (predCms B stable d full mats (P t) (cm t) (s t)).1 := by
        refine Sm.map_range fun k hk => smooth_rule_central Tb B hB hs g1 hc false stable
          (F := fun t x => ((P t).row full (predCms B stable d full mats (P t) (cm t) (s t)).2 x).getD k 0) fun v => ?_
        have h1 : ContDiffAt ℝ r (fun p : E × (Fin d → ℝ) => (p.1, (fun i : Fin d => (predCms B stable d full mats (P p.1) (cm p.1) (s p.1)).2.getD i 0), p.2)) (θ, v) :=
          contDiffAt_fst.prodMk ((contDiffAt_pi.2 fun i : Fin d => smooth_par hmn v i).prodMk contDiffAt_snd)
        have h2 := ContDiffAt.comp (g := fun p : E × (Fin d → ℝ) × (Fin d → ℝ) => ((P p.1).row full (List.ofFn p.2.1) (List.ofFn p.2.2)).getD k 0) (θ, v) (hP k hk _ _) h1
        simp only [Function.comp_def, ← list_eq_ofFn _ (hmn.len _)] at h2
        exact h2
      have hlik : ContDiffAt ℝ r (fun t => likCms B stable (pdf t) d full mats (P t) (cm t) (s t) (ys t j)) θ :=
        smooth_rule_central Tb B hB hpred g2 hmn false stable (hpdf j)
      have hmu : Sm r θ d fun t => (nextCms B stable (pdf t) d full mats (P t) (cm t) (s t) (ys t j)).2 := by
        have := Sm.map_list (θ := θ) (r := r) (eyeRows d) (F := fun t α => integND (ruleCms B stable d full mats (P t) (cm t) (s t))
          (fun x => monomial (x.map (· - 0)) α * pdf t (ys t j) x) / likCms B stable (pdf t) d full mats (P t) (cm t) (s t) (ys t j)) (fun α hα => ?_)
        · rw [hl] at this
          exact this
        · refine (smooth_rule_central Tb B hB hpred g2 hmn false stable ?_).div hlik g3.ne'
          simp only [sub_zero, List.map_id']
          exact (JointND.const (F := fun x => monomial x α) (smooth_monomial (eyeRows_len hα))).mul (hpdf j)
      refine ⟨⟨Sm.map_list full fun α hα => ?_, hmu⟩, g3, hlik⟩
      exact (smooth_rule_central Tb B hB hpred g2 hmn false stable ((joint_central hmu (Tb.mem_full.1 hα).1).mul (hpdf j))).div hlik g3.ne') ([], [])
    (fun t => (List.ofFn (m t), List.ofFn (mean t))) ⟨Sm.ofFn hm, Sm.ofFn hmean⟩ hok
  exact ⟨key.1.neg, fun j hj => ⟨fun k hk => (key.2 j hj).1.smooth k hk, fun k hk => (key.2 j hj).2.smooth k hk⟩⟩

/-- one step of the filter of scaled moments. -/
theorem step_scms_smooth (hB : B.Valid) (stable : Bool) (Tb : Tables N d basis full mats) (P : E → CondMoments (List ℝ × List ℝ))
    (hP : ∀ k < full.length, ∀ c w x, (∀ j, 0 < w j) → ContDiffAt ℝ r (fun p : E × ((Fin d → ℝ) × (Fin d → ℝ)) × (Fin d → ℝ) =>
      ((P p.1).row full (List.ofFn p.2.1.1, List.ofFn p.2.1.2) (List.ofFn p.2.2)).getD k 0) (θ, (c, w), x))
    (cmv : E → List ℝ → List ℝ × List ℝ) (hcm : ∀ j < d, JointND r θ d fun t x => (cmv t x).1.getD j 0) (hcv : ∀ j < d, JointND r θ d fun t x => (cmv t x).2.getD j 0)
    (pdf : E → Y → List ℝ → ℝ) (y : E → Y) (hpdf : JointND r θ d fun t => pdf t (y t)) (s : E → List ℝ × List ℝ × List ℝ)
    (hs : Sm r θ full.length fun t => (s t).1) (hm : Sm r θ d fun t => (s t).2.1) (hc : Sm r θ d fun t => (s t).2.2)
    (hok : okScms B stable (pdf θ) d basis full mats (P θ) (cmv θ) (s θ) (y θ)) :
    (Sm r θ full.length (fun t => (nextScms B stable (pdf t) d full mats (P t) (cmv t) (s t) (y t)).1) ∧
      Sm r θ d (fun t => (nextScms B stable (pdf t) d full mats (P t) (cmv t) (s t) (y t)).2.1) ∧
      Sm r θ d (fun t => (nextScms B stable (pdf t) d full mats (P t) (cmv t) (s t) (y t)).2.2)) ∧
    ContDiffAt ℝ r (fun t => likScms B stable (pdf t) d full mats (P t) (cmv t) (s t) (y t)) θ := by
  obtain ⟨g1, g2, g3, g4, g5⟩ := hok
  have hl : (eyeRows d).length = d := by simp [eyeRows]
  have hmn : Sm r θ d fun t => (predScms B stable d full mats (P t) (cmv t) (s t)).2.1 :=
    Sm.map_range fun k hk => smooth_rule_scaled Tb B hB hs g1 hm hc false stable (hcm k hk)
  have hsc : Sm r θ d fun t => (predScms B stable d full mats (P t) (cmv t) (s t)).2.2 :=
    Sm.sqrt (Sm.map_range fun k hk => smooth_rule_scaled Tb B hB hs g1 hm hc false stable (hcv k hk)) g4
  have hpred : Sm r θ full.length fun t => (predScms B stable d full mats (P t) (cmv t) (s t)).1 := by
    refine Sm.map_range fun k hk => smooth_rule_scaled Tb B hB hs g1 hm hc false stable
      (F := fun t x => ((P t).row full (predScms B stable d full mats (P t) (cmv t) (s t)).2 x).getD k 0) fun v => ?_
    have h1 : ContDiffAt ℝ r (fun p : E × (Fin d → ℝ) => (p.1, ((fun i : Fin d => (predScms B stable d full mats (P p.1) (cmv p.1) (s p.1)).2.1.getD i 0),
        (fun i : Fin d => (predScms B stable d full mats (P p.1) (cmv p.1) (s p.1)).2.2.getD i 0)), p.2)) (θ, v) :=
      contDiffAt_fst.prodMk (((contDiffAt_pi.2 fun i : Fin d => smooth_par hmn v i).prodMk (contDiffAt_pi.2 fun i : Fin d => smooth_par hsc v i)).prodMk contDiffAt_snd)
    have h2 := ContDiffAt.comp (g := fun p : E × ((Fin d → ℝ) × (Fin d → ℝ)) × (Fin d → ℝ) =>
      ((P p.1).row full (List.ofFn p.2.1.1, List.ofFn p.2.1.2) (List.ofFn p.2.2)).getD k 0) (θ, v) (hP k hk _ _ _ fun j => g4 j j.2) h1
    simp only [Function.comp_def, ← list_eq_ofFn _ (hmn.len _), ← list_eq_ofFn _ (hsc.len _)] at h2
    exact h2
  have hlik : ContDiffAt ℝ r (fun t => likScms B stable (pdf t) d full mats (P t) (cmv t) (s t) (y t)) θ :=
    smooth_rule_scaled Tb B hB hpred g2 hmn hsc false stable hpdf
  have hmu : Sm r θ d fun t => (nextScms B stable (pdf t) d full mats (P t) (cmv t) (s t) (y t)).2.1 := by
    have := Sm.map_list (θ := θ) (r := r) (eyeRows d) (F := fun t α => integND (ruleScms B stable d full mats (P t) (cmv t) (s t))
      (fun x => monomial (x.map fun t => (t - 0) / 1) α * pdf t (y t) x) / likScms B stable (pdf t) d full mats (P t) (cmv t) (s t) (y t)) (fun α hα => ?_)
    · rw [hl] at this
      exact this
    · refine (smooth_rule_scaled Tb B hB hpred g2 hmn hsc false stable ?_).div hlik g3.ne'
      simp only [sub_zero, div_one, List.map_id']
      exact (JointND.const (F := fun x => monomial x α) (smooth_monomial (eyeRows_len hα))).mul hpdf
  have hsu : Sm r θ d fun t => (nextScms B stable (pdf t) d full mats (P t) (cmv t) (s t) (y t)).2.2 := by
    have hq : Sm r θ d fun t => (eyeRows d).map fun α => integND (ruleScms B stable d full mats (P t) (cmv t) (s t))
        (fun x => monomial (List.zipWith (fun u v => (u - v) / 1) x (nextScms B stable (pdf t) d full mats (P t) (cmv t) (s t) (y t)).2.1) (α.map (· * 2)) * pdf t (y t) x)
        / likScms B stable (pdf t) d full mats (P t) (cmv t) (s t) (y t) := by
      have := Sm.map_list (θ := θ) (r := r) (eyeRows d) (F := fun t α => integND (ruleScms B stable d full mats (P t) (cmv t) (s t))
        (fun x => monomial (List.zipWith (fun u v => (u - v) / 1) x (nextScms B stable (pdf t) d full mats (P t) (cmv t) (s t) (y t)).2.1) (α.map (· * 2)) * pdf t (y t) x)
        / likScms B stable (pdf t) d full mats (P t) (cmv t) (s t) (y t)) (fun α hα => ?_)
      · rw [hl] at this
        exact this
      · refine (smooth_rule_scaled Tb B hB hpred g2 hmn hsc false stable ?_).div hlik g3.ne'
        simp only [div_one]
        exact (joint_central hmu (by simp [eyeRows_len hα])).mul hpdf
    have e : ∀ t, (nextScms B stable (pdf t) d full mats (P t) (cmv t) (s t) (y t)).2.2 = ((eyeRows d).map fun α => integND (ruleScms B stable d full mats (P t) (cmv t) (s t))
        (fun x => monomial (List.zipWith (fun u v => (u - v) / 1) x (nextScms B stable (pdf t) d full mats (P t) (cmv t) (s t) (y t)).2.1) (α.map (· * 2)) * pdf t (y t) x)
        / likScms B stable (pdf t) d full mats (P t) (cmv t) (s t) (y t)).map Real.sqrt := fun t => by
      rw [List.map_map]
      rfl
    simp only [e] at g5 ⊢
    exact Sm.sqrt hq g5
  refine ⟨⟨Sm.map_list full fun α hα => ?_, hmu, hsu⟩, hlik⟩
  exact (smooth_rule_scaled Tb B hB hpred g2 hmn hsc false stable ((joint_scaled hmu hsu (fun j hj => (g5 j hj).ne') (Tb.mem_full.1 hα).1).mul hpdf)).div hlik g3.ne'

/-- **C170, scaled moments.** The same for the filter of scaled moments, jointly with the initial mean and scale, as long as the
predicted and the filtering scales stay positive; the conditional moments need only be smooth where the scales are positive. -/
theorem C170_nd_scms_smooth (hB : B.Valid) (stable : Bool) (Tb : Tables N d basis full mats) (P : E → CondMoments (List ℝ × List ℝ))
    (hP : ∀ k < full.length, ∀ c w x, (∀ j, 0 < w j) → ContDiffAt ℝ r (fun p : E × ((Fin d → ℝ) × (Fin d → ℝ)) × (Fin d → ℝ) =>
      ((P p.1).row full (List.ofFn p.2.1.1, List.ofFn p.2.1.2) (List.ofFn p.2.2)).getD k 0) (θ, (c, w), x))
    (cmv : E → List ℝ → List ℝ × List ℝ) (hcm : ∀ j < d, JointND r θ d fun t x => (cmv t x).1.getD j 0) (hcv : ∀ j < d, JointND r θ d fun t x => (cmv t x).2.getD j 0)
    (pdf : E → Y → List ℝ → ℝ) (m : E → Fin full.length → ℝ) (hm : ContDiffAt ℝ r m θ) (mean scale : E → Fin d → ℝ) (hmean : ContDiffAt ℝ r mean θ)
    (hscale : ContDiffAt ℝ r scale θ) {T : ℕ} (ys : E → Fin T → Y) (hpdf : ∀ j, JointND r θ d fun t => pdf t (ys t j))
    (hok : RunOK (okScms B stable (pdf θ) d basis full mats (P θ) (cmv θ)) (nextScms B stable (pdf θ) d full mats (P θ) (cmv θ))
      (List.ofFn (m θ), List.ofFn (mean θ), List.ofFn (scale θ)) (List.ofFn (ys θ))) :
    ∃ (recs : E → List (List ℝ × List ℝ × List ℝ)) (nell : E → ℝ),
      (∀ t, filterScms B (P t) (cmv t) (pdf t) (List.ofFn (ys t)) (full, mats) (List.ofFn (m t)) (List.ofFn (mean t)) (List.ofFn (scale t)) stable
        = .ok (recs t, nell t)) ∧
      ContDiffAt ℝ r nell θ ∧ ∀ j < T, (∀ k < full.length, ContDiffAt ℝ r (fun t => ((recs t).getD j ([], [], [])).1.getD k 0) θ) ∧
        ∀ k < d, ContDiffAt ℝ r (fun t => ((recs t).getD j ([], [], [])).2.1.getD k 0) θ ∧ ContDiffAt ℝ r (fun t => ((recs t).getD j ([], [], [])).2.2.getD k 0) θ := by
  refine ⟨fun t => traj (nextScms B stable (pdf t) d full mats (P t) (cmv t)) (List.ofFn (m t), List.ofFn (mean t), List.ofFn (scale t)) (List.ofFn (ys t)),
    fun t => - ((liks (nextScms B stable (pdf t) d full mats (P t) (cmv t)) (likScms B stable (pdf t) d full mats (P t) (cmv t))
      (List.ofFn (m t), List.ofFn (mean t), List.ofFn (scale t)) (List.ofFn (ys t))).map Real.log).sum, fun t => ?_, ?_⟩
  · rw [FilterND.filterScms_eq]
    simp only [Tb.head_len, List.length_ofFn, ne_eq, not_true, if_false]
  have key := traj_smooth (r := r) (θ := θ) (fun s : E → List ℝ × List ℝ × List ℝ => Sm r θ full.length (fun t => (s t).1) ∧ Sm r θ d (fun t => (s t).2.1) ∧
      Sm r θ d (fun t => (s t).2.2))
    (okScms B stable (pdf θ) d basis full mats (P θ) (cmv θ)) (g := fun t => nextScms B stable (pdf t) d full mats (P t) (cmv t))
    (lik := fun t => likScms B stable (pdf t) d full mats (P t) (cmv t)) T ys (fun j s hs hok => by
      obtain ⟨h1, h2⟩ := step_scms_smooth hB stable Tb P hP cmv hcm hcv pdf (fun t => ys t j) (hpdf j) s hs.1 hs.2.1 hs.2.2 hok
      exact ⟨h1, hok.2.2.1, h2⟩) ([], [], [])
    (fun t => (List.ofFn (m t), List.ofFn (mean t), List.ofFn (scale t))) ⟨Sm.ofFn hm, Sm.ofFn hmean, Sm.ofFn hscale⟩ hok
  exact ⟨key.1.neg, fun j hj => ⟨fun k hk => (key.2 j hj).1.smooth k hk, fun k hk => ⟨(key.2 j hj).2.1.smooth k hk, (key.2 j hj).2.2.smooth k hk⟩⟩⟩

/-! ### runs meeting the hypotheses -/

/-- a family of models through the run on two independent fair signs: transitions, measurements and initial moments all move with
the parameter. -/
example (T : Tables 2 2 [[0, 0], [0, 1], [1, 0]] full mats) (B : Backend) (hB : B.Valid) (stable : Bool) (n : ℕ) (ys : Fin n → ℝ) :
    (∀ k < full.length, JointND (E := ℝ) ∞ 0 2 fun t x => ((CondMoments.multiIndex fun x α (_ : Unit) => signMoment α + t * Real.exp (x.getD 0 0)).row full () x).getD k 0) ∧
    ContDiffAt ℝ ∞ (fun (t : ℝ) (i : Fin full.length) => signMoment full[i] + t) 0 ∧
    (∀ j, JointND (E := ℝ) ∞ 0 2 fun t x => Real.exp (-(ys j - t * x.getD 1 0) ^ 2)) ∧
    RunOK (okRms B stable (fun (y : ℝ) x => Real.exp (-(y - 0 * x.getD 1 0) ^ 2)) [[0, 0], [0, 1], [1, 0]] full mats
        (.multiIndex fun x α _ => signMoment α + 0 * Real.exp (x.getD 0 0)))
      (nextRms B stable (fun (y : ℝ) x => Real.exp (-(y - 0 * x.getD 1 0) ^ 2)) full mats (.multiIndex fun x α _ => signMoment α + 0 * Real.exp (x.getD 0 0)))
      (List.ofFn fun i : Fin full.length => signMoment full[i] + 0) (List.ofFn ys) := by
  refine ⟨fun k hk v => ?_, by fun_prop, fun j v => ?_, ?_⟩
  · have e : ∀ (t : ℝ) (x : List ℝ), ((CondMoments.multiIndex fun x α (_ : Unit) => signMoment α + t * Real.exp (x.getD 0 0)).row full () x).getD k 0
        = signMoment full[k] + t * Real.exp (x.getD 0 0) := fun t x => by
      rw [CondMoments.row, List.getD_eq_getElem _ _ (by simpa using hk), List.getElem_map]
    simp only [e, List.ofFn_succ, List.getD_cons_zero]
    fun_prop
  · simp only [List.ofFn_succ, List.getD_cons_zero, List.getD_cons_succ]
    fun_prop
  · have : (List.ofFn fun i : Fin full.length => signMoment full[i] + 0) = full.map signMoment := by
      apply List.ext_getElem <;> simp
    rw [this]
    simp only [zero_mul, add_zero, sub_zero]
    exact run_rms T B hB stable _

/-- the runs of the other two representations on the same law are valid. -/
example (T : Tables 2 2 [[0, 0], [0, 1], [1, 0]] full mats) (B : Backend) (hB : B.Valid) (stable : Bool) (ys : List ℝ) :
    RunOK (okCms B stable (fun (y : ℝ) _ => Real.exp (-y ^ 2)) 2 [[0, 0], [0, 1], [1, 0]] full mats (.multiIndex fun _ α _ => signMoment α) (fun _ => [0, 0]))
      (nextCms B stable (fun (y : ℝ) _ => Real.exp (-y ^ 2)) 2 full mats (.multiIndex fun _ α _ => signMoment α) (fun _ => [0, 0])) (full.map signMoment, [0, 0]) ys ∧
    RunOK (okScms B stable (fun (y : ℝ) _ => Real.exp (-y ^ 2)) 2 [[0, 0], [0, 1], [1, 0]] full mats (.multiIndex fun _ α _ => signMoment α) (fun _ => ([0, 0], [1, 1])))
      (nextScms B stable (fun (y : ℝ) _ => Real.exp (-y ^ 2)) 2 full mats (.multiIndex fun _ α _ => signMoment α) (fun _ => ([0, 0], [1, 1])))
      (full.map signMoment, [0, 0], [1, 1]) ys := ⟨run_cms T B hB stable ys, run_scms T B hB stable ys⟩

end Mfs.Props

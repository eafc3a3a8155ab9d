import Verif.Props.Jvp
import Verif.Model.FilterJvp

/-!
# Lemmas for the forward-mode derivatives of the one-dimensional filters
-/

namespace Mfs.Jvp

open Matrix Mfs.Spec Filter Topology Mfs.Quad1 Mfs.Filter1 Mfs.Cont Mfs.Smooth Mfs.Props

variable {n : ℕ} {t : ℝ} {B : Backend}

/-- a continuously differentiable function and its derivative. -/
def D1 (t : ℝ) (f : ℝ → ℝ) (f' : ℝ) : Prop := ContDiffAt ℝ 1 f t ∧ HasDerivAt f f' t

/-- a continuously differentiable curve of vectors of length `n` and its derivative. -/
def SmD (t : ℝ) (n : ℕ) (s : ℝ → List ℝ) (ds : List ℝ) : Prop :=
  Sm 1 t n s ∧ ds.length = n ∧ ∀ k < n, HasDerivAt (fun u => (s u).getD k 0) (ds.getD k 0) t

/-- `dF` is the derivative of `F` in the direction that moves the parameter with speed one. -/
def JD (t : ℝ) (F : ℝ → ℝ → ℝ) (dF : ℝ → ℝ → ℝ) : Prop :=
  Joint 1 t F ∧ ∀ x dx, dF x dx = fderiv ℝ (fun p : ℝ × ℝ => F p.1 p.2) (t, x) (1, dx)

theorem D1.div {f g : ℝ → ℝ} {f' g' : ℝ} (hf : D1 t f f') (hg : D1 t g g') (h0 : g t ≠ 0) : D1 t (fun u => f u / g u) (divJvp (f t) f' (g t) g') := by
  refine ⟨hf.1.div hg.1 h0, (hf.2.fun_div hg.2 h0).congr_deriv ?_⟩
  rw [divJvp]
  field_simp

theorem D1.sqrt {f : ℝ → ℝ} {f' : ℝ} (hf : D1 t f f') (h0 : f t ≠ 0) : D1 t (fun u => Real.sqrt (f u)) (sqrtJvp (f t) f') := by
  refine ⟨hf.1.sqrt h0, (hf.2.sqrt h0).congr_deriv ?_⟩
  rw [sqrtJvp]
  ring

theorem D1.subLog {a f : ℝ → ℝ} {a' f' : ℝ} (ha : D1 t a a') (hf : D1 t f f') (h0 : f t ≠ 0) : D1 t (fun u => a u - Real.log (f u)) (a' - f' / f t) :=
  ⟨ha.1.sub (hf.1.log h0), ha.2.fun_sub (hf.2.log h0)⟩

theorem D1.const (c : ℝ) : D1 t (fun _ => c) 0 := ⟨contDiffAt_const, hasDerivAt_const _ _⟩

theorem SmD.map_range {F : ℝ → ℕ → ℝ} {dF : ℕ → ℝ} (h : ∀ k < n, D1 t (fun u => F u k) (dF k)) :
    SmD t n (fun u => (List.range n).map (F u)) ((List.range n).map dF) := by
  refine ⟨Sm.map_range fun k hk => (h k hk).1, by simp, fun k hk => ?_⟩
  simp only [getD_map_range _ hk]
  exact (h k hk).2

/-- along a curve of nodes. -/
theorem JD.curve {F : ℝ → ℝ → ℝ} {dF : ℝ → ℝ → ℝ} (h : JD t F dF) (x dx : ℝ) : HasDerivAt (fun u => F u (x + (u - t) * dx)) (dF x dx) t := by
  have h1 : HasFDerivAt (fun p : ℝ × ℝ => F p.1 p.2) (fderiv ℝ (fun p : ℝ × ℝ => F p.1 p.2) (t, x)) (t, x) :=
    ((h.1 x).differentiableAt one_ne_zero).hasFDerivAt
  have h2 : HasDerivAt (fun u : ℝ => (u, x + (u - t) * dx)) (1, dx) t :=
    (hasDerivAt_id t).prodMk (by simpa using (((hasDerivAt_id t).sub_const t).mul_const dx).const_add x)
  have h3 : ((t, x + (t - t) * dx) : ℝ × ℝ) = (t, x) := by simp
  rw [← h3] at h1
  have h4 := h1.comp_hasDerivAt t h2
  rw [h3, ← h.2] at h4
  exact h4

theorem JD.of_curve {F : ℝ → ℝ → ℝ} {dF : ℝ → ℝ → ℝ} (h : Joint 1 t F) (hd : ∀ x dx, HasDerivAt (fun u => F u (x + (u - t) * dx)) (dF x dx) t) :
    JD t F dF :=
  ⟨h, fun x dx => (hd x dx).unique (JD.curve ⟨h, fun _ _ => rfl⟩ x dx)⟩

theorem hasDerivAt_line (x dx : ℝ) : HasDerivAt (fun u : ℝ => x + (u - t) * dx) dx t := by
  simpa using (((hasDerivAt_id t).sub_const t).mul_const dx).const_add x

/-- a scaled central power times a density. -/
theorem JD.pow_mul {f : ℝ → ℝ → ℝ} {df : ℝ → ℝ → ℝ} (hf : JD t f df) {m c : ℝ → ℝ} {dm dc : ℝ} (hm : D1 t m dm) (hc : D1 t c dc) (hc0 : c t ≠ 0) (k : ℕ) :
    JD t (fun u x => ((x - m u) / c u) ^ k * f u x)
      fun x dx => mulJvp (((x - m t) / c t) ^ k) (powJvp ((x - m t) / c t) (divJvp (x - m t) (dx - dm) (c t) dc) k) (f t x) (df x dx) := by
  refine JD.of_curve (joint_pdf_pow hf.1 hm.1 hc.1 hc0 k) fun x dx => ?_
  have h1 := (((hasDerivAt_line (t := t) x dx).fun_sub hm.2).fun_div hc.2 hc0).fun_pow k
  refine (h1.fun_mul (hf.curve x dx)).congr_deriv ?_
  simp only [mulJvp, powJvp, divJvp, sub_self, zero_mul, add_zero]
  congr 2
  field_simp

theorem JD.central {f : ℝ → ℝ → ℝ} {df : ℝ → ℝ → ℝ} (hf : JD t f df) {m : ℝ → ℝ} {dm : ℝ} (hm : D1 t m dm) (k : ℕ) :
    JD t (fun u x => (x - m u) ^ k * f u x) fun x dx => mulJvp ((x - m t) ^ k) (powJvp (x - m t) (dx - dm) k) (f t x) (df x dx) := by
  have h := hf.pow_mul hm (D1.const (t := t) 1) one_ne_zero k
  simpa only [div_one, divJvp, zero_mul, one_pow, sub_zero] using h

theorem JD.raw {f : ℝ → ℝ → ℝ} {df : ℝ → ℝ → ℝ} (hf : JD t f df) (k : ℕ) :
    JD t (fun u x => x ^ k * f u x) fun x dx => mulJvp (x ^ k) (powJvp x dx k) (f t x) (df x dx) := by
  have h := hf.central (D1.const (t := t) 0) k
  simpa only [sub_zero] using h

/-- the tangent of the rule, with values and tangents bundled. -/
theorem rule_jvp (hB : B.Valid) {s : ℝ → List ℝ} {ds : List ℝ} (hs : SmD t n s ds) (hpd : (gramOf (s t)).PosDef) {m c : ℝ → ℝ} {dm dc : ℝ}
    (hm : D1 t m dm) (hc : D1 t c dc) : ∃ d, momentQuadratureJvp B (s t) ds dm (c t) dc false = some d ∧ ∀ F dF, JD t F dF →
      D1 t (fun u => integ (momentQuadrature B (s u) (m u) (c u) false false) (F u))
        (wsumJvp (momentQuadrature B (s t) (m t) (c t) false false) d (F t) dF) := by
  obtain ⟨d, hd, h⟩ := C171_rule_jvp hB false s hs.1 ds hs.2.1 hs.2.2 hpd m c dm dc hm.1 hc.1 hm.2 hc.2
  refine ⟨d, hd, fun F dF hF => ⟨contDiffAt_rule B hB hs.1 hpd false false hm.1 hc.1 hF.1, ?_⟩⟩
  simp only [wsumJvp, hF.2]
  exact h F hF.1

/-- a parameter that moves with the curve enters an integrand. -/
theorem JD.subst1 {P : ℝ → ℝ → ℝ → ℝ} {dP : ℝ → ℝ → ℝ → ℝ → ℝ} {m : ℝ → ℝ} {dm : ℝ}
    (hP : ∀ x, ContDiffAt ℝ 1 (fun p : ℝ × ℝ × ℝ => P p.1 p.2.1 p.2.2) (t, x, m t))
    (hdP : ∀ x dx dc, dP x (m t) dx dc = fderiv ℝ (fun p : ℝ × ℝ × ℝ => P p.1 p.2.1 p.2.2) (t, x, m t) (1, dx, dc)) (hm : D1 t m dm) :
    JD t (fun u x => P u x (m u)) fun x dx => dP x (m t) dx dm := by
  refine JD.of_curve (fun x => ?_) fun x dx => ?_
  · have h1 : ContDiffAt ℝ 1 (fun p : ℝ × ℝ => (p.1, p.2, m p.1)) (t, x) :=
      contDiffAt_fst.prodMk (contDiffAt_snd.prodMk (ContDiffAt.comp (g := m) (t, x) hm.1 contDiffAt_fst))
    exact ContDiffAt.comp (g := fun p : ℝ × ℝ × ℝ => P p.1 p.2.1 p.2.2) (t, x) (hP x) h1
  · have h1 : HasFDerivAt (fun p : ℝ × ℝ × ℝ => P p.1 p.2.1 p.2.2) (fderiv ℝ (fun p : ℝ × ℝ × ℝ => P p.1 p.2.1 p.2.2) (t, x, m t)) (t, x, m t) :=
      ((hP x).differentiableAt one_ne_zero).hasFDerivAt
    have h2 : HasDerivAt (fun u : ℝ => (u, x + (u - t) * dx, m u)) (1, dx, dm) t := (hasDerivAt_id t).prodMk ((hasDerivAt_line x dx).prodMk hm.2)
    have h3 : ((t, x + (t - t) * dx, m t) : ℝ × ℝ × ℝ) = (t, x, m t) := by simp
    rw [← h3] at h1
    have h4 := h1.comp_hasDerivAt t h2
    rw [h3, ← hdP] at h4
    exact h4

theorem JD.subst2 {P : ℝ → ℝ → ℝ → ℝ → ℝ} {dP : ℝ → ℝ → ℝ → ℝ → ℝ → ℝ → ℝ} {m c : ℝ → ℝ} {dm dc : ℝ}
    (hP : ∀ x, ContDiffAt ℝ 1 (fun p : ℝ × ℝ × ℝ × ℝ => P p.1 p.2.1 p.2.2.1 p.2.2.2) (t, x, m t, c t))
    (hdP : ∀ x dx dm dc, dP x (m t) (c t) dx dm dc = fderiv ℝ (fun p : ℝ × ℝ × ℝ × ℝ => P p.1 p.2.1 p.2.2.1 p.2.2.2) (t, x, m t, c t) (1, dx, dm, dc))
    (hm : D1 t m dm) (hc : D1 t c dc) : JD t (fun u x => P u x (m u) (c u)) fun x dx => dP x (m t) (c t) dx dm dc := by
  refine JD.of_curve (fun x => ?_) fun x dx => ?_
  · have h1 : ContDiffAt ℝ 1 (fun p : ℝ × ℝ => (p.1, p.2, m p.1, c p.1)) (t, x) :=
      contDiffAt_fst.prodMk (contDiffAt_snd.prodMk ((ContDiffAt.comp (g := m) (t, x) hm.1 contDiffAt_fst).prodMk
        (ContDiffAt.comp (g := c) (t, x) hc.1 contDiffAt_fst)))
    exact ContDiffAt.comp (g := fun p : ℝ × ℝ × ℝ × ℝ => P p.1 p.2.1 p.2.2.1 p.2.2.2) (t, x) (hP x) h1
  · have h1 : HasFDerivAt (fun p : ℝ × ℝ × ℝ × ℝ => P p.1 p.2.1 p.2.2.1 p.2.2.2)
        (fderiv ℝ (fun p : ℝ × ℝ × ℝ × ℝ => P p.1 p.2.1 p.2.2.1 p.2.2.2) (t, x, m t, c t)) (t, x, m t, c t) :=
      ((hP x).differentiableAt one_ne_zero).hasFDerivAt
    have h2 : HasDerivAt (fun u : ℝ => (u, x + (u - t) * dx, m u, c u)) (1, dx, dm, dc) t :=
      (hasDerivAt_id t).prodMk ((hasDerivAt_line x dx).prodMk (hm.2.prodMk hc.2))
    have h3 : ((t, x + (t - t) * dx, m t, c t) : ℝ × ℝ × ℝ × ℝ) = (t, x, m t, c t) := by simp
    rw [← h3] at h1
    have h4 := h1.comp_hasDerivAt t h2
    rw [h3, ← hdP] at h4
    exact h4

variable {S D Y : Type}

/-- forward mode through a scan. -/
theorem scan_jvp (Tan : (ℝ → S) → D → Prop) (Ok : S → Y → Prop) {g : ℝ → S → Y → S} {h : ℝ → S → Y → ℝ} {step : ℝ → S × ℝ → Y → (S × ℝ) × S}
    (hstep : ∀ u c y, step u c y = ((g u c.1 y, c.2 - h u c.1 y), g u c.1 y)) {stepJvp : S × ℝ → D × ℝ → Y → Option (D × ℝ)} (s0 : S) (d0 : D)
    (ys : List Y) (hjvp : ∀ y ∈ ys, ∀ s ds a da, Tan s ds → D1 t a da → Ok (s t) y → ∃ d', stepJvp (s t, a t) (ds, da) y = some d' ∧
      Tan (fun u => g u (s u) y) d'.1 ∧ D1 t (fun u => a u - h u (s u) y) d'.2)
    (s : ℝ → S) (ds : D) (a : ℝ → ℝ) (da : ℝ) (hs : Tan s ds) (ha : D1 t a da) (hok : RunOK Ok (g t) (s t) ys) :
    ∃ r, scanJvp (step t) stepJvp (s t, a t) (ds, da) ys = some r ∧ D1 t (fun u => (scan (step u) (s u, a u) ys).1.2) r.1.2 ∧ r.2.length = ys.length ∧
      ∀ j < ys.length, Tan (fun u => (scan (step u) (s u, a u) ys).2.getD j s0) (r.2.getD j d0) := by
  induction ys generalizing s ds a da with
  | nil => exact ⟨_, rfl, ha, rfl, fun j hj => absurd hj (by simp)⟩
  | cons y ys ih =>
    obtain ⟨d', hd', hT, hD⟩ := hjvp y (by simp) s ds a da hs ha hok.1
    obtain ⟨r, hr, hrD, hrl, hrT⟩ := ih (fun y hy => hjvp y (by simp [hy])) (fun u => g u (s u) y) d'.1 (fun u => a u - h u (s u) y) d'.2 hT hD hok.2
    refine ⟨(r.1, d'.1 :: r.2), ?_, ?_, by simp [hrl], ?_⟩
    · rw [scanJvp, hd', Option.bind_some, hstep, hr]
      rfl
    · simpa only [scan, hstep] using hrD
    · intro j hj
      cases j with
      | zero => simpa only [scan, hstep, List.getD_cons_zero] using hT
      | succ j =>
        simp only [scan, hstep, List.getD_cons_succ]
        exact hrT j (by simpa using hj)

/-- one step, raw moments. -/
theorem rms_step_jvp (hB : B.Valid) {P : ℝ → ℝ → ℕ → ℝ} {dP : ℝ → ℕ → ℝ → ℝ} (hP : ∀ k < n, JD t (fun u x => P u x k) fun x dx => dP x k dx)
    {pdf : ℝ → Y → ℝ → ℝ} {dpdf : Y → ℝ → ℝ → ℝ} {y : Y} (hpdf : JD t (fun u => pdf u y) (dpdf y)) {s : ℝ → List ℝ} {ds : List ℝ} {a : ℝ → ℝ} {da : ℝ}
    (hs : SmD t n s ds) (ha : D1 t a da) (hok : OkRms B false (P t) (pdf t) n (s t) y) :
    ∃ d', rmsStepJvp B (P t) dP (pdf t) dpdf n (s t, a t) (ds, da) y = some d' ∧ SmD t n (fun u => nextRms B false (P u) (pdf u) n (s u) y) d'.1 ∧
      D1 t (fun u => a u - Real.log (likRms B false (P u) (pdf u) n (s u) y)) d'.2 := by
  obtain ⟨h0, hg, hl0⟩ := hok
  obtain ⟨d, hd, hr⟩ := rule_jvp hB hs h0 (D1.const 0) (D1.const 1)
  have hpred : SmD t n (fun u => predRms B false (P u) n (s u)) _ := SmD.map_range fun k hk => hr _ _ (hP k hk)
  obtain ⟨d2, hd2, hr2⟩ := rule_jvp hB hpred hg (D1.const 0) (D1.const 1)
  have hlik := hr2 _ _ hpdf
  refine ⟨(_, _), ?_, SmD.map_range fun k _ => (hr2 _ _ (hpdf.raw k)).div hlik hl0.ne', ha.subLog hlik hl0.ne'⟩
  simp only [rmsStepJvp]
  rw [hd, Option.bind_some]
  erw [hd2]
  rfl

/-- one step, central moments. -/
theorem cms_step_jvp (hB : B.Valid) {P : ℝ → ℝ → ℕ → ℝ → ℝ} {dP : ℝ → ℕ → ℝ → ℝ → ℝ → ℝ}
    (hP : ∀ k < n, ∀ x c, ContDiffAt ℝ 1 (fun p : ℝ × ℝ × ℝ => P p.1 p.2.1 k p.2.2) (t, x, c))
    (hdP : ∀ k < n, ∀ x c dx dc, dP x k c dx dc = fderiv ℝ (fun p : ℝ × ℝ × ℝ => P p.1 p.2.1 k p.2.2) (t, x, c) (1, dx, dc))
    {cm : ℝ → ℝ → ℝ} {dcm : ℝ → ℝ → ℝ} (hcm : JD t cm dcm) {pdf : ℝ → Y → ℝ → ℝ} {dpdf : Y → ℝ → ℝ → ℝ} {y : Y} (hpdf : JD t (fun u => pdf u y) (dpdf y))
    {s : ℝ → List ℝ × ℝ} {ds : List ℝ × ℝ} {a : ℝ → ℝ} {da : ℝ} (hs : SmD t n (fun u => (s u).1) ds.1 ∧ D1 t (fun u => (s u).2) ds.2) (ha : D1 t a da)
    (hok : OkCms B false (P t) (cm t) (pdf t) n (s t) y) :
    ∃ d', cmsStepJvp B (P t) dP (cm t) dcm (pdf t) dpdf n (s t, a t) (ds, da) y = some d' ∧
      (SmD t n (fun u => (nextCms B false (P u) (cm u) (pdf u) n (s u) y).1) d'.1.1 ∧ D1 t (fun u => (nextCms B false (P u) (cm u) (pdf u) n (s u) y).2) d'.1.2) ∧
      D1 t (fun u => a u - Real.log (likCms B false (P u) (cm u) (pdf u) n (s u) y)) d'.2 := by
  obtain ⟨h0, hg, hl0⟩ := hok
  obtain ⟨d, hd, hr⟩ := rule_jvp hB hs.1 h0 hs.2 (D1.const 1)
  have hmn : D1 t (fun u => (predCms B false (P u) (cm u) n (s u)).2) _ := hr _ _ hcm
  have hpred : SmD t n (fun u => (predCms B false (P u) (cm u) n (s u)).1) _ :=
    SmD.map_range fun k hk => hr _ _ (JD.subst1 (P := fun u x c => P u x k c) (dP := fun x c dx dc => dP x k c dx dc) (fun x => hP k hk x _)
      (fun x dx dc => hdP k hk x _ dx dc) hmn)
  obtain ⟨d2, hd2, hr2⟩ := rule_jvp hB hpred hg hmn (D1.const 1)
  have hlik := hr2 _ _ hpdf
  have hmu := (hr2 _ _ (hpdf.central (D1.const 0) 1)).div hlik hl0.ne'
  refine ⟨((_, _), _), ?_, ⟨SmD.map_range fun k _ => (hr2 _ _ (hpdf.central hmu k)).div hlik hl0.ne', hmu⟩, ha.subLog hlik hl0.ne'⟩
  simp only [cmsStepJvp]
  rw [hd, Option.bind_some]
  erw [hd2]
  rfl

/-- one step, scaled moments. -/
theorem scms_step_jvp (hB : B.Valid) {P : ℝ → ℝ → ℕ → ℝ → ℝ → ℝ} {dP : ℝ → ℕ → ℝ → ℝ → ℝ → ℝ → ℝ → ℝ}
    (hP : ∀ k < n, ∀ x m c, 0 < c → ContDiffAt ℝ 1 (fun p : ℝ × ℝ × ℝ × ℝ => P p.1 p.2.1 k p.2.2.1 p.2.2.2) (t, x, m, c))
    (hdP : ∀ k < n, ∀ x m c dx dm dc, 0 < c → dP x k m c dx dm dc
      = fderiv ℝ (fun p : ℝ × ℝ × ℝ × ℝ => P p.1 p.2.1 k p.2.2.1 p.2.2.2) (t, x, m, c) (1, dx, dm, dc))
    {cm cv : ℝ → ℝ → ℝ} {dcm dcv : ℝ → ℝ → ℝ} (hcm : JD t cm dcm) (hcv : JD t cv dcv) {pdf : ℝ → Y → ℝ → ℝ} {dpdf : Y → ℝ → ℝ → ℝ} {y : Y}
    (hpdf : JD t (fun u => pdf u y) (dpdf y)) {s : ℝ → List ℝ × ℝ × ℝ} {ds : List ℝ × ℝ × ℝ} {a : ℝ → ℝ} {da : ℝ}
    (hs : SmD t n (fun u => (s u).1) ds.1 ∧ D1 t (fun u => (s u).2.1) ds.2.1 ∧ D1 t (fun u => (s u).2.2) ds.2.2) (ha : D1 t a da)
    (hok : OkScms B false (P t) (cm t) (cv t) (pdf t) n (s t) y) :
    ∃ d', scmsStepJvp B (P t) dP (cm t) (cv t) dcm dcv (pdf t) dpdf n (s t, a t) (ds, da) y = some d' ∧
      (SmD t n (fun u => (nextScms B false (P u) (cm u) (cv u) (pdf u) n (s u) y).1) d'.1.1 ∧
        D1 t (fun u => (nextScms B false (P u) (cm u) (cv u) (pdf u) n (s u) y).2.1) d'.1.2.1 ∧
        D1 t (fun u => (nextScms B false (P u) (cm u) (cv u) (pdf u) n (s u) y).2.2) d'.1.2.2) ∧
      D1 t (fun u => a u - Real.log (likScms B false (P u) (cm u) (cv u) (pdf u) n (s u) y)) d'.2 := by
  obtain ⟨h0, hg, hl0, hsp, hsn⟩ := hok
  obtain ⟨d, hd, hr⟩ := rule_jvp hB hs.1 h0 hs.2.1 hs.2.2
  have hmn : D1 t (fun u => (predScms B false (P u) (cm u) (cv u) n (s u)).2.1) _ := hr _ _ hcm
  have hsc : D1 t (fun u => (predScms B false (P u) (cm u) (cv u) n (s u)).2.2) _ := (hr _ _ hcv).sqrt (Real.sqrt_pos.1 hsp).ne'
  have hpred : SmD t n (fun u => (predScms B false (P u) (cm u) (cv u) n (s u)).1) _ :=
    SmD.map_range fun k hk => hr _ _ (JD.subst2 (P := fun u x m c => P u x k m c) (dP := fun x m c dx dm dc => dP x k m c dx dm dc)
      (fun x => hP k hk x _ _ hsp) (fun x dx dm dc => hdP k hk x _ _ dx dm dc hsp) hmn hsc)
  obtain ⟨d2, hd2, hr2⟩ := rule_jvp hB hpred hg hmn hsc
  have hlik := hr2 _ _ hpdf
  have hmu := (hr2 _ _ (hpdf.pow_mul (D1.const 0) (D1.const 1) one_ne_zero 1)).div hlik hl0.ne'
  have hsu := ((hr2 _ _ (hpdf.pow_mul hmu (D1.const 1) one_ne_zero 2)).div hlik hl0.ne').sqrt (Real.sqrt_pos.1 hsn).ne'
  refine ⟨((_, _, _), _), ?_, ⟨SmD.map_range fun k _ => (hr2 _ _ (hpdf.pow_mul hmu hsu hsn.ne' k)).div hlik hl0.ne', hmu, hsu⟩, ha.subLog hlik hl0.ne'⟩
  simp only [scmsStepJvp]
  rw [hd, Option.bind_some]
  erw [hd2]
  rfl

end Mfs.Jvp

import Verif.Model.Experiments
import Verif.Props.Tme

/-!
# Property C131: the results of the Beneš–Bernoulli experiment do not depend on the mode of the moment filter
-/

namespace Mfs.Props

open Matrix Mfs.Spec Mfs.Quad1 Mfs.Filter1 Mfs.Moments1 Mfs.SsModels Mfs.Experiments Polynomial
open scoped ContDiff

variable {Y : Type}

theorem characteristicFn_eq_integ (B : Backend) (z : ℝ) (ms : List ℝ) (m s : ℝ) :
    characteristicFn B z ms m s = (integ (momentQuadrature B ms m s false) (fun x => Real.cos (z * x)) : ℝ)
      + (integ (momentQuadrature B ms m s false) (fun x => Real.sin (z * x)) : ℝ) * Complex.I := by
  rw [characteristicFn]
  simp only [integ]
  push_cast
  rw [Finset.sum_mul, ← Finset.sum_add_distrib]
  refine Finset.sum_congr rfl fun i _ => ?_
  rw [show Complex.I * z * ((momentQuadrature B ms m s false).2 i : ℂ) = ((z * (momentQuadrature B ms m s false).2 i : ℝ) : ℂ) * Complex.I by
    push_cast; ring, Complex.exp_mul_I, Complex.ofReal_mul]
  ring

theorem SameLaw.characteristicFn {n : ℕ} {L : ℝ[X] →ₗ[ℝ] ℝ} {r : List ℝ} {c : List ℝ × ℝ} {s : List ℝ × ℝ × ℝ}
    (h : SameLaw n L r c s) (B : Backend) (hB : B.Valid) (hpd : (gramOf r).PosDef) (z : ℝ) :
    Moments1.characteristicFn B z c.1 c.2 = Moments1.characteristicFn B z r ∧
    Moments1.characteristicFn B z s.1 s.2.1 s.2.2 = Moments1.characteristicFn B z r := by
  simp only [characteristicFn_eq_integ]
  have h1 := h.rule B hB hpd false false false
  exact ⟨by rw [(h1 _).1, (h1 _).1], by rw [(h1 _).2, (h1 _).2]⟩

theorem StaysValid.records {B : Backend} {E : ℝ → ℝ[X] →ₗ[ℝ] ℝ} {pdf : Y → ℝ → ℝ} {stable : Bool} {n : ℕ} {r : List ℝ} {ys : List Y}
    (h : StaysValid B E pdf stable n r ys) : ∀ o ∈ traj (nextRms B stable (rawOf E) pdf n) r ys, (gramOf o).PosDef := by
  induction ys generalizing r with
  | nil => simp [traj]
  | cons y ys ih =>
    intro o ho
    rw [traj, List.mem_cons] at ho
    rcases ho with rfl | ho
    · exact h.2.2.2.head
    · exact ih h.2.2.2 o ho

/-- **C131.** If the conditional moments are those of one functional and the initial moments those of one law, and the predictions stay
valid, then the means and characteristic functions computed by `post_processing_mf.py` from the results of `mf.py` in the modes `raw`,
`central` and `scaled` are the same. -/
theorem C131_modes (B : Backend) (hB : B.Valid) (E : ℝ → ℝ[X] →ₗ[ℝ] ℝ) (hE : ∀ x, E x 1 = 1) (pdf : Y → ℝ → ℝ) (hpdf : ∀ y x, 0 < pdf y x)
    (cv : ℝ → ℝ) (hcv : ∀ x, 0 < cv x) (l₁ l₂ l₃ : Bool) (rms0 cms0 scms0 : List ℝ) (m0 s0 : ℝ) (L : ℝ[X] →ₗ[ℝ] ℝ) (hn : 4 ≤ rms0.length)
    (h : SameLaw rms0.length L rms0 (cms0, m0) (scms0, m0, s0)) (ys : List Y) (h0 : (gramOf rms0).PosDef)
    (hv : PredictionsValid B E pdf l₁ rms0.length rms0 ys) {m : ℕ} (zs : Fin m → ℝ) :
    let a := filterRms B (rawOf E) pdf rms0 ys l₁
    let b := filterCms B (centralOf E) (meanOf E) pdf cms0 m0 ys l₂
    let c := filterScms B (scaledOf E) (meanOf E) cv pdf scms0 m0 s0 ys l₃
    (postRaw B zs a.1).length = ys.length ∧ postCentral B zs b.1 = postRaw B zs a.1 ∧ postScaled B zs c.1 = postRaw B zs a.1 := by
  intro a b c
  obtain ⟨-, -, h3, h4, h5, h6⟩ := C27_same_filter_pos hB hE hcv l₁ l₂ l₃ rms0 cms0 scms0 m0 s0 L hn h ys hpdf h0 hv
  have hpd : ∀ o ∈ a.1, (gramOf o).PosDef := by
    have := (staysValid_of_pos hB (by omega) hpdf h0 hv).records
    simpa only [a, filterRms_eq] using this
  have key : ∀ k, k < ys.length → ∃ r ce sc, a.1[k]? = some r ∧ b.1[k]? = some ce ∧ c.1[k]? = some sc ∧ jget r 1 = ce.2 ∧ sc.2.1 = ce.2 ∧
      ∀ z, Moments1.characteristicFn B z ce.1 ce.2 = Moments1.characteristicFn B z r ∧
        Moments1.characteristicFn B z sc.1 sc.2.1 sc.2.2 = Moments1.characteristicFn B z r := by
    intro k hk
    have ha := List.getElem?_eq_getElem (l := a.1) (i := k) (by rw [h3]; exact hk)
    have hb := List.getElem?_eq_getElem (l := b.1) (i := k) (by rw [h4]; exact hk)
    have hc := List.getElem?_eq_getElem (l := c.1) (i := k) (by rw [h5]; exact hk)
    obtain ⟨L', hL', hmean, -, -⟩ := h6 k _ _ _ ha hb hc
    refine ⟨_, _, _, ha, hb, hc, ?_, hL'.mean_eq, fun z => hL'.characteristicFn B hB (hpd _ (List.getElem_mem _)) z⟩
    have := hL'.raw 1 (by omega)
    rw [pow_one] at this
    have hl := hL'.len_raw
    rw [hmean, ← this, jget, min_eq_left (by omega)]
  refine ⟨by simp [postRaw, a, h3], List.ext_getElem? fun k => ?_, List.ext_getElem? fun k => ?_⟩
  · rcases lt_or_ge k ys.length with hk | hk
    · obtain ⟨r, ce, sc, ha, hb, hc, e1, e2, e3⟩ := key k hk
      rw [postRaw, postCentral, List.getElem?_map, List.getElem?_map, ha, hb]
      simp only [Option.map_some, e1, (e3 _).1]
    · rw [List.getElem?_eq_none (by rw [postCentral, List.length_map, h4]; exact hk),
        List.getElem?_eq_none (by rw [postRaw, List.length_map, h3]; exact hk)]
  · rcases lt_or_ge k ys.length with hk | hk
    · obtain ⟨r, ce, sc, ha, hb, hc, e1, e2, e3⟩ := key k hk
      rw [postRaw, postScaled, List.getElem?_map, List.getElem?_map, ha, hc]
      simp only [Option.map_some, e1, e2]
      simp only [← e2, (e3 _).2]
    · rw [List.getElem?_eq_none (by rw [postScaled, List.length_map, h5]; exact hk),
        List.getElem?_eq_none (by rw [postRaw, List.length_map, h3]; exact hk)]

theorem mem_traj {S : Type} (P : S → Prop) (g : S → Y → S) (h : ∀ s y, P (g s y)) (s : S) (ys : List Y) : ∀ o ∈ traj g s ys, P o := by
  induction ys generalizing s with
  | nil => simp [traj]
  | cons y ys ih =>
    intro o ho
    rw [traj, List.mem_cons] at ho
    rcases ho with rfl | ho
    · exact h s y
    · exact ih _ o ho

theorem predictionsValid_of_take {B : Backend} {E : ℝ → ℝ[X] →ₗ[ℝ] ℝ} {pdf : Y → ℝ → ℝ} {stable : Bool} {n : ℕ} (r : List ℝ) (ys : List Y)
    (h : ∀ t < ys.length, (gramOf (predRms B stable (rawOf E) n (lastState (nextRms B stable (rawOf E) pdf n) r (ys.take t)))).PosDef) :
    PredictionsValid B E pdf stable n r ys := by
  induction ys generalizing r with
  | nil => trivial
  | cons y ys ih =>
    refine ⟨h 0 (by simp), ih _ fun t ht => ?_⟩
    have := h (t + 1) (by simpa using ht)
    rwa [List.take_succ_cons] at this

theorem contDiff_benesDrift : ContDiff ℝ ∞ benesDrift := by
  have : benesDrift = fun x => Real.sinh x / Real.cosh x := by
    funext x
    rw [benesDrift, Real.tanh_eq_sinh_div_cosh]
  rw [this]
  exact Real.contDiff_sinh.div Real.contDiff_cosh fun x => (Real.cosh_pos x).ne'

/-- **C131, `--normal`.** For the Beneš–Bernoulli model, all `N ≥ 2` and all measurements, the modes `raw` and `central` with
`sde_cond_moments_tme_normal` give the same means and characteristic functions; no hypothesis on the run is needed. -/
theorem C131_benes_normal (B : Backend) (hB : B.Valid) (l₁ l₂ : Bool) (N : ℕ) (hN : 2 ≤ N) (expect : (ℝ → ℝ) → ℝ → ℝ)
    (meanCov : ℝ → ℝ × ℝ) (hmean : ∀ x, expect (fun u => u) x = (meanCov x).1) (hvar : ∀ x, 0 < (meanCov x).2) (ys : List Bool)
    {m : ℕ} (zs : Fin m → ℝ) :
    let F := sdeCondMomentsTmeNormal expect meanCov N
    postCentral B zs (filterCms B F.central F.mean benesBool (init1 N).cms (init1 N).mean ys l₂).1
      = postRaw B zs (filterRms B F.raw benesBool (init1 N).rms ys l₁).1 := by
  intro F
  obtain ⟨-, -, -, h3, h4, h6⟩ := (C128_tme_normal B hB l₁ l₂ N hN expect meanCov hmean hvar).1 ys
  change (filterRms B F.raw benesBool (init1 N).rms ys l₁).1.length = _ at h3
  change (filterCms B F.central F.mean benesBool (init1 N).cms (init1 N).mean ys l₂).1.length = _ at h4
  refine List.ext_getElem? fun k => ?_
  rcases lt_or_ge k ys.length with hk | hk
  · have ha := List.getElem?_eq_getElem (l := (filterRms B F.raw benesBool (init1 N).rms ys l₁).1) (i := k) (by rw [h3]; exact hk)
    have hb := List.getElem?_eq_getElem (l := (filterCms B F.central F.mean benesBool (init1 N).cms (init1 N).mean ys l₂).1) (i := k)
      (by rw [h4]; exact hk)
    obtain ⟨e1, -, -, -, L, hL1, hLX, hL, -⟩ := h6 k _ _ ha hb
    have hi := (gaussianSum_valid _ init1_ok.1 init1_ok.2.1 init1_ok.2.2 N hN).2.1
    have hl1 : ∀ o ∈ (filterRms B F.raw benesBool (init1 N).rms ys l₁).1, o.length = 2 * N := by
      rw [filterRms_eq, show (init1 N).rms.length = 2 * N from hi.len_raw]
      exact mem_traj _ _ (fun s y => by simp [nextRms]) _ _
    have hl2 : ∀ o ∈ (filterCms B F.central F.mean benesBool (init1 N).cms (init1 N).mean ys l₂).1, o.1.length = 2 * N := by
      rw [filterCms_eq, show (init1 N).cms.length = 2 * N from hi.len_central]
      exact mem_traj _ _ (fun s y => by simp [nextCms]) _ _
    have hr := hl1 _ (List.getElem_mem (h := by rw [h3]; exact hk))
    have hc := hl2 _ (List.getElem_mem (h := by rw [h4]; exact hk))
    have hS : SameLaw (2 * N) L _ _ ((_, _, 1) : List ℝ × ℝ × ℝ) :=
      ⟨hL1, hr, hc, hc, rfl, one_ne_zero, fun k hk => (hL k hk).1, fun k hk => (hL k hk).2, fun k hk => by
        rw [inv_one, C_1, one_mul]; exact (hL k hk).2⟩
    have hcf := fun z => (hS.characteristicFn B hB e1 z).1
    rw [postRaw, postCentral, List.getElem?_map, List.getElem?_map, ha, hb]
    simp only [Option.map_some, hcf]
    have := (hL 1 (by omega)).1
    rw [pow_one] at this
    rw [hLX, ← this, jget, min_eq_left (by omega)]
  · rw [List.getElem?_eq_none (by rw [postCentral, List.length_map, h4]; exact hk),
      List.getElem?_eq_none (by rw [postRaw, List.length_map, h3]; exact hk)]

/-- **C131, without `--normal`.** With `sde_cond_moments_tme` of any order the three modes agree as long as the predictions of the raw
filter stay valid (C130 shows that they need not), for any positive conditional variance. -/
theorem C131_benes_tme (B : Backend) (hB : B.Valid) (l₁ l₂ l₃ : Bool) (N : ℕ) (hN : 2 ≤ N) (order : ℕ) (meanCov : ℝ → ℝ × ℝ)
    (hmean : ∀ x, Tme.expectation benesDrift dispersion1 dt1 order (fun u => u) x = (meanCov x).1) (hvar : ∀ x, 0 < (meanCov x).2)
    (ys : List Bool) {m : ℕ} (zs : Fin m → ℝ) :
    let F := sdeCondMomentsTme (Tme.expectation benesDrift dispersion1 dt1 order) meanCov
    (∀ t < ys.length, (gramOf (predRms B l₁ F.raw (2 * N)
      (lastState (nextRms B l₁ F.raw benesBool (2 * N)) (init1 N).rms (ys.take t)))).PosDef) →
    postCentral B zs (filterCms B F.central F.mean benesBool (init1 N).cms (init1 N).mean ys l₂).1
      = postRaw B zs (filterRms B F.raw benesBool (init1 N).rms ys l₁).1 ∧
    postScaled B zs (filterScms B F.scaled (fun x => (F.meanVar x).1) (fun x => (F.meanVar x).2) benesBool (init1 N).scms (init1 N).mean
        (√(init1 N).variance) ys l₃).1
      = postRaw B zs (filterRms B F.raw benesBool (init1 N).rms ys l₁).1 := by
  intro F hF
  obtain ⟨E, hE1, hraw, hcen, hsc, hm⟩ := C129_tme_consistent benesDrift dispersion1 contDiff_benesDrift contDiff_const dt1 order meanCov
  obtain ⟨hg, hi, -⟩ := gaussianSum_valid _ init1_ok.1 init1_ok.2.1 init1_ok.2.2 N hN
  have hlr : (init1 N).rms.length = 2 * N := hi.len_raw
  have e1 : F.raw = rawOf E := by
    funext x k
    exact hraw x k
  have e2 : F.central = centralOf E := by
    funext x k c
    exact hcen x k c
  have e3 : F.scaled = scaledOf E := by
    funext x k c s
    exact hsc x k c s
  have e4 : F.mean = meanOf E := by
    funext x
    exact hm x
  have e5 : (fun x => (F.meanVar x).1) = meanOf E := by
    rw [← e4]
    funext x
    exact (hmean x).symm
  have hcv : ∀ x, 0 < (F.meanVar x).2 := hvar
  rw [e1] at hF
  have := C131_modes B hB E hE1 benesBool benesBool_pos (fun x => (F.meanVar x).2) hcv l₁ l₂ l₃ (init1 N).rms (init1 N).cms (init1 N).scms
    (init1 N).mean (√(init1 N).variance) _ (by omega) (by rw [hlr]; exact hi) ys hg
    (by rw [hlr]; exact predictionsValid_of_take _ _ hF) zs
  rw [e1, e2, e3, e4, e5]
  exact this.2

/-- the hypotheses of C131: a state that does not move, observed once; see the example after C27 for the initial moments. -/
example : (∀ x, (Polynomial.leval x : ℝ[X] →ₗ[ℝ] ℝ) 1 = 1) ∧ 4 ≤ ([1, 0, 1, 0] : List ℝ).length ∧ (gramOf [1, 0, 1, 0]).PosDef ∧
    (∀ x : ℝ, Tme.expectation benesDrift dispersion1 dt1 0 (fun u => u) x = ((x, (1 : ℝ)) : ℝ × ℝ).1) ∧ ∃ B : Backend, B.Valid :=
  ⟨by simp, by norm_num, gramOf_example, fun x => by simp [Tme.expectation], _, theBackend_valid⟩

end Mfs.Props

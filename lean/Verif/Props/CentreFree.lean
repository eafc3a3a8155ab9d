import Verif.Props.FilterNDRun
import Verif.Props.ContinuityND

/-!
# C174: the filters do not depend on the functions that supply centre and scale of the prediction
-/

namespace Mfs.Props

open Matrix Mfs.Spec Mfs.Cont Polynomial

variable {Y : Type} {B : Backend}

theorem traj_congr {S : Type} {g g' : S → Y → S} {lik lik' : S → Y → ℝ} {Inv : S → Prop} {ok : S → Y → Prop}
    (h : ∀ s y, Inv s → ok s y → g s y = g' s y ∧ lik s y = lik' s y ∧ Inv (g s y)) (s : S) (hs : Inv s) (ys : List Y) (hok : RunOK ok g s ys) :
    traj g s ys = traj g' s ys ∧ liks g lik s ys = liks g' lik' s ys := by
  induction ys generalizing s with
  | nil => exact ⟨rfl, rfl⟩
  | cons y ys ih =>
    obtain ⟨h1, h2, h3⟩ := h s y hs hok.1
    obtain ⟨e1, e2⟩ := ih _ h3 hok.2
    simp only [traj, liks]
    rw [e1, e2, h1, h2]
    exact ⟨rfl, rfl⟩

theorem traj_congr_pair {S R : Type} {g g' : S → Y → S} {lik lik' : S → Y → ℝ} {Inv : S → Prop} {ok : S → Y → Prop} (F : List S → List ℝ → R)
    (s : S) (hs : Inv s) (ys : List Y) (hok : RunOK ok g s ys)
    (h : ∀ s y, Inv s → ok s y → g s y = g' s y ∧ lik s y = lik' s y ∧ Inv (g s y)) :
    F (traj g s ys) (liks g lik s ys) = F (traj g' s ys) (liks g' lik' s ys) := by
  obtain ⟨h1, h2⟩ := traj_congr h s hs ys hok
  rw [h1, h2]

section One

open Mfs.Quad1 Mfs.Filter1

variable {E : ℝ → ℝ[X] →ₗ[ℝ] ℝ} {cm cm' cv cv' : ℝ → ℝ} {pdf : Y → ℝ → ℝ} {n : ℕ} {stable : Bool}

/-- the rule of a law does not depend on centre and scale. -/
theorem rule_centre (hB : B.Valid) {L : ℝ[X] →ₗ[ℝ] ℝ} (h1 : L 1 = 1) (hpd : (gramOf ((List.range n).map fun k => L (X ^ k))).PosDef) {c s : List ℝ} {a e : ℝ}
    (he : e ≠ 0) (hc : c.length = n) (hs : s.length = n) (hck : ∀ k < n, c.getD k 0 = L ((X - C a) ^ k)) (hsk : ∀ k < n, s.getD k 0 = L ((C e⁻¹ * (X - C a)) ^ k))
    (f : ℝ → ℝ) : integ (momentQuadrature B c a 1 false stable) f = integ (momentQuadrature B ((List.range n).map fun k => L (X ^ k)) 0 1 false stable) f ∧
      integ (momentQuadrature B s a e false stable) f = integ (momentQuadrature B ((List.range n).map fun k => L (X ^ k)) 0 1 false stable) f := by
  have h := C11_raw_central_scaled B hB L h1 ((List.range n).map fun k => L (X ^ k)) c s a e he (by simp [hc]) (by simp [hs])
    (fun k hk => getD_map_range _ (by simpa using hk)) (fun k hk => hck k (by simpa using hk)) (fun k hk => hsk k (by simpa using hk)) hpd
    false false false stable stable stable f
  exact ⟨h.1.symm, h.2.symm⟩

/-- **C174, central moments.** If the conditional central moments handed to `moment_filter_cms` are those of a transition law about whatever
centre they are asked for, then the function that supplies the conditional mean does not matter at all: with any other function in its place
the filter returns the same moments, the same means and the same negative log-likelihood, as long as the predicted laws are not
degenerate (their moment matrices are positive definite). -/
theorem C174_cms_centre_free (hB : B.Valid) (hE : ∀ x, E x 1 = 1) (cm cm' : ℝ → ℝ) (pdf : Y → ℝ → ℝ) (cms0 : List ℝ) (hn : 2 ≤ cms0.length) (m0 : ℝ)
    (ys : List Y) (hok : RunOK (fun (s : List ℝ × ℝ) _ => (gramOf ((List.range cms0.length).map fun k =>
        integ (momentQuadrature B s.1 s.2 1 false stable) fun x => E x (X ^ k))).PosDef) (nextCms B stable (centralOf E) cm pdf cms0.length) (cms0, m0) ys) :
    filterCms B (centralOf E) cm pdf cms0 m0 ys stable = filterCms B (centralOf E) cm' pdf cms0 m0 ys stable := by
  rw [filterCms_eq, filterCms_eq]
  refine traj_congr_pair (g := nextCms B stable (centralOf E) cm pdf cms0.length) (g' := nextCms B stable (centralOf E) cm' pdf cms0.length)
    (lik := likCms B stable (centralOf E) cm pdf cms0.length) (lik' := likCms B stable (centralOf E) cm' pdf cms0.length)
    (Inv := fun s => s.1.length = cms0.length) (fun t l => (t, -((l.map Real.log).sum))) (cms0, m0) rfl ys hok (fun s y hs hpd => ?_)
  · have key : ∀ cm : ℝ → ℝ, ∀ f, integ (momentQuadrature B (predCms B stable (centralOf E) cm cms0.length s).1 (predCms B stable (centralOf E) cm cms0.length s).2 1 false stable) f
        = integ (momentQuadrature B ((List.range cms0.length).map fun k => mixLaw (momentQuadrature B s.1 s.2 1 false stable) E (X ^ k)) 0 1 false stable) f := by
      intro cm f
      refine (rule_centre (n := cms0.length) (L := mixLaw (momentQuadrature B s.1 s.2 1 false stable) E) hB ?_ (by
          have e : _ = _ := List.map_congr_left (l := List.range cms0.length) fun k _ => (mixLaw_apply (momentQuadrature B s.1 s.2 1 false stable) E (X ^ k)).symm
          exact e ▸ hpd) one_ne_zero (by simp [predCms])
        (s := (predCms B stable (centralOf E) cm cms0.length s).1) (by simp [predCms]) (fun k hk => ?_) (fun k hk => ?_) f).1
      · rw [mixLaw_apply]
        simp only [hE]
        exact integ_const B hB s.1 (by rw [hs]; exact hn) _ _ _ _ _
      · simp only [predCms]
        rw [getD_map_range _ hk, mixLaw_apply]
        rfl
      · simp only [predCms, inv_one, map_one, one_mul]
        rw [getD_map_range _ hk, mixLaw_apply]
        rfl
    have hl : ∀ cm : ℝ → ℝ, likCms B stable (centralOf E) cm pdf cms0.length s y
        = integ (momentQuadrature B ((List.range cms0.length).map fun k => mixLaw (momentQuadrature B s.1 s.2 1 false stable) E (X ^ k)) 0 1 false stable) (pdf y) :=
      fun cm => key cm (pdf y)
    refine ⟨?_, by rw [hl, hl], by simp [nextCms]⟩
    simp only [nextCms, key, hl]

/-- **C174, scaled moments.** The same for `moment_filter_scms`: neither the conditional means nor the (positive) conditional variances matter,
and the scale returned is the same too. -/
theorem C174_scms_centre_free (hB : B.Valid) (hE : ∀ x, E x 1 = 1) (cm cm' cv cv' : ℝ → ℝ) (hcv : ∀ x, 0 < cv x) (hcv' : ∀ x, 0 < cv' x) (pdf : Y → ℝ → ℝ)
    (scms0 : List ℝ) (hn : 2 ≤ scms0.length) (m0 s0 : ℝ) (ys : List Y)
    (hok : RunOK (fun (s : List ℝ × ℝ × ℝ) _ => (gramOf ((List.range scms0.length).map fun k =>
        integ (momentQuadrature B s.1 s.2.1 s.2.2 false stable) fun x => E x (X ^ k))).PosDef) (nextScms B stable (scaledOf E) cm cv pdf scms0.length) (scms0, m0, s0) ys) :
    filterScms B (scaledOf E) cm cv pdf scms0 m0 s0 ys stable = filterScms B (scaledOf E) cm' cv' pdf scms0 m0 s0 ys stable := by
  rw [filterScms_eq, filterScms_eq]
  refine traj_congr_pair (g := nextScms B stable (scaledOf E) cm cv pdf scms0.length) (g' := nextScms B stable (scaledOf E) cm' cv' pdf scms0.length)
    (lik := likScms B stable (scaledOf E) cm cv pdf scms0.length) (lik' := likScms B stable (scaledOf E) cm' cv' pdf scms0.length)
    (Inv := fun s => s.1.length = scms0.length) (fun t l => (t, -((l.map Real.log).sum))) (scms0, m0, s0) rfl ys hok (fun s y hs hpd => ?_)
  · have hw := C09_weights_probability B hB s.1 (by rw [hs]; exact hn) s.2.1 s.2.2 false stable
    have hpos : ∀ cv : ℝ → ℝ, (∀ x, 0 < cv x) → 0 < integ (momentQuadrature B s.1 s.2.1 s.2.2 false stable) cv := by
      intro cv hcv
      rw [integ]
      refine lt_of_le_of_ne (Finset.sum_nonneg fun i _ => mul_nonneg (hw.1 i) (hcv _).le) fun h0 => ?_
      have h1 := (Finset.sum_eq_zero_iff_of_nonneg fun i _ => mul_nonneg (hw.1 i) (hcv _).le).1 h0.symm
      have h2 : ∑ i, (momentQuadrature B s.1 s.2.1 s.2.2 false stable).1 i = 0 := by
        refine Finset.sum_eq_zero fun i hi => ?_
        rcases mul_eq_zero.1 (h1 i hi) with h3 | h3
        · exact h3
        · exact absurd h3 (hcv _).ne'
      rw [hw.2] at h2
      exact one_ne_zero h2
    have key : ∀ cm cv : ℝ → ℝ, (∀ x, 0 < cv x) → ∀ f, integ (momentQuadrature B (predScms B stable (scaledOf E) cm cv scms0.length s).1
          (predScms B stable (scaledOf E) cm cv scms0.length s).2.1 (predScms B stable (scaledOf E) cm cv scms0.length s).2.2 false stable) f
        = integ (momentQuadrature B ((List.range scms0.length).map fun k => mixLaw (momentQuadrature B s.1 s.2.1 s.2.2 false stable) E (X ^ k)) 0 1 false stable) f := by
      intro cm cv hcv f
      refine (rule_centre (n := scms0.length) (L := mixLaw (momentQuadrature B s.1 s.2.1 s.2.2 false stable) E) hB ?_ (by
          have e : _ = _ := List.map_congr_left (l := List.range scms0.length) fun k _ => (mixLaw_apply (momentQuadrature B s.1 s.2.1 s.2.2 false stable) E (X ^ k)).symm
          exact e ▸ hpd)
        (Real.sqrt_ne_zero'.2 (hpos cv hcv))
        (c := (List.range scms0.length).map fun k => mixLaw (momentQuadrature B s.1 s.2.1 s.2.2 false stable) E ((X - C (predScms B stable (scaledOf E) cm cv scms0.length s).2.1) ^ k))
        (by simp) (by simp [predScms]) (fun k hk => ?_) (fun k hk => ?_) f).2
      · rw [mixLaw_apply]
        simp only [hE]
        exact integ_const B hB s.1 (by rw [hs]; exact hn) _ _ _ _ _
      · rw [getD_map_range _ hk]
      · simp only [predScms]
        rw [getD_map_range _ hk, mixLaw_apply]
        rfl
    have hl : ∀ cm cv : ℝ → ℝ, (∀ x, 0 < cv x) → likScms B stable (scaledOf E) cm cv pdf scms0.length s y
        = integ (momentQuadrature B ((List.range scms0.length).map fun k => mixLaw (momentQuadrature B s.1 s.2.1 s.2.2 false stable) E (X ^ k)) 0 1 false stable) (pdf y) :=
      fun cm cv hcv => key cm cv hcv (pdf y)
    refine ⟨?_, by rw [hl _ _ hcv, hl _ _ hcv'], by simp [nextScms]⟩
    simp only [nextScms, key _ _ hcv, key _ _ hcv', hl _ _ hcv, hl _ _ hcv']

/-- the fair step `x ± 1`. -/
noncomputable def fairStep (x : ℝ) : ℝ[X] →ₗ[ℝ] ℝ := (1 / 2 : ℝ) • (leval (x + 1) + leval (x - 1))

theorem fairStep_run (hB : B.Valid) (stable : Bool) {a e : ℝ} (ha : a = 0) (he : e = 1) : (gramOf ((List.range [1, 0, 1, (0 : ℝ)].length).map fun k =>
    integ (momentQuadrature B [1, 0, 1, 0] a e false stable) fun x => fairStep x (X ^ k))).PosDef := by
  subst ha he
  have h : ∀ k < 4, integ (momentQuadrature B [1, 0, 1, 0] 0 1 false stable) (fun x => x ^ k) = [1, 0, 1, (0 : ℝ)].getD k 0 := by
    intro k hk
    rw [C08_reproduces_moments B hB _ gramOf_example false stable k (by simpa using hk)]
    simp
  have e : ((List.range [1, 0, 1, (0 : ℝ)].length).map fun k => integ (momentQuadrature B [1, 0, 1, 0] 0 1 false stable) fun x => fairStep x (X ^ k)) = [1, 0, 2, 0] := by
    have f0 : ∀ x, fairStep x (X ^ 0) = 1 := fun x => by simp [fairStep]; norm_num
    have f1 : ∀ x, fairStep x (X ^ 1) = x := fun x => by simp [fairStep]; ring
    have f2 : ∀ x, fairStep x (X ^ 2) = x ^ 2 + 1 := fun x => by simp [fairStep]; ring
    have f3 : ∀ x, fairStep x (X ^ 3) = x ^ 3 + 3 * x := fun x => by simp [fairStep]; ring
    have key : ∀ {m : ℕ} (r : (Fin m → ℝ) × (Fin m → ℝ)), (∀ k < 4, integ r (fun x => x ^ k) = [1, 0, 1, (0 : ℝ)].getD k 0) →
        ((List.range 4).map fun k => integ r fun x => fairStep x (X ^ k)) = [1, 0, 2, 0] := by
      intro m r h
      have h0 := h 0 (by norm_num)
      have h1 := h 1 (by norm_num)
      have h2 := h 2 (by norm_num)
      have h3 := h 3 (by norm_num)
      have h4 : ∀ w x : ℝ, w * (3 * x) = 3 * (w * x) := fun w x => by ring
      simp [integ] at h0 h1 h2 h3
      have e4 : List.range 4 = [0, 1, 2, 3] := rfl
      simp only [e4, List.map_cons, List.map_nil, f0, f1, f2, f3, integ, mul_add, mul_one, Finset.sum_add_distrib, h4, ← Finset.mul_sum, h0, h1, h2, h3]
      norm_num
    exact key _ h
  refine e.symm ▸ ?_
  have : gramOf [1, 0, 2, 0] = Matrix.diagonal (![1, 2] : Fin 2 → ℝ) := by
    ext i j
    fin_cases i <;> fin_cases j <;> simp [gramOf, hankelMat]
  rw [this]
  exact Matrix.PosDef.diagonal fun i => by fin_cases i <;> simp

/-- a fair walk started from a fair sign: the conditional mean may be replaced by anything, for example by the constant `7`. -/
example (hB : B.Valid) (stable : Bool) (pdf : Y → ℝ → ℝ) (y : Y) : filterCms B (centralOf fairStep) id pdf [1, 0, 1, 0] 0 [y] stable
      = filterCms B (centralOf fairStep) (fun _ => 7) pdf [1, 0, 1, 0] 0 [y] stable ∧
    filterScms B (scaledOf fairStep) id (fun _ => 1) pdf [1, 0, 1, 0] 0 1 [y] stable
      = filterScms B (scaledOf fairStep) (fun _ => 7) (fun _ => 5) pdf [1, 0, 1, 0] 0 1 [y] stable := by
  have h1 : ∀ x, fairStep x 1 = 1 := fun x => by simp [fairStep]; norm_num
  exact ⟨C174_cms_centre_free hB h1 _ _ _ _ (by simp) _ _ ⟨fairStep_run hB stable rfl rfl, trivial⟩,
    C174_scms_centre_free hB h1 _ _ _ _ (by simp) (by simp) _ _ (by simp) _ _ _ ⟨fairStep_run hB stable rfl rfl, trivial⟩⟩

end One

section Many

open Mfs.QuadND Mfs.FilterND

variable {N d : ℕ} {basis full : List (List ℕ)} {mats : List (List (List ℤ))} {E : List ℝ → MvPolynomial (Fin d) ℝ →ₗ[ℝ] ℝ} {stable : Bool}

/-- **C174, central moments, several dimensions.** -/
theorem C174_nd_cms_centre_free (hB : B.Valid) (T : Tables N d basis full mats) (cm cm' : List ℝ → List ℝ) (pdf : Y → List ℝ → ℝ) (cms0 m0 : List ℝ) (ys : List Y)
    (hok : RunOK (fun (s : List ℝ × List ℝ) _ => (gramOn basis fun α => integND (momentQuadratureND B s.1 mats (some s.2) none false stable) fun x => polyMoment (E x) rawCoord α).PosDef)
      (nextCms B stable pdf d full mats (centralOfND E) cm) (cms0, m0) ys) :
    filterCms B (centralOfND E) cm pdf ys (full, mats) cms0 m0 stable = filterCms B (centralOfND E) cm' pdf ys (full, mats) cms0 m0 stable := by
  rw [filterCms_eq, filterCms_eq]
  simp only [T.head_len]
  refine traj_congr_pair (g := nextCms B stable pdf d full mats (centralOfND E) cm) (g' := nextCms B stable pdf d full mats (centralOfND E) cm')
    (lik := likCms B stable pdf d full mats (centralOfND E) cm) (lik' := likCms B stable pdf d full mats (centralOfND E) cm')
    (Inv := fun _ => True) (fun t l => if full.length ≠ cms0.length then Except.error "ValueError" else Except.ok (t, -((l.map Real.log).sum))) (cms0, m0) trivial ys hok (fun s y _ hpd => ?_)
  · have hmix : (fun α => integND (momentQuadratureND B s.1 mats (some s.2) none false stable) fun x => polyMoment (E x) rawCoord α)
        = polyMoment (mixLawND (momentQuadratureND B s.1 mats (some s.2) none false stable) E) rawCoord := by
      funext α
      rw [polyMoment, mixLawND_apply]
      rfl
    rw [hmix] at hpd
    have key : ∀ cm : List ℝ → List ℝ, ∀ F, integND (ruleCms B stable d full mats (centralOfND E) cm s) F
        = integND (momentQuadratureND B (full.map (polyMoment (mixLawND (momentQuadratureND B s.1 mats (some s.2) none false stable) E) rawCoord)) mats none none false stable) F := by
      intro cm F
      have h := (C85_nd_raw_central_scaled B hB N (by have := T.hN; omega) T.hd (mixLawND (momentQuadratureND B s.1 mats (some s.2) none false stable) E)
        (predCms B stable d full mats (centralOfND E) cm s).2 (List.replicate d 1) (by simp [predCms, wsumVec]) (by simp) (by simp [List.mem_replicate]) basis full
        mats T.basis_eq T.full_eq T.mats_eq hpd false false false stable stable stable F).1
      rw [← h, ruleCms]
      congr 2
      simp only [predCms]
      rw [centralOfND, wsumVec_row]
      apply List.map_congr_left
      intro α _
      rw [polyMoment, mixLawND_apply]
      rfl
    have hl : ∀ cm : List ℝ → List ℝ, likCms B stable pdf d full mats (centralOfND E) cm s y
        = integND (momentQuadratureND B (full.map (polyMoment (mixLawND (momentQuadratureND B s.1 mats (some s.2) none false stable) E) rawCoord)) mats none none false stable) (pdf y) :=
      fun cm => key cm (pdf y)
    refine ⟨?_, by rw [hl, hl], trivial⟩
    simp only [nextCms, key, hl]

/-- **C174, scaled moments, several dimensions.** The predicted variances must be positive. -/
theorem C174_nd_scms_centre_free (hB : B.Valid) (T : Tables N d basis full mats) (cmv cmv' : List ℝ → List ℝ × List ℝ) (pdf : Y → List ℝ → ℝ) (scms0 m0 s0 : List ℝ)
    (ys : List Y) (hok : RunOK (fun (s : List ℝ × List ℝ × List ℝ) _ =>
        (gramOn basis fun α => integND (momentQuadratureND B s.1 mats (some s.2.1) (some s.2.2) false stable) fun x => polyMoment (E x) rawCoord α).PosDef ∧
        ∀ j < d, 0 < integND (momentQuadratureND B s.1 mats (some s.2.1) (some s.2.2) false stable) (fun x => (cmv x).2.getD j 0) ∧
          0 < integND (momentQuadratureND B s.1 mats (some s.2.1) (some s.2.2) false stable) fun x => (cmv' x).2.getD j 0)
      (nextScms B stable pdf d full mats (scaledOfND E) cmv) (scms0, m0, s0) ys) :
    filterScms B (scaledOfND E) cmv pdf ys (full, mats) scms0 m0 s0 stable = filterScms B (scaledOfND E) cmv' pdf ys (full, mats) scms0 m0 s0 stable := by
  rw [filterScms_eq, filterScms_eq]
  simp only [T.head_len]
  refine traj_congr_pair (g := nextScms B stable pdf d full mats (scaledOfND E) cmv) (g' := nextScms B stable pdf d full mats (scaledOfND E) cmv')
    (lik := likScms B stable pdf d full mats (scaledOfND E) cmv) (lik' := likScms B stable pdf d full mats (scaledOfND E) cmv')
    (Inv := fun _ => True) (fun t l => if full.length ≠ scms0.length then Except.error "ValueError" else Except.ok (t, -((l.map Real.log).sum))) (scms0, m0, s0) trivial ys hok (fun s y _ hpd => ?_)
  · obtain ⟨hpd, hv⟩ := hpd
    have hmix : (fun α => integND (momentQuadratureND B s.1 mats (some s.2.1) (some s.2.2) false stable) fun x => polyMoment (E x) rawCoord α)
        = polyMoment (mixLawND (momentQuadratureND B s.1 mats (some s.2.1) (some s.2.2) false stable) E) rawCoord := by
      funext α
      rw [polyMoment, mixLawND_apply]
      rfl
    rw [hmix] at hpd
    have key : ∀ cmv : List ℝ → List ℝ × List ℝ, (∀ j < d, 0 < integND (momentQuadratureND B s.1 mats (some s.2.1) (some s.2.2) false stable) fun x => (cmv x).2.getD j 0) →
        ∀ F, integND (ruleScms B stable d full mats (scaledOfND E) cmv s) F
        = integND (momentQuadratureND B (full.map (polyMoment (mixLawND (momentQuadratureND B s.1 mats (some s.2.1) (some s.2.2) false stable) E) rawCoord)) mats none none false stable) F := by
      intro cmv hp F
      have h := (C85_nd_raw_central_scaled B hB N (by have := T.hN; omega) T.hd (mixLawND (momentQuadratureND B s.1 mats (some s.2.1) (some s.2.2) false stable) E)
        (predScms B stable d full mats (scaledOfND E) cmv s).2.1 (predScms B stable d full mats (scaledOfND E) cmv s).2.2 (by simp [predScms, wsumVec])
        (by simp [predScms, wsumVec]) (by
          intro t ht
          simp only [predScms, wsumVec, List.map_map, List.mem_map, List.mem_range, Function.comp_def] at ht
          obtain ⟨j, hj, rfl⟩ := ht
          rw [FilterND.wsum_eq]
          exact Real.sqrt_pos.2 (hp j hj)) basis full
        mats T.basis_eq T.full_eq T.mats_eq hpd false false false stable stable stable F).2
      rw [← h, ruleScms]
      congr 2
      simp only [predScms]
      rw [scaledOfND, wsumVec_row]
      apply List.map_congr_left
      intro α _
      rw [polyMoment, mixLawND_apply]
      rfl
    have k1 := key cmv fun j hj => (hv j hj).1
    have k2 := key cmv' fun j hj => (hv j hj).2
    have l1 : likScms B stable pdf d full mats (scaledOfND E) cmv s y = _ := k1 (pdf y)
    have l2 : likScms B stable pdf d full mats (scaledOfND E) cmv' s y = _ := k2 (pdf y)
    refine ⟨?_, by rw [l1, l2], trivial⟩
    simp only [nextScms, k1, k2, l1, l2]

theorem integND_const' (hB : B.Valid) (T : Tables N d basis full mats) (ms : List ℝ) (mean scale : Option (List ℝ)) (c : ℝ) :
    integND (momentQuadratureND B ms mats mean scale false stable) (fun _ => c) = c := by
  obtain ⟨h1, h2⟩ := C22_applies N d (by have := T.hN; omega) T.hd mats T.mats_eq
  have h := C22_nd_weights_sum_one B hB ms mats h1 h2 mean scale false stable
  rw [integND, List.sum_map_mul_right, h, one_mul]

/-- four equally likely corners of a square. -/
noncomputable def corners : MvPolynomial (Fin 2) ℝ →ₗ[ℝ] ℝ := (1 / 4 : ℝ) • ∑ a : Fin 2, ∑ b : Fin 2, (MvPolynomial.aeval (R := ℝ) ![![(1 : ℝ), -1] a, ![(1 : ℝ), -1] b]).toLinearMap

theorem corners_gram : (gramOn [[0, 0], [0, 1], [1, 0]] (polyMoment corners rawCoord)).PosDef := by
  have : gramOn [[0, 0], [0, 1], [1, 0]] (polyMoment corners rawCoord) = (1 : Matrix (Fin 3) (Fin 3) ℝ) := by
    ext a b
    simp only [gramOn, Matrix.of_apply]
    fin_cases a <;> fin_cases b <;> simp [polyMoment, corners, rawCoord, Fin.sum_univ_two, Fin.prod_univ_two] <;> norm_num
  rw [this]
  exact Matrix.PosDef.one

/-- every step jumps to a random corner: the run is valid whatever the moments and the measurements are, so that any conditional mean and any
positive variance give the same filter. -/
example (hB : B.Valid) (T : Tables 2 2 [[0, 0], [0, 1], [1, 0]] full mats) (stable : Bool) (pdf : Y → List ℝ → ℝ) (ms m0 s0 : List ℝ) (ys : List Y) (cm : List ℝ → List ℝ) :
    filterCms B (centralOfND fun _ => corners) (fun _ => [0, 0]) pdf ys (full, mats) ms m0 stable
      = filterCms B (centralOfND fun _ => corners) cm pdf ys (full, mats) ms m0 stable ∧
    filterScms B (scaledOfND fun _ => corners) (fun _ => ([0, 0], [1, 1])) pdf ys (full, mats) ms m0 s0 stable
      = filterScms B (scaledOfND fun _ => corners) (fun x => (cm x, [3, 5])) pdf ys (full, mats) ms m0 s0 stable := by
  have run : ∀ {S : Type} {ok : S → Y → Prop} {g : S → Y → S}, (∀ s y, ok s y) → ∀ (s : S) (ys : List Y), RunOK ok g s ys := by
    intro S ok g h s ys
    induction ys generalizing s with
    | nil => trivial
    | cons y ys ih => exact ⟨h s y, ih _⟩
  refine ⟨C174_nd_cms_centre_free hB T _ _ _ _ _ _ (run (fun s y => ?_) _ _), C174_nd_scms_centre_free hB T _ _ _ _ _ _ _ (run (fun s y => ⟨?_, fun j hj => ⟨?_, ?_⟩⟩) _ _)⟩
  · simp only [integND_const' hB T]
    exact corners_gram
  · simp only [integND_const' hB T]
    exact corners_gram
  · rw [integND_const' hB T]
    interval_cases j <;> norm_num
  · dsimp only
    rw [integND_const' hB T]
    interval_cases j <;> norm_num

end Many

end Mfs.Props

import Verif.Props.Hmm
import Verif.Props.QuadNDMore
import Verif.Props.FilterNDEquiv

/-!
# Property C110: on a finite set of points the multidimensional filters are the exact Bayes filter
-/

namespace Mfs.Props

open Matrix Mfs.Spec Mfs.QuadND Mfs.MultiIndex Mfs.FilterND MvPolynomial

variable {Y : Type} {d N : ℕ} {basis full : List (List ℕ)} {mats : List (List (List ℤ))}

/-- the law with weights `p` at the points `x i`, as a functional on polynomials. -/
noncomputable def atomLaw {n : ℕ} (p : Fin n → ℝ) (x : Fin n → List ℝ) : MvPolynomial (Fin d) ℝ →ₗ[ℝ] ℝ :=
  (∑ i, p i)⁻¹ • ∑ i, p i • evalAt (x i)

theorem atomLaw_apply {n : ℕ} (p : Fin n → ℝ) (x : Fin n → List ℝ) (P : MvPolynomial (Fin d) ℝ) :
    atomLaw p x P = lawE p fun i => evalAt (x i) P := by
  rw [atomLaw, LinearMap.smul_apply, LinearMap.sum_apply, lawE, smul_eq_mul, div_eq_inv_mul]
  simp only [LinearMap.smul_apply, smul_eq_mul]

/-- the rules computed from the raw, central and scaled moments of a law with `basis.length` atoms in general position
integrate as that law. -/
theorem nd_rule_of_atoms {B : Backend} (hB : B.Valid) (T : Tables N d basis full mats)
    {x : Fin basis.length → List ℝ} (hx : ∀ i, (x i).length = d)
    (hdet : (Matrix.of fun a i => monomial (x i) basis[a] : Matrix (Fin basis.length) (Fin basis.length) ℝ).det ≠ 0)
    {p : Fin basis.length → ℝ} (hp : ∀ i, 0 < p i) (hsum : 0 < ∑ i, p i) (m s : List ℝ) (hm : m.length = d) (hs : s.length = d)
    (hs0 : ∀ t ∈ s, 0 < t) (sort ldl : Bool) (F : List ℝ → ℝ) :
    integND (momentQuadratureND B (full.map fun α => lawE p fun i => monomial (x i) α) mats none none sort ldl) F
      = lawE p (fun i => F (x i)) ∧
    integND (momentQuadratureND B (full.map fun α => lawE p fun i => monomial (List.zipWith (· - ·) (x i) m) α) mats
      (some m) none sort ldl) F = lawE p (fun i => F (x i)) ∧
    integND (momentQuadratureND B (full.map fun α => lawE p fun i =>
      monomial (List.zipWith (· / ·) (List.zipWith (· - ·) (x i) m) s) α) mats (some m) (some s) sort ldl) F
        = lawE p (fun i => F (x i)) := by
  obtain ⟨hpd, hr⟩ := C101_nd_discrete_recovery B hB N d (by have := T.hN; omega) T.hd basis full mats T.basis_eq T.full_eq
    T.mats_eq (fun i => p i / ∑ j, p j) (fun i => div_pos (hp i) hsum) x hx hdet sort ldl
  have e0 : ∀ f : Fin basis.length → ℝ, ∑ i, p i / (∑ j, p j) * f i = lawE p f := by
    intro f
    rw [lawE, Finset.sum_div]
    exact Finset.sum_congr rfl fun i _ => by ring
  have e1 : ∑ i, p i / ∑ j, p j = 1 := by rw [← Finset.sum_div, div_self hsum.ne']
  simp only [e0, e1, div_one] at hpd hr
  have hraw : ∀ α : List ℕ, α.length = d → (lawE p fun i => monomial (x i) α) = polyMoment (atomLaw (d := d) p x) rawCoord α := by
    intro α hα
    rw [polyMoment, atomLaw_apply]
    congr 1
    funext i
    exact monomial_eq_evalAt rawCoord (x i) (x i) (hx i) (fun j => by simp [evalAt, rawCoord]) α hα
  have hcen : ∀ α : List ℕ, α.length = d → (lawE p fun i => monomial (List.zipWith (· - ·) (x i) m) α)
      = polyMoment (atomLaw (d := d) p x) (centralCoord m) α := by
    intro α hα
    rw [polyMoment, atomLaw_apply]
    congr 1
    funext i
    refine monomial_eq_evalAt (centralCoord m) (x i) _ (by simp [hx i, hm]) (fun j => ?_) α hα
    rw [getD_zipWith_sub (hx i) hm]
    simp [evalAt, centralCoord]
  have hsca : ∀ α : List ℕ, α.length = d →
      (lawE p fun i => monomial (List.zipWith (· / ·) (List.zipWith (· - ·) (x i) m) s) α)
      = polyMoment (atomLaw (d := d) p x) (scaledCoord m s) α := by
    intro α hα
    rw [polyMoment, atomLaw_apply]
    congr 1
    funext i
    refine monomial_eq_evalAt (scaledCoord m s) (x i) _ (by simp [hx i, hm, hs]) (fun j => ?_) α hα
    have : (List.zipWith (· / ·) (List.zipWith (· - ·) (x i) m) s).getD j 0
        = ((x i).getD j 0 - m.getD j 0) / s.getD j 0 := by
      simp [List.getD_eq_getElem?_getD, hx i, hm, hs]
    rw [this]
    simp [evalAt, scaledCoord, div_eq_inv_mul]
  have hmap : ∀ {f g : List ℕ → ℝ}, (∀ α : List ℕ, α.length = d → f α = g α) → full.map f = full.map g :=
    fun h => List.map_congr_left fun α hα => h α (T.mem_full.1 hα).1
  have hg : gramOn basis (polyMoment (atomLaw (d := d) p x) rawCoord) = gramOn basis fun α => lawE p fun i => monomial (x i) α := by
    rw [← T.gram, ← hmap hraw, T.gram]
  have h85 := C85_nd_raw_central_scaled B hB N (by have := T.hN; omega) T.hd (atomLaw p x) m s hm hs hs0 basis full mats
    T.basis_eq T.full_eq T.mats_eq (by rw [hg]; exact hpd) sort sort sort ldl ldl ldl F
  rw [← hmap hraw, ← hmap hcen, ← hmap hsca, hr F] at h85
  exact ⟨hr F, h85⟩

theorem wsumVec_rows {A : Type} {r : List (ℝ × List ℝ)} {n : ℕ} {q : Fin n → ℝ} {x : Fin n → List ℝ}
    (hr : ∀ F : List ℝ → ℝ, integND r F = lawE q fun i => F (x i)) (P : CondMoments A) (a : A)
    (f : Fin n → List ℕ → ℝ) (hP : ∀ i, P.row full a (x i) = full.map (f i)) :
    wsumVec full.length r (P.row full a) = full.map fun α => lawE q fun i => f i α := by
  apply List.ext_getElem
  · simp [wsumVec]
  · intro k h1 h2
    have hk : k < full.length := by simpa using h2
    simp only [wsumVec, List.getElem_map, List.getElem_range, FilterND.wsum_eq, hr, hP]
    simp [List.getD_eq_getElem?_getD, hk]

/-- coordinates of the posterior mean and variance of atoms in general position. -/
theorem atoms_var_pos (T : Tables N d basis full mats) {x : Fin basis.length → List ℝ} (hx : ∀ i, (x i).length = d)
    (hdet : (Matrix.of fun a i => monomial (x i) basis[a] : Matrix (Fin basis.length) (Fin basis.length) ℝ).det ≠ 0)
    {q : Fin basis.length → ℝ} (hq : ∀ i, 0 < q i) (hsum : 0 < ∑ i, q i) {j : ℕ} (hj : j < d) (c : ℝ) :
    0 < lawE q fun i => ((x i).getD j 0 - c) ^ 2 := by
  refine div_pos (Finset.sum_pos' (fun i _ => mul_nonneg (hq i).le (sq_nonneg _)) ?_) hsum
  by_contra hall
  push Not at hall
  have hall' : ∀ i, (x i).getD j 0 = c := by
    intro i
    have h1 := hall i (Finset.mem_univ _)
    have h2 : ((x i).getD j 0 - c) ^ 2 ≤ 0 := nonpos_of_mul_nonpos_right h1 (hq i)
    have h3 := pow_eq_zero_iff (two_ne_zero) |>.1 (le_antisymm h2 (sq_nonneg _))
    linarith
  have h0 : List.replicate d 0 ∈ basis := T.mem_basis.2 ⟨by simp, by simp, by simp⟩
  have h1 : axisIndex d j 1 ∈ basis := T.mem_basis.2 ⟨by simp [axisIndex], by simp, by
    rw [sum_axisIndex d j 1 hj]; have := T.hN; omega⟩
  obtain ⟨a, ha, ha'⟩ := List.getElem_of_mem h0
  obtain ⟨b, hb, hb'⟩ := List.getElem_of_mem h1
  have hab : (⟨b, hb⟩ : Fin basis.length) ≠ ⟨a, ha⟩ := by
    intro h
    have : b = a := congrArg Fin.val h
    subst this
    rw [ha'] at hb'
    have := congrArg List.sum hb'
    rw [sum_axisIndex d j 1 hj] at this
    simp at this
  have h0' : List.replicate d 0 = axisIndex d j 0 := by
    apply List.ext_getElem
    · simp [axisIndex]
    · intro i h1 h2
      simp [axisIndex]
  have ha0 : basis[a] = axisIndex d j 0 := ha'.trans h0'
  set Φ : Matrix (Fin basis.length) (Fin basis.length) ℝ := Matrix.of fun a i => monomial (x i) basis[a] with hΦ
  refine hdet ?_
  rw [← Matrix.det_updateRow_add_smul_self Φ hab (-c)]
  refine Matrix.det_eq_zero_of_row_eq_zero ⟨b, hb⟩ fun i => ?_
  rw [Matrix.updateRow_self]
  simp only [hΦ, Pi.add_apply, Pi.smul_apply, Matrix.of_apply, Fin.getElem_fin, smul_eq_mul]
  rw [ha0, hb', monomial_axis _ (hx i) j 1 hj, monomial_axis _ (hx i) j 0 hj, hall' i]
  ring

/-- **C110.** Let the state take `basis.length` values `x i` in `ℝ^d` (as many as there are monomials of degree below `N`)
in general position: no non-zero polynomial of degree below `N` vanishes at all of them. Let it start with positive
probabilities `p` and move with a stochastic matrix `T` none of whose columns vanishes; let the conditional moments agree, at
those values, with the moments of `T`, in either calling convention; let the likelihood be positive at those values. Then
each of the three multidimensional filters succeeds, returns the exact negative logarithm of the marginal likelihood, and
after every measurement the exact moments of the posterior, with its exact mean and standard deviations. The conditional
means and positive conditional variances supplied to the central and scaled filters need not be correct. -/
theorem C110_nd_finite_state_exact (B : Backend) (hB : B.Valid) (stable : Bool) (tab : Tables N d basis full mats)
    (x : Fin basis.length → List ℝ) (hx : ∀ i, (x i).length = d)
    (hdet : (Matrix.of fun a i => monomial (x i) basis[a] : Matrix (Fin basis.length) (Fin basis.length) ℝ).det ≠ 0)
    (p : Fin basis.length → ℝ) (hp : ∀ i, 0 < p i) (hp1 : ∑ i, p i = 1) (T : Fin basis.length → Fin basis.length → ℝ)
    (hT : ∀ i j, 0 ≤ T i j) (hTr : ∀ i, ∑ j, T i j = 1) (hTc : ∀ j, ∃ i, 0 < T i j) (pdf : Y → List ℝ → ℝ)
    (hpdf : ∀ y j, 0 < pdf y (x j)) (ys : List Y) :
    let g : Y → Fin basis.length → ℝ := fun y j => pdf y (x j)
    let E : ℕ → (Fin basis.length → ℝ) → ℝ := fun t f => hmmPost p T g (ys.take (t + 1)) f
    let mean : ℕ → List ℝ := fun t => (List.range d).map fun l => E t fun i => (x i).getD l 0
    (∀ P : CondMoments Unit, (∀ i, P.row full () (x i) = full.map fun α => ∑ j, T i j * monomial (x j) α) →
      ∃ a, filterRms B P pdf ys (full, mats) (full.map fun α => ∑ i, p i * monomial (x i) α) stable = .ok a ∧
        a.2 = -Real.log (hmmLik p T g ys) ∧ a.1.length = ys.length ∧
        ∀ (t : ℕ) o, a.1[t]? = some o → o = full.map fun α => E t fun i => monomial (x i) α) ∧
    (∀ (P : CondMoments (List ℝ)) (cm : List ℝ → List ℝ) (m0 : List ℝ), m0.length = d →
      (∀ i m, m.length = d → P.row full m (x i) = full.map fun α => ∑ j, T i j * monomial (List.zipWith (· - ·) (x j) m) α) →
      ∃ a, filterCms B P cm pdf ys (full, mats) (full.map fun α => ∑ i, p i * monomial (List.zipWith (· - ·) (x i) m0) α)
          m0 stable = .ok a ∧
        a.2 = -Real.log (hmmLik p T g ys) ∧ a.1.length = ys.length ∧
        ∀ (t : ℕ) o, a.1[t]? = some o → o.2 = mean t ∧
          o.1 = full.map fun α => E t fun i => monomial (List.zipWith (· - ·) (x i) (mean t)) α) ∧
    (∀ (P : CondMoments (List ℝ × List ℝ)) (cmv : List ℝ → List ℝ × List ℝ) (m0 s0 : List ℝ), m0.length = d → s0.length = d →
      (∀ t ∈ s0, 0 < t) → (∀ i, ∀ l < d, 0 < (cmv (x i)).2.getD l 0) →
      (∀ i m s, m.length = d → s.length = d → P.row full (m, s) (x i)
        = full.map fun α => ∑ j, T i j * monomial (List.zipWith (· / ·) (List.zipWith (· - ·) (x j) m) s) α) →
      ∃ a, filterScms B P cmv pdf ys (full, mats) (full.map fun α =>
          ∑ i, p i * monomial (List.zipWith (· / ·) (List.zipWith (· - ·) (x i) m0) s0) α) m0 s0 stable = .ok a ∧
        a.2 = -Real.log (hmmLik p T g ys) ∧ a.1.length = ys.length ∧
        ∀ (t : ℕ) o, a.1[t]? = some o → o.2.1 = mean t ∧ o.2.2.length = d ∧
          (∀ l < d, 0 < o.2.2.getD l 0 ∧
            o.2.2.getD l 0 ^ 2 = E t fun i => ((x i).getD l 0 - (mean t).getD l 0) ^ 2) ∧
          o.1 = full.map fun α => E t fun i =>
            monomial (List.zipWith (· / ·) (List.zipWith (· - ·) (x i) (mean t)) o.2.2) α) := by
  intro g E mean
  have hn : 0 < basis.length := by
    have h0 : List.replicate d 0 ∈ basis := tab.mem_basis.2 ⟨by simp, by simp, by simp⟩
    exact List.length_pos_of_mem h0
  have hne : (Finset.univ : Finset (Fin basis.length)).Nonempty := ⟨⟨0, hn⟩, Finset.mem_univ _⟩
  have hlaw : ∀ f : Fin basis.length → ℝ, ∑ i, p i * f i = lawE p f := fun f => by rw [lawE, hp1, div_one]
  have hqpos : ∀ q : Fin basis.length → ℝ, (∀ i, 0 < q i) → ∀ j, 0 < ∑ i, q i * T i j := by
    intro q hq j
    obtain ⟨i, hi⟩ := hTc j
    exact Finset.sum_pos' (fun i _ => mul_nonneg (hq i).le (hT i j)) ⟨i, Finset.mem_univ _, mul_pos (hq i) hi⟩
  have hqsum : ∀ q : Fin basis.length → ℝ, ∑ j, ∑ i, q i * T i j = ∑ i, q i := by
    intro q
    rw [Finset.sum_comm]
    exact Finset.sum_congr rfl fun i _ => by rw [← Finset.mul_sum, hTr, mul_one]
  have hsum : ∀ q : Fin basis.length → ℝ, (∀ i, 0 < q i) → 0 < ∑ i, q i := fun q hq => Finset.sum_pos (fun i _ => hq i) hne
  have hlik : ∀ (q : Fin basis.length → ℝ) (y : Y),
      lawE (fun j => ∑ i, q i * T i j) (g y) = (∑ j, fwd T g q y j) / ∑ j, q j := by
    intro q y; rw [lawE, hqsum]; rfl
  have hpost : ∀ (q : Fin basis.length → ℝ) (y : Y) (f : Fin basis.length → ℝ), (∀ i, 0 < q i) →
      lawE (fun j => ∑ i, q i * T i j) (fun j => f j * g y j) / lawE (fun j => ∑ i, q i * T i j) (g y)
        = lawE (fwd T g q y) f := fun q y f hq => lawE_update (by rw [hqsum]; exact (hsum q hq).ne') f
  have dm : (List.replicate d (0:ℝ)).length = d := by simp
  have ds : (List.replicate d (1:ℝ)).length = d := by simp
  have ds0 : ∀ t ∈ List.replicate d (1:ℝ), 0 < t := by simp [List.mem_replicate]
  have atoms := fun (q : Fin basis.length → ℝ) (hq : ∀ i, 0 < q i) m s hm hs hs0 F =>
    nd_rule_of_atoms hB tab hx hdet hq (hsum q hq) m s hm hs hs0 false stable F
  have hE : ∀ t f, E t f = lawE ((ys.take (t + 1)).foldl (fwd T g) p) f := fun t f => hmmPost_eq _ _ _
  -- the posterior mean as computed by the filters
  have hmeanEq : ∀ (q' : Fin basis.length → ℝ) (F : List ℕ → ℝ),
      (∀ l < d, F (axisIndex d l 1) = lawE q' fun i => (x i).getD l 0) →
      (eyeRows d).map F = (List.range d).map fun l => lawE q' fun i => (x i).getD l 0 := by
    intro q' F h
    rw [eyeRows_eq, List.map_map]
    exact List.map_congr_left fun l hl => h l (List.mem_range.1 hl)
  refine ⟨?_, ?_, ?_⟩
  · intro P hP
    rw [filterRms_eq]
    simp only [List.length_map, ne_eq, not_true_eq_false, if_false]
    refine ⟨_, rfl, ?_⟩
    have key := represents (T := T) (g := g) (next := FilterND.nextRms B stable pdf full mats P)
      (lik := FilterND.likRms B stable pdf full mats P)
      (fun s q => s = full.map fun α => lawE q fun i => monomial (x i) α)
      (fun s q => s = full.map fun α => lawE q fun i => monomial (x i) α) hn hT hTc hpdf ?_
      (full.map fun α => ∑ i, p i * monomial (x i) α) p hp (by simp only [hlaw]) ys
    · rw [hp1, div_one] at key
      refine ⟨by rw [key.1, hmmLik_eq], by simp [length_traj], fun t o ho => ?_⟩
      simp only [hE]
      exact key.2 t o ho
    · rintro s q y hq rfl
      have r1 := fun F => (atoms q hq _ _ dm ds ds0 F).1
      have hpred : FilterND.predRms B stable full mats P (full.map fun α => lawE q fun i => monomial (x i) α)
          = full.map fun α => lawE (fun j => ∑ i, q i * T i j) fun i => monomial (x i) α := by
        rw [FilterND.predRms, wsumVec_rows r1 P () _ hP]
        simp only [lawE_pred hTr]
      have r2 : ∀ F, integND (ruleRms B stable full mats P (full.map fun α => lawE q fun i => monomial (x i) α)) F
          = lawE (fun j => ∑ i, q i * T i j) fun i => F (x i) := by
        intro F
        rw [ruleRms, hpred]
        exact (atoms _ (hqpos q hq) _ _ dm ds ds0 F).1
      have hout : FilterND.nextRms B stable pdf full mats P (full.map fun α => lawE q fun i => monomial (x i) α) y
          = full.map fun α => lawE (fwd T g q y) fun i => monomial (x i) α := by
        rw [FilterND.nextRms]
        refine List.map_congr_left fun α _ => ?_
        rw [FilterND.likRms, r2, r2]
        exact hpost q y _ hq
      exact ⟨hout, hout, by rw [FilterND.likRms, r2]; exact hlik q y⟩
  · intro P cm m0 hm0 hP
    rw [filterCms_eq]
    simp only [List.length_map, ne_eq, not_true_eq_false, if_false, tab.head_len]
    refine ⟨_, rfl, ?_⟩
    have key := represents (T := T) (g := g) (next := FilterND.nextCms B stable pdf d full mats P cm)
      (lik := FilterND.likCms B stable pdf d full mats P cm)
      (fun s q => s.2.length = d ∧ s.1 = full.map fun α => lawE q fun i => monomial (List.zipWith (· - ·) (x i) s.2) α)
      (fun s q => s.2 = ((List.range d).map fun l => lawE q fun i => (x i).getD l 0) ∧
        s.1 = full.map fun α => lawE q fun i => monomial (List.zipWith (· - ·) (x i)
          ((List.range d).map fun l => lawE q fun i => (x i).getD l 0)) α) hn hT hTc hpdf ?_
      (full.map fun α => ∑ i, p i * monomial (List.zipWith (· - ·) (x i) m0) α, m0) p hp ⟨hm0, by simp only [hlaw]⟩ ys
    · rw [hp1, div_one] at key
      refine ⟨by rw [key.1, hmmLik_eq], by simp [length_traj], fun t o ho => ?_⟩
      simp only [mean, hE]
      exact key.2 t o ho
    · rintro ⟨s, m⟩ q y hq ⟨hml, hseq⟩
      simp only at hml hseq
      subst hseq
      have r1 := fun F => (atoms q hq m _ hml ds ds0 F).2.1
      set S : List ℝ × List ℝ := (full.map fun α => lawE q fun i => monomial (List.zipWith (· - ·) (x i) m) α, m) with hS
      set pr := FilterND.predCms B stable d full mats P cm S with hpr
      have hprl : pr.2.length = d := by simp [hpr, FilterND.predCms, wsumVec]
      have hpred : pr.1
          = full.map fun α => lawE (fun j => ∑ i, q i * T i j) fun i => monomial (List.zipWith (· - ·) (x i) pr.2) α := by
        have : pr.1 = wsumVec full.length (momentQuadratureND B S.1 mats (some S.2) none false stable) (P.row full pr.2) := rfl
        rw [this, wsumVec_rows r1 P pr.2 _ (fun i => hP i pr.2 hprl)]
        simp only [lawE_pred hTr]
      have r2 : ∀ F, integND (ruleCms B stable d full mats P cm S) F = lawE (fun j => ∑ i, q i * T i j) fun i => F (x i) := by
        intro F
        have : ruleCms B stable d full mats P cm S = momentQuadratureND B pr.1 mats (some pr.2) none false stable := rfl
        rw [this, hpred]
        exact (atoms _ (hqpos q hq) _ _ hprl ds ds0 F).2.1
      have hZ : FilterND.likCms B stable pdf d full mats P cm S y = lawE (fun j => ∑ i, q i * T i j) (g y) := by
        rw [FilterND.likCms, r2]
      set nx := FilterND.nextCms B stable pdf d full mats P cm S y with hnx
      have hm : nx.2 = (List.range d).map fun l => lawE (fwd T g q y) fun i => (x i).getD l 0 := by
        have : nx.2 = (eyeRows d).map fun α => integND (ruleCms B stable d full mats P cm S)
          (fun x => monomial (x.map (· - 0)) α * pdf y x) / FilterND.likCms B stable pdf d full mats P cm S y := rfl
        rw [this]
        refine hmeanEq (fwd T g q y) _ fun l hl => ?_
        rw [r2, hZ, ← hpost q y _ hq]
        congr 2
        funext i
        rw [monomial_axis _ (by simp [hx i]) l 1 hl]
        simp [g]
      have hout : nx.1 = full.map fun α => lawE (fwd T g q y) fun i => monomial (List.zipWith (· - ·) (x i) nx.2) α := by
        have : nx.1 = full.map fun α => integND (ruleCms B stable d full mats P cm S)
          (fun x => monomial (List.zipWith (· - ·) x nx.2) α * pdf y x) / FilterND.likCms B stable pdf d full mats P cm S y := rfl
        rw [this]
        refine List.map_congr_left fun α _ => ?_
        rw [r2, hZ]
        exact hpost q y _ hq
      exact ⟨⟨by rw [hm]; simp, hout⟩, ⟨hm, by rw [hout, hm]⟩, by rw [hZ]; exact hlik q y⟩
  · intro P cmv m0 s0 hm0 hs0l hs0 hcv hP
    rw [filterScms_eq]
    simp only [List.length_map, ne_eq, not_true_eq_false, if_false, tab.head_len]
    refine ⟨_, rfl, ?_⟩
    have key := represents (T := T) (g := g) (next := FilterND.nextScms B stable pdf d full mats P cmv)
      (lik := FilterND.likScms B stable pdf d full mats P cmv)
      (fun s q => s.2.1.length = d ∧ s.2.2.length = d ∧ (∀ t ∈ s.2.2, 0 < t) ∧ s.1 = full.map fun α => lawE q fun i =>
        monomial (List.zipWith (· / ·) (List.zipWith (· - ·) (x i) s.2.1) s.2.2) α)
      (fun s q => s.2.1 = ((List.range d).map fun l => lawE q fun i => (x i).getD l 0) ∧ s.2.2.length = d ∧
        (∀ l < d, 0 < s.2.2.getD l 0 ∧ s.2.2.getD l 0 ^ 2 = lawE q fun i => ((x i).getD l 0 -
          ((List.range d).map fun l => lawE q fun i => (x i).getD l 0).getD l 0) ^ 2) ∧
        s.1 = full.map fun α => lawE q fun i => monomial (List.zipWith (· / ·) (List.zipWith (· - ·) (x i)
          ((List.range d).map fun l => lawE q fun i => (x i).getD l 0)) s.2.2) α) hn hT hTc hpdf ?_
      (full.map fun α => ∑ i, p i * monomial (List.zipWith (· / ·) (List.zipWith (· - ·) (x i) m0) s0) α, m0, s0) p hp
      ⟨hm0, hs0l, hs0, by simp only [hlaw]⟩ ys
    · rw [hp1, div_one] at key
      refine ⟨by rw [key.1, hmmLik_eq], by simp [length_traj], fun t o ho => ?_⟩
      simp only [mean, hE]
      exact key.2 t o ho
    · rintro ⟨s, m, sc⟩ q y hq ⟨hml, hscl, hsc0, hseq⟩
      simp only at hml hscl hsc0 hseq
      subst hseq
      have r1 := fun F => (atoms q hq m sc hml hscl hsc0 F).2.2
      set S : List ℝ × List ℝ × List ℝ := (full.map fun α => lawE q fun i =>
        monomial (List.zipWith (· / ·) (List.zipWith (· - ·) (x i) m) sc) α, m, sc) with hS
      set pr := FilterND.predScms B stable d full mats P cmv S with hpr
      have hprl : pr.2.1.length = d := by simp [hpr, FilterND.predScms, wsumVec]
      have hprs : pr.2.2.length = d := by simp [hpr, FilterND.predScms, wsumVec]
      have hprp : ∀ t ∈ pr.2.2, 0 < t := by
        intro t ht
        have e : pr.2.2 = (wsumVec d (momentQuadratureND B S.1 mats (some S.2.1) (some S.2.2) false stable)
          fun x => (cmv x).2).map Real.sqrt := rfl
        rw [e] at ht
        simp only [wsumVec, List.map_map, List.mem_map, List.mem_range, Function.comp_def] at ht
        obtain ⟨l, hl, rfl⟩ := ht
        rw [FilterND.wsum_eq, r1]
        exact Real.sqrt_pos.2 (div_pos (Finset.sum_pos (fun i _ => mul_pos (hq i) (hcv i l hl)) hne) (hsum q hq))
      have hpred : pr.1 = full.map fun α => lawE (fun j => ∑ i, q i * T i j) fun i =>
          monomial (List.zipWith (· / ·) (List.zipWith (· - ·) (x i) pr.2.1) pr.2.2) α := by
        have : pr.1 = wsumVec full.length (momentQuadratureND B S.1 mats (some S.2.1) (some S.2.2) false stable)
          (P.row full (pr.2.1, pr.2.2)) := rfl
        rw [this, wsumVec_rows r1 P (pr.2.1, pr.2.2) _ (fun i => hP i pr.2.1 pr.2.2 hprl hprs)]
        simp only [lawE_pred hTr]
      have r2 : ∀ F, integND (ruleScms B stable d full mats P cmv S) F = lawE (fun j => ∑ i, q i * T i j) fun i => F (x i) := by
        intro F
        have : ruleScms B stable d full mats P cmv S
          = momentQuadratureND B pr.1 mats (some pr.2.1) (some pr.2.2) false stable := rfl
        rw [this, hpred]
        exact (atoms _ (hqpos q hq) _ _ hprl hprs hprp F).2.2
      have hZ : FilterND.likScms B stable pdf d full mats P cmv S y = lawE (fun j => ∑ i, q i * T i j) (g y) := by
        rw [FilterND.likScms, r2]
      set nx := FilterND.nextScms B stable pdf d full mats P cmv S y with hnx
      have hm : nx.2.1 = (List.range d).map fun l => lawE (fwd T g q y) fun i => (x i).getD l 0 := by
        have : nx.2.1 = (eyeRows d).map fun α => integND (ruleScms B stable d full mats P cmv S)
          (fun x => monomial (x.map fun t => (t - 0) / 1) α * pdf y x) / FilterND.likScms B stable pdf d full mats P cmv S y := rfl
        rw [this]
        refine hmeanEq (fwd T g q y) _ fun l hl => ?_
        rw [r2, hZ, ← hpost q y _ hq]
        congr 2
        funext i
        rw [monomial_axis _ (by simp [hx i]) l 1 hl]
        simp [g]
      have hnxm : nx.2.1.length = d := by rw [hm]; simp
      have hf := foldl_fwd_pos hT hTc hpdf hq y
      have hs2 : nx.2.2 = (List.range d).map fun l => Real.sqrt (lawE (fwd T g q y) fun i =>
          ((x i).getD l 0 - nx.2.1.getD l 0) ^ 2) := by
        have : nx.2.2 = (eyeRows d).map fun α => Real.sqrt (integND (ruleScms B stable d full mats P cmv S)
          (fun x => monomial (List.zipWith (fun t m => (t - m) / 1) x nx.2.1) (α.map (· * 2)) * pdf y x)
            / FilterND.likScms B stable pdf d full mats P cmv S y) := rfl
        rw [this, eyeRows_eq, List.map_map]
        refine List.map_congr_left fun l hl => ?_
        have hl := List.mem_range.1 hl
        simp only [Function.comp_apply, div_one]
        rw [r2, hZ, ← hpost q y _ hq]
        congr 3
        funext i
        rw [axisIndex_double, one_mul, monomial_axis _ (by simp [hx i, hnxm]) l 2 hl, getD_zipWith_sub (hx i) hnxm]
      have hpos2 : ∀ l < d, 0 < lawE (fwd T g q y) fun i => ((x i).getD l 0 - nx.2.1.getD l 0) ^ 2 :=
        fun l hl => atoms_var_pos tab hx hdet hf (hsum _ hf) hl _
      have hout : nx.1 = full.map fun α => lawE (fwd T g q y) fun i =>
          monomial (List.zipWith (· / ·) (List.zipWith (· - ·) (x i) nx.2.1) nx.2.2) α := by
        have : nx.1 = full.map fun α => integND (ruleScms B stable d full mats P cmv S)
          (fun x => monomial (List.zipWith (· / ·) (List.zipWith (· - ·) x nx.2.1) nx.2.2) α * pdf y x)
            / FilterND.likScms B stable pdf d full mats P cmv S y := rfl
        rw [this]
        refine List.map_congr_left fun α _ => ?_
        rw [r2, hZ]
        exact hpost q y _ hq
      have hl2 : nx.2.2.length = d := by rw [hs2]; simp
      have hg2 : ∀ l < d, nx.2.2.getD l 0 = Real.sqrt (lawE (fwd T g q y) fun i => ((x i).getD l 0 - nx.2.1.getD l 0) ^ 2) := by
        intro l hl
        conv_lhs => rw [hs2]
        exact getD_map_range' _ hl
      refine ⟨⟨hnxm, hl2, ?_, hout⟩, ⟨hm, hl2, ?_, by rw [hout, hm]⟩, by rw [hZ]; exact hlik q y⟩
      · intro t ht
        obtain ⟨l, hl, rfl⟩ := List.getElem_of_mem ht
        have := hg2 l (hl2 ▸ hl)
        rw [List.getD_eq_getElem _ _ hl] at this
        rw [this]
        exact Real.sqrt_pos.2 (hpos2 l (hl2 ▸ hl))
      · intro l hl
        rw [← hm, hg2 l hl]
        exact ⟨Real.sqrt_pos.2 (hpos2 l hl), Real.sq_sqrt (hpos2 l hl).le⟩

/-- a chain meeting the hypotheses, for `N = 2`, `d = 2`: the three points `(0,0)`, `(0,1)`, `(1,0)`, left with probability
`1/4` to each of the others, seen through a Gaussian-shaped likelihood, with conditional moments in the multi-index
convention. -/
example : ∃ full mats, Tables 2 2 [[0, 0], [0, 1], [1, 0]] full mats ∧
    (let x : Fin 3 → List ℝ := ![[0, 0], [0, 1], [1, 0]]
     let T : Fin 3 → Fin 3 → ℝ := fun i j => if i = j then 1 / 2 else 1 / 4
     let f : List ℝ → List ℕ → Unit → ℝ := fun z α _ =>
      (1 + if z = [0, 0] then 1 else 0) / 4 * monomial [0, 0] α + (1 + if z = [0, 1] then 1 else 0) / 4 * monomial [0, 1] α
        + (1 + if z = [1, 0] then 1 else 0) / 4 * monomial [1, 0] α
     (∀ i, (x i).length = 2) ∧
     (Matrix.of fun a i => monomial (x i) (([[0, 0], [0, 1], [1, 0]] : List (List ℕ))[a]) : Matrix (Fin 3) (Fin 3) ℝ).det ≠ 0 ∧
     (∀ i, ∑ j, T i j = 1) ∧ (∀ j, ∃ i, 0 < T i j) ∧
     (∀ (y : ℝ) j, 0 < Real.exp (-(y - (x j).sum) ^ 2)) ∧
     ∀ i, (CondMoments.multiIndex f).row full () (x i) = full.map fun α => ∑ j, T i j * monomial (x j) α) := by
  obtain ⟨b, f, m, h1, h2, h3, _⟩ := C05_gram_hankel_indices 2 2 (by norm_num) (by norm_num)
  have hb : b = [[0, 0], [0, 1], [1, 0]] := by
    have : generateMultiIndices 2 (2 - 1) 0 = .ok [[0, 0], [0, 1], [1, 0]] := by rfl
    rw [this] at h1; cases h1; rfl
  subst hb
  refine ⟨f, m, ⟨by norm_num, by norm_num, h1, h2, h3⟩, ?_⟩
  intro x T c
  refine ⟨?_, ?_, ?_, ?_, fun y j => Real.exp_pos _, ?_⟩
  · intro i; fin_cases i <;> rfl
  · simp [x, Matrix.det_fin_three, Spec.monomial]
  · intro i; fin_cases i <;> simp [T, Fin.sum_univ_three] <;> norm_num
  · intro j; exact ⟨j, by simp [T]⟩
  · intro i
    refine List.map_congr_left fun α _ => ?_
    fin_cases i <;> simp [T, x, c, Fin.sum_univ_three] <;> norm_num

end Mfs.Props

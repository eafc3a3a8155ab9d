import Verif.Props.FilterNDEquiv
import Verif.Props.PolyProcess
import Verif.Props.SigmaPoints
import Mathlib.Algebra.MvPolynomial.Degrees

/-!
# Property C137: multi-step prediction of multidimensional polynomial processes is exact
-/

namespace Mfs.Props

open Matrix Mfs.Spec Mfs.QuadND Mfs.MultiIndex Mfs.FilterND MvPolynomial

variable {Y : Type} {d N : ℕ} {basis full : List (List ℕ)} {mats : List (List (List ℤ))}

/-- two functionals with the same moments in the table agree on all polynomials of degree at most `2N - 1`. -/
theorem eq_of_moments (T : Tables N d basis full mats) {L L' : MvPolynomial (Fin d) ℝ →ₗ[ℝ] ℝ}
    (h : ∀ α ∈ full, polyMoment L rawCoord α = polyMoment L' rawCoord α) (p : MvPolynomial (Fin d) ℝ)
    (hp : p.totalDegree ≤ 2 * N - 1) : L p = L' p := by
  conv_lhs => rw [p.as_sum]
  conv_rhs => rw [p.as_sum]
  rw [map_sum, map_sum]
  refine Finset.sum_congr rfl fun m hm => ?_
  have hdeg := (le_totalDegree hm).trans hp
  have hmem : List.ofFn (fun j : Fin d => m j) ∈ full := by
    refine T.mem_full.2 ⟨by simp, by simp, ?_⟩
    rw [List.sum_ofFn]
    rwa [Finsupp.sum_fintype _ _ (fun _ => rfl)] at hdeg
  have := h _ hmem
  have e : ∏ j : Fin d, (rawCoord j : MvPolynomial (Fin d) ℝ) ^ (List.ofFn (fun j : Fin d => m j)).getD j 0
      = MvPolynomial.monomial m 1 := by
    rw [monomial_eq, Finsupp.prod_fintype _ _ (fun _ => pow_zero _)]
    simp [rawCoord, List.getD_eq_getElem?_getD]
  rw [polyMoment, polyMoment, e] at this
  have hs : MvPolynomial.monomial m (coeff m p) = coeff m p • MvPolynomial.monomial m (1 : ℝ) := by
    rw [smul_monomial, smul_eq_mul, mul_one]
  rw [hs, map_smul, map_smul, this]

/-- the rule of a law integrates every polynomial of degree at most `2N - 1` as the law. -/
theorem nd_rule_poly {B : Backend} (hB : B.Valid) (T : Tables N d basis full mats) (L : MvPolynomial (Fin d) ℝ →ₗ[ℝ] ℝ)
    (hL : L 1 = 1) (hpd : (gramOn basis (polyMoment L rawCoord)).PosDef) (ldl : Bool) (p : MvPolynomial (Fin d) ℝ)
    (hp : p.totalDegree ≤ 2 * N - 1) :
    integND (momentQuadratureND B (full.map (polyMoment L rawCoord)) mats none none false ldl) (fun x => evalAt x p) = L p := by
  obtain ⟨hex, _, hnode⟩ := C21_nd_reproduces B hB N d (by have := T.hN; omega) T.hd (polyMoment L rawCoord) basis full mats
    T.basis_eq T.full_eq T.mats_eq hpd false ldl
  rw [← mixLawND_apply]
  refine eq_of_moments T (fun α hα => ?_) p hp
  have h0 : polyMoment L rawCoord (List.replicate d 0) = 1 := by
    rw [polyMoment]
    simp [List.getD_eq_getElem?_getD, hL]
  rw [polyMoment, mixLawND_apply, ← div_one (polyMoment L rawCoord α), ← h0, ← hex α (T.mem_full.1 hα)]
  apply integND_congr
  intro q hq
  rw [monomial_eq_evalAt rawCoord q.2 q.2 (hnode q hq) (fun j => by simp [evalAt, rawCoord]) α (T.mem_full.1 hα).1]

theorem totalDegree_coord (p : Fin d → MvPolynomial (Fin d) ℝ) (hp : ∀ j, (p j).totalDegree ≤ 1) (T : Tables N d basis full mats)
    (α : List ℕ) (hα : α ∈ full) : (∏ j, p j ^ α.getD j 0).totalDegree ≤ 2 * N - 1 := by
  have hα' := T.mem_full.1 hα
  refine (totalDegree_finsetProd _ _).trans (le_trans ?_ hα'.2.2)
  calc ∑ j : Fin d, (p j ^ α.getD j 0).totalDegree ≤ ∑ j : Fin d, α.getD j 0 :=
        Finset.sum_le_sum fun j _ => (totalDegree_pow _ _).trans (by nlinarith [hp j])
    _ = α.sum := by rw [← List.sum_ofFn, ofFn_getD α hα'.1]

theorem totalDegree_scaledCoord (m s : List ℝ) (j : Fin d) : (scaledCoord m s j : MvPolynomial (Fin d) ℝ).totalDegree ≤ 1 := by
  rw [scaledCoord]
  refine (totalDegree_mul _ _).trans ?_
  rw [totalDegree_C, zero_add]
  refine (totalDegree_sub _ _).trans (max_le (by rw [totalDegree_X]) (by rw [totalDegree_C]; omega))

theorem totalDegree_centralCoord (m : List ℝ) (j : Fin d) : (centralCoord m j : MvPolynomial (Fin d) ℝ).totalDegree ≤ 1 := by
  rw [centralCoord]
  exact (totalDegree_sub _ _).trans (max_le (by rw [totalDegree_X]) (by rw [totalDegree_C]; omega))

theorem totalDegree_rawCoord (j : Fin d) : (rawCoord j : MvPolynomial (Fin d) ℝ).totalDegree ≤ 1 := by
  rw [rawCoord, totalDegree_X]

/-- **C137.** Let the transition map polynomials in `d` variables to polynomials without raising the total degree (`A p` is the
conditional expectation of `p(X_k)` as a function of `X_{k-1}`; linear systems with any noise, and all *polynomial processes*,
are of this kind), let `L` be the law of the initial state, and let the laws `L ∘ A^t` have positive definite Gram matrices.
If the measurements carry no information, the three multidimensional filters given the moments up to order `2N - 1` return, after
every step, exactly the moments, means and standard deviations of the state at that time, whatever the signs of
the weights. The conditional variances passed to the scaled filter may be any polynomials `V j` of degree at most `2N - 1` with
positive expectation (the true ones have degree two). -/
theorem C137_nd_polynomial_process_exact (B : Backend) (hB : B.Valid) (l₁ l₂ l₃ : Bool) (T : Tables N d basis full mats)
    (A : MvPolynomial (Fin d) ℝ →ₗ[ℝ] MvPolynomial (Fin d) ℝ) (hA1 : A 1 = 1)
    (hA : ∀ p, (A p).totalDegree ≤ p.totalDegree) (L : MvPolynomial (Fin d) ℝ →ₗ[ℝ] ℝ) (hL1 : L 1 = 1) (c : Y → ℝ)
    (hc : ∀ y, 0 < c y) (pdf : Y → List ℝ → ℝ) (hpdf : ∀ y x, pdf y x = c y) (ys : List Y)
    (hv : ∀ t ≤ ys.length, (gramOn basis (polyMoment (L.comp (A ^ t)) rawCoord)).PosDef)
    (V : Fin d → MvPolynomial (Fin d) ℝ) (hVd : ∀ j, (V j).totalDegree ≤ 2 * N - 1)
    (hV : ∀ t < ys.length, ∀ j, 0 < L ((A ^ t) (V j))) (m0 s0 : List ℝ) (hm0 : m0.length = d) (hs0 : s0.length = d)
    (hs0' : ∀ t ∈ s0, 0 < t) :
    let E : List ℝ → MvPolynomial (Fin d) ℝ →ₗ[ℝ] ℝ := fun x => (evalAt x).comp A
    let M : ℕ → MvPolynomial (Fin d) ℝ →ₗ[ℝ] ℝ := fun t => L.comp (A ^ (t + 1))
    let mean : ℕ → List ℝ := fun t => List.ofFn fun j : Fin d => M t (X j)
    let sd : ℕ → List ℝ := fun t => List.ofFn fun j : Fin d => Real.sqrt (M t ((X j - C (M t (X j))) ^ 2))
    let nell := -((ys.map fun y => Real.log (c y)).sum)
    FilterND.filterRms B (rawOfND E) pdf ys (full, mats) (full.map (polyMoment L rawCoord)) l₁
      = .ok ((List.range ys.length).map fun t => full.map (polyMoment (M t) rawCoord), nell) ∧
    FilterND.filterCms B (centralOfND E) (meanOfND E) pdf ys (full, mats) (full.map (polyMoment L (centralCoord m0))) m0 l₂
      = .ok ((List.range ys.length).map fun t => (full.map (polyMoment (M t) (centralCoord (mean t))), mean t), nell) ∧
    FilterND.filterScms B (scaledOfND E) (fun x => (meanOfND E x, List.ofFn fun j : Fin d => evalAt x (V j))) pdf ys (full, mats)
        (full.map (polyMoment L (scaledCoord m0 s0))) m0 s0 l₃
      = .ok ((List.range ys.length).map fun t =>
          (full.map (polyMoment (M t) (scaledCoord (mean t) (sd t))), mean t, sd t), nell) := by
  intro E M mean sd nell
  let Lt : ℕ → MvPolynomial (Fin d) ℝ →ₗ[ℝ] ℝ := fun t => L.comp (A ^ t)
  have hLt : ∀ t p, Lt t p = L ((A ^ t) p) := fun _ _ => rfl
  have hM : ∀ t, M t = Lt (t + 1) := fun _ => rfl
  have hsucc : ∀ t p, Lt t (A p) = Lt (t + 1) p := by
    intro t p
    rw [hLt, hLt, pow_succ]
    rfl
  have hone : ∀ t, Lt t 1 = 1 := by
    intro t
    induction t with
    | zero => simp [hLt, hL1]
    | succ t ih => rw [← hsucc, hA1, ih]
  have hdeg : ∀ α ∈ full, (∏ j, (rawCoord j : MvPolynomial (Fin d) ℝ) ^ α.getD j 0).totalDegree ≤ 2 * N - 1 :=
    totalDegree_coord rawCoord totalDegree_rawCoord T
  set cv : List ℝ → List ℝ := fun x => List.ofFn fun j : Fin d => evalAt x (V j) with hcv
  -- one prediction
  have hpred : ∀ t ≤ ys.length, ∀ l, FilterND.predRms B l full mats (rawOfND E) (full.map (polyMoment (Lt t) rawCoord))
      = full.map (polyMoment (Lt (t + 1)) rawCoord) := by
    intro t ht l
    rw [FilterND.predRms, rawOfND, wsumVec_row]
    apply List.map_congr_left
    intro α hα
    have := nd_rule_poly hB T (Lt t) (hone t) (hv t ht) l (A (∏ j, rawCoord j ^ α.getD j 0)) ((hA _).trans (hdeg α hα))
    rw [hsucc] at this
    exact this
  have hsum : ∀ (r : List ℝ) l, ((momentQuadratureND B r mats none none false l).map (·.1)).sum = 1 := fun r l =>
    C22_nd_weights_sum_one B hB r mats (by rw [T.mats_len]; have := T.hd; omega)
      (C22_applies N d (by have := T.hN; omega) T.hd mats T.mats_eq).2 none none false l
  have hconst : ∀ (r : List ℝ) l (k : ℝ), integND (momentQuadratureND B r mats none none false l) (fun _ => k) = k := by
    intro r l k
    rw [integND]
    have : ∀ l : List (ℝ × List ℝ), (l.map fun p => p.1 * k).sum = (l.map (·.1)).sum * k := fun l => by
      rw [← List.sum_map_mul_right]
    rw [this, hsum, one_mul]
  have hlik : ∀ t < ys.length, ∀ l y, FilterND.likRms B l pdf full mats (rawOfND E) (full.map (polyMoment (Lt t) rawCoord)) y = c y := by
    intro t ht l y
    rw [FilterND.likRms, FilterND.ruleRms]
    have : pdf y = fun _ => c y := funext (hpdf y)
    rw [this, hconst]
  have hnext : ∀ t < ys.length, ∀ l y, FilterND.nextRms B l pdf full mats (rawOfND E) (full.map (polyMoment (Lt t) rawCoord)) y
      = full.map (polyMoment (Lt (t + 1)) rawCoord) := by
    intro t ht l y
    have hnode : ∀ p ∈ FilterND.ruleRms B l full mats (rawOfND E) (full.map (polyMoment (Lt t) rawCoord)), p.2.length = d :=
      momentQuadratureND_node_length B _ _ d T.mats_len _ _ (by simp) (by simp) _ _
    rw [FilterND.nextRms, hlik t ht]
    apply List.map_congr_left
    intro α hα
    have h1 := nd_rule_poly hB T (Lt (t + 1)) (hone _) (hv (t + 1) ht) l (∏ j, rawCoord j ^ α.getD j 0) (hdeg α hα)
    rw [polyMoment, ← h1, div_eq_iff (hc y).ne', mul_comm, ← integND_mul_left]
    rw [FilterND.ruleRms, hpred t ht.le] at *
    apply integND_congr
    intro q hq
    rw [monomial_eq_evalAt rawCoord q.2 q.2 (hnode q hq) (fun j => by simp [evalAt, rawCoord]) α (T.mem_full.1 hα).1, hpdf, mul_comm]
  -- the raw filter
  have hraw : traj (FilterND.nextRms B l₁ pdf full mats (rawOfND E)) (full.map (polyMoment L rawCoord)) ys
        = (List.range ys.length).map (fun t => full.map (polyMoment (M t) rawCoord)) ∧
      liks (FilterND.nextRms B l₁ pdf full mats (rawOfND E)) (FilterND.likRms B l₁ pdf full mats (rawOfND E))
        (full.map (polyMoment L rawCoord)) ys = ys.map c := by
    refine run_known (fun t s => s = full.map (polyMoment (Lt t) rawCoord)) _ c _ ys ?_ ?_ ?_
    · have : Lt 0 = L := by ext p; simp [hLt]
      rw [this]
    · rintro t ht s y rfl
      exact ⟨hnext t ht l₁ y, hlik t ht l₁ y⟩
    · intro t _
      rfl
  have e0 : Lt 0 = L := by ext p; simp [hLt]
  have hlog : nell = -((ys.map c).map Real.log).sum := by simp only [nell, List.map_map, Function.comp_def]
  have hfr : FilterND.filterRms B (rawOfND E) pdf ys (full, mats) (full.map (polyMoment L rawCoord)) l₁
      = .ok ((List.range ys.length).map fun t => full.map (polyMoment (M t) rawCoord), nell) := by
    rw [FilterND.filterRms_eq]
    simp only [List.length_map, ne_eq, not_true_eq_false, if_false]
    rw [hraw.1, hraw.2, hlog]
  refine ⟨hfr, ?_⟩
  -- validity of the run
  have hvalid : StaysValidND B E cv pdf l₁ basis full mats (full.map (polyMoment L rawCoord)) ys := by
    have : ∀ (zs : List Y) t, t + zs.length = ys.length →
        StaysValidND B E cv pdf l₁ basis full mats (full.map (polyMoment (Lt t) rawCoord)) zs := by
      intro zs
      induction zs with
      | nil =>
        intro t ht
        rw [StaysValidND, T.gram]
        exact hv t (by simp at ht; omega)
      | cons y zs ih =>
        intro t ht
        have ht' : t < ys.length := by simp at ht; omega
        refine ⟨by rw [T.gram]; exact hv t ht'.le, ?_, by rw [hpred t ht'.le, T.gram]; exact hv (t + 1) ht', ?_, ?_⟩
        · intro j hj
          have := nd_rule_poly hB T (Lt t) (hone t) (hv t ht'.le) l₁ (V ⟨j, hj⟩) (hVd _)
          have e : (fun x => (cv x).getD j 0) = fun x => evalAt x (V ⟨j, hj⟩) := by
            funext x
            simp [hcv, List.getD_eq_getElem?_getD, hj]
          rw [e, this]
          exact hV t ht' _
        · rw [hlik t ht']
          exact (hc y).ne'
        · rw [hnext t ht']
          exact ih (t + 1) (by simp at ht; omega)
    have := this ys 0 (by simp)
    rwa [e0] at this
  obtain ⟨a, b, cc, h1, h2, h3, h4, h5, -, h7, h8, hrec⟩ := C36_nd_same_filter hB T (E := E) (cv := cv) (pdf := pdf)
    (fun x => by simp [E, hA1, evalAt]) l₁ l₂ l₃ (full.map (polyMoment L rawCoord))
    (full.map (polyMoment L (centralCoord m0))) (full.map (polyMoment L (scaledCoord m0 s0))) m0 s0 L
    ⟨hL1, rfl, rfl, rfl, hm0, rfl, hs0, hs0'⟩ ys hvalid
  rw [hfr] at h1
  obtain rfl : _ = a := by injection h1
  simp only at h4 h5
  have hdone : ∀ t < ys.length, ∀ ce sc, b.1[t]? = some ce → cc.1[t]? = some sc →
      ce = (full.map (polyMoment (M t) (centralCoord (mean t))), mean t) ∧
      sc = (full.map (polyMoment (M t) (scaledCoord (mean t) (sd t))), mean t, sd t) := by
    intro t ht ce sc hce hsc
    obtain ⟨L', hL', hmn, hsdv⟩ := hrec t (full.map (polyMoment (M t) rawCoord)) ce sc
      (by simp [List.getElem?_range ht]) hce hsc
    have hag : ∀ p : MvPolynomial (Fin d) ℝ, p.totalDegree ≤ 2 * N - 1 → L' p = M t p := by
      refine eq_of_moments T fun α hα => ?_
      have := hL'.raw
      exact (List.map_inj_left.1 this α hα).symm
    have hN := T.hN
    have hX : ∀ j, L' (X j) = M t (X j) := fun j => hag _ (by rw [totalDegree_X]; omega)
    have hmean : ce.2 = mean t := by
      apply List.ext_getElem
      · simp [hL'.mean_len, mean]
      · intro i hi1 hi2
        have hi : i < d := by rw [hL'.mean_len] at hi1; exact hi1
        have := hmn ⟨i, hi⟩
        rw [hX] at this
        simp only [List.getD_eq_getElem?_getD, List.getElem?_eq_getElem hi1, Option.getD_some] at this
        simp [mean, this]
    have hsq : ∀ j : Fin d, (X j - C (M t (X j)) : MvPolynomial (Fin d) ℝ) ^ 2 = (X j - C (M t (X j))) ^ 2 := fun _ => rfl
    have hscale : sc.2.2 = sd t := by
      apply List.ext_getElem
      · simp [hL'.scale_len, sd]
      · intro i hi1 hi2
        have hi : i < d := by rw [hL'.scale_len] at hi1; exact hi1
        have := hsdv ⟨i, hi⟩
        rw [hX, hag _ ((totalDegree_pow _ _).trans (by
          have : (X ⟨i, hi⟩ - C (M t (X ⟨i, hi⟩)) : MvPolynomial (Fin d) ℝ).totalDegree ≤ 1 :=
            (totalDegree_sub _ _).trans (max_le (by rw [totalDegree_X]) (by rw [totalDegree_C]; omega))
          omega))] at this
        simp only [List.getD_eq_getElem?_getD, List.getElem?_eq_getElem hi1, Option.getD_some] at this
        have hp := hL'.scale_pos _ (List.getElem_mem hi1)
        simp only [sd, List.getElem_ofFn, ← this]
        rw [Real.sqrt_sq hp.le]
    constructor
    · refine Prod.ext ?_ hmean
      rw [hL'.central, hmean]
      refine List.map_congr_left fun α hα => ?_
      exact hag _ (totalDegree_coord _ (totalDegree_centralCoord _) T α hα)
    · have hsm : sc.2.1 = mean t := hL'.mean_eq.trans hmean
      refine Prod.ext ?_ (Prod.ext hsm hscale)
      rw [hL'.scaled, hsm, hscale]
      refine List.map_congr_left fun α hα => ?_
      exact hag _ (totalDegree_coord _ (totalDegree_scaledCoord _ _) T α hα)
  constructor
  · rw [h2]
    congr 1
    refine Prod.ext (List.ext_getElem (by simp [h7]) fun t ht1 ht2 => ?_) h4
    have ht : t < ys.length := by rw [h7] at ht1; exact ht1
    have := (hdone t ht _ _ (List.getElem?_eq_getElem ht1) (List.getElem?_eq_getElem (by rw [h8]; exact ht))).1
    rw [this]
    simp
  · rw [h3]
    congr 1
    refine Prod.ext (List.ext_getElem (by simp [h8]) fun t ht1 ht2 => ?_) h5
    have ht : t < ys.length := by rw [h8] at ht1; exact ht1
    have := (hdone t ht _ _ (List.getElem?_eq_getElem (by rw [h7]; exact ht)) (List.getElem?_eq_getElem ht1)).2
    rw [this]
    simp

/-- hypotheses of C137 for `N = 2`, `d = 2`: the uniform law on the four points `(±1, ±1)`, and a quarter turn of the plane at
every step (`A p = p(x₂, -x₁)`), for any number of steps. -/
example : ∃ (full : List (List ℕ)) (mats : List (List (List ℤ)))
    (A : MvPolynomial (Fin 2) ℝ →ₗ[ℝ] MvPolynomial (Fin 2) ℝ), Tables 2 2 [[0, 0], [0, 1], [1, 0]] full mats ∧ A 1 = 1 ∧
    A (X 0) = X 1 ∧ (∀ p, (A p).totalDegree ≤ p.totalDegree) ∧
    (∀ t, (gramOn [[0, 0], [0, 1], [1, 0]] (polyMoment (fourPoints.comp (A ^ t)) rawCoord)).PosDef) ∧
    ∀ t, 0 < fourPoints ((A ^ t) 1) := by
  obtain ⟨b, f, m, h1, h2, h3, _⟩ := C05_gram_hankel_indices 2 2 (by norm_num) (by norm_num)
  have hb : b = [[0, 0], [0, 1], [1, 0]] := by
    have : generateMultiIndices 2 (2 - 1) 0 = .ok [[0, 0], [0, 1], [1, 0]] := by rfl
    rw [this] at h1; cases h1; rfl
  subst hb
  set A : MvPolynomial (Fin 2) ℝ →ₗ[ℝ] MvPolynomial (Fin 2) ℝ := (bind₁ ![X 1, -X 0]).toLinearMap with hA
  have hinv : fourPoints.comp A = fourPoints := by
    refine LinearMap.ext fun p => ?_
    simp only [fourPoints, hA, LinearMap.comp_apply, LinearMap.smul_apply, LinearMap.add_apply, AlgHom.toLinearMap_apply,
      aeval_bind₁]
    have e : ∀ a b : ℝ, (fun i => (aeval ![a, b]) ((![X 1, -X 0] : Fin 2 → MvPolynomial (Fin 2) ℝ) i)) = ![b, -a] := by
      intro a b
      funext i
      fin_cases i <;> simp
    simp only [e, neg_neg]
    congr 1
    ring
  have hinvt : ∀ t, fourPoints.comp (A ^ t) = fourPoints := by
    intro t
    induction t with
    | zero => simp [Module.End.one_eq_id]
    | succ t ih => rw [pow_succ, Module.End.mul_eq_comp, ← LinearMap.comp_assoc, ih, hinv]
  refine ⟨f, m, A, ⟨by norm_num, by norm_num, h1, h2, h3⟩, by simp [hA], by simp [hA], ?_, ?_, ?_⟩
  · intro p
    refine totalDegree_bind₁ _ (fun i => ?_) p
    fin_cases i <;> simp
  · intro t
    rw [hinvt]
    exact fourPoints_posDef
  · intro t
    rw [← LinearMap.comp_apply, hinvt, fourPoints_one]
    norm_num

end Mfs.Props

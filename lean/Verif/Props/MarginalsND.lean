import Verif.Props.FilterLikND
import Mathlib.MeasureTheory.Integral.Bochner.Set
import Mathlib.Topology.Algebra.MvPolynomial

/-!
# Properties C139 and C140: marginals and range of the multidimensional rule
-/

namespace Mfs.Props

open Matrix Mfs.Spec Mfs.QuadND Mfs.MultiIndex Mfs.FilterND

variable {Y : Type} {d N : ℕ} {basis full : List (List ℕ)} {mats : List (List (List ℤ))}

/-! ## C139 -/

/-- a product of spectral functions all of which but one are constant. -/
theorem prod_funMat_single {n : ℕ} (es : List (Matrix (Fin n) (Fin n) ℝ × (Fin n → ℝ)))
    (h : ∀ e ∈ es, ∃ K, IsEigh K e.1 e.2) (j : ℕ) (hj : j < es.length) (f : ℝ → ℝ) :
    (List.zipWith (fun e f => funMat e.1 e.2 f) es
      ((List.range es.length).map fun i => if i = j then f else fun _ => 1)).prod = funMat es[j].1 es[j].2 f := by
  induction es generalizing j with
  | nil => simp at hj
  | cons e es ih =>
    rw [List.length_cons, List.range_succ_eq_map, List.map_cons, List.map_map, List.zipWith_cons_cons, List.prod_cons]
    cases j with
    | zero =>
      have : (List.range es.length).map ((fun i => if i = 0 then f else fun _ => 1) ∘ Nat.succ)
          = List.replicate es.length fun _ => 1 := by
        rw [← List.length_range (n := es.length), ← List.map_const, List.length_range]
        refine List.map_congr_left fun i _ => ?_
        simp
      rw [this, prod_funMat_one es fun e he => h e (by simp [he])]
      simp
    | succ j =>
      obtain ⟨K, hK⟩ := h e (by simp)
      have : (List.range es.length).map ((fun i => if i = j + 1 then f else fun _ => 1) ∘ Nat.succ)
          = (List.range es.length).map fun i => if i = j then f else fun _ => 1 := by
        refine List.map_congr_left fun i _ => ?_
        simp
      rw [this, ih (fun e he => h e (by simp [he])) j (by simpa using hj)]
      simp [funMat_one hK]

theorem prodFun_single (d : ℕ) (x : List ℝ) (hx : x.length = d) (j : ℕ) (hj : j < d) (f : ℝ → ℝ) :
    prodFun ((List.range d).map fun i => if i = j then f else fun _ => 1) x = f (x.getD j 0) := by
  subst hx
  have : List.zipWith (fun (f : ℝ → ℝ) y => f y) ((List.range x.length).map fun i => if i = j then f else fun _ => 1) x
      = List.ofFn fun i : Fin x.length => if (i : ℕ) = j then f (x.getD j 0) else 1 := by
    apply List.ext_getElem
    · simp
    · intro i h1 h2
      simp only [List.getElem_zipWith, List.getElem_map, List.getElem_range, List.getElem_ofFn]
      by_cases h : i = j
      · subst h; simp [List.getD_eq_getElem?_getD, hj]
      · simp [h]
  rw [prodFun, this, List.prod_ofFn, Finset.prod_eq_single (⟨j, hj⟩ : Fin x.length)]
  · simp
  · intro b _ hb
    rw [if_neg fun h => hb (Fin.ext h)]
  · simp

/-- **C139 (marginals).** Every one-dimensional marginal of the multidimensional rule is a probability law on `z` points: for every
coordinate `j` there are weights `v i ≥ 0` with sum one and points `t i` such that the rule integrates every function of
the `j`-th coordinate as `Σᵢ v i f(t i)`. This holds for every moment vector, valid or not, though the weights of the rule itself may
be negative (C113). -/
theorem C139_nd_marginals (B : Backend) (hB : B.Valid) (ms : List ℝ) (inds : List (List (List ℤ)))
    (hd : inds.length = d + 1) (hz : 0 < (inds.getD 0 []).length) (mean scale : Option (List ℝ)) (hm : ∀ m ∈ mean, m.length = d)
    (hs : ∀ s ∈ scale, s.length = d) (sort ldl : Bool) (j : ℕ) (hj : j < d) :
    ∃ v t : Fin (inds.getD 0 []).length → ℝ, (∀ i, 0 ≤ v i) ∧ ∑ i, v i = 1 ∧
      ∀ f : ℝ → ℝ, integND (momentQuadratureND B ms inds mean scale sort ldl) (fun x => f (x.getD j 0)) = ∑ i, v i * f (t i) := by
  set z := (inds.getD 0 []).length with hzd
  set Hs := inds.tail.map fun M => gatherL ms z M with hHs
  have hHl : Hs.length = d := by simp [hHs, hd]
  have hne : Hs ≠ [] := by
    intro hc
    rw [hc] at hHl
    simp at hHl; omega
  set G := gatherL ms z (inds.getD 0 []) with hG
  set es := Hs.map fun H => B.eigh sort (symmetrize (Quad1.orthonormalise (codeR B G ldl) H)) with hes
  have hel : es.length = d := by simp [hes, hHl]
  have hE : ∀ e ∈ es, ∃ K, IsEigh K e.1 e.2 := by
    intro e he
    rw [hes, List.mem_map] at he
    obtain ⟨H, _, rfl⟩ := he
    exact ⟨_, hB.eigh sort _ (symmetrize_isSymm _)⟩
  -- without affine map
  have key : ∀ f : ℝ → ℝ, integND (quadCore B z Hs.length G Hs none none sort ldl) (fun x => f (x.getD j 0))
      = ∑ i, es[j].1 ⟨0, hz⟩ i ^ 2 * f (es[j].2 i) := by
    intro f
    have h1 := quadCore_prod B hz G Hs hne sort ldl ((List.range d).map fun i => if i = j then f else fun _ => 1) (by simp [hHl])
    rw [integND_congr (F' := fun x => f (x.getD j 0)) fun p hp => prodFun_single d p.2
      ((nodes_length B G Hs sort ldl p hp).trans hHl) j hj f] at h1
    rw [h1]
    have h2 := prod_funMat_single es hE j (by omega) f
    have h3 : (List.range d).map (fun i => if i = j then f else fun _ => 1)
        = (List.range es.length).map fun i => if i = j then f else fun _ => 1 := by rw [hel]
    have h4 := congrFun (congrFun h2 ⟨0, hz⟩) ⟨0, hz⟩
    rw [h3]
    refine h4.trans ?_
    rw [funMat_apply]
    exact Finset.sum_congr rfl fun i _ => by ring
  have hq : momentQuadratureND B ms inds mean scale sort ldl
      = (quadCore B z Hs.length G Hs none none sort ldl).map fun p => (p.1, affineNode mean scale p.2) := by
    rw [momentQuadratureND, quadCore_affine]
    have : inds.length - 1 = Hs.length := by omega
    rw [this]
  obtain ⟨a, b, hab⟩ : ∃ a b : ℝ, ∀ x : List ℝ, x.length = d → (affineNode mean scale x).getD j 0 = x.getD j 0 * a + b := by
    cases mean with
    | none => exact ⟨1, 0, fun x _ => by simp [affineNode]⟩
    | some m =>
      have hm := hm m rfl
      cases scale with
      | none =>
        refine ⟨1, m.getD j 0, fun x hx => ?_⟩
        simp [affineNode, List.getD_eq_getElem?_getD, hx, hm, hj]
      | some s =>
        have hs := hs s rfl
        refine ⟨s.getD j 0, m.getD j 0, fun x hx => ?_⟩
        simp [affineNode, List.getD_eq_getElem?_getD, hx, hm, hs, hj]
  refine ⟨fun i => es[j].1 ⟨0, hz⟩ i ^ 2, fun i => es[j].2 i * a + b, fun i => sq_nonneg _, ?_, ?_⟩
  · have h1 := key fun _ => 1
    simp only [mul_one] at h1
    rw [← h1]
    have h2 := quadCore_sum_one hB hz G Hs hne sort ldl
    simpa [integND] using h2
  · intro f
    rw [hq, ← key fun t => f (t * a + b), integND, List.map_map, integND]
    congr 1
    refine List.map_congr_left fun p hp => ?_
    simp only [Function.comp_apply]
    rw [hab p.2 ((nodes_length B G Hs sort ldl p hp).trans hHl)]

/-- average of a positive function of one coordinate. -/
theorem integND_coord_pos (B : Backend) (hB : B.Valid) (ms : List ℝ) (inds : List (List (List ℤ)))
    (hd : inds.length = d + 1) (hz : 0 < (inds.getD 0 []).length) (mean scale : Option (List ℝ)) (hm : ∀ m ∈ mean, m.length = d)
    (hs : ∀ s ∈ scale, s.length = d) (sort ldl : Bool) (j : ℕ) (hj : j < d) (f : ℝ → ℝ) (hf : ∀ t, 0 < f t) :
    0 < integND (momentQuadratureND B ms inds mean scale sort ldl) (fun x => f (x.getD j 0)) := by
  obtain ⟨v, t, h0, h1, h⟩ := C139_nd_marginals B hB ms inds hd hz mean scale hm hs sort ldl j hj
  rw [h]
  refine lt_of_le_of_ne (Finset.sum_nonneg fun i _ => mul_nonneg (h0 i) (hf _).le) fun h0' => ?_
  have h2 := (Finset.sum_eq_zero_iff_of_nonneg fun i _ => mul_nonneg (h0 i) (hf _).le).1 h0'.symm
  have h3 : ∑ i, v i = 0 := Finset.sum_eq_zero fun i hi => (mul_eq_zero.1 (h2 i hi)).resolve_right (hf _).ne'
  rw [h1] at h3
  exact one_ne_zero h3

theorem liks_pos {S : Type} {next : S → Y → S} {lik : S → Y → ℝ} (Inv : S → Prop) (hnext : ∀ s y, Inv s → Inv (next s y))
    (hpos : ∀ s y, Inv s → 0 < lik s y) (s : S) (hs : Inv s) (ys : List Y) : ∀ l ∈ liks next lik s ys, 0 < l := by
  induction ys generalizing s with
  | nil => simp [liks]
  | cons y ys ih =>
    intro l hl
    rw [liks, List.mem_cons] at hl
    rcases hl with rfl | hl
    · exact hpos s y hs
    · exact ih (next s y) (hnext s y hs) l hl

/-- **C139 (measurements of one coordinate).** If the measurement density is positive and depends on one coordinate of the state
only, all predictive likelihoods of the three multidimensional filters are positive, whatever the moments, the conditional
moment functions and the signs of the weights. -/
theorem C139_nd_likelihood_pos (B : Backend) (hB : B.Valid) (stable : Bool) (pdf : Y → List ℝ → ℝ) (j : ℕ) (g : Y → ℝ → ℝ)
    (hg : ∀ y t, 0 < g y t) (hpdf : ∀ y x, pdf y x = g y (x.getD j 0)) (mis : List (List ℕ)) (inds : List (List (List ℤ)))
    (hmis : (mis.headD []).length = d) (hd : inds.length = d + 1) (hz : 0 < (inds.getD 0 []).length) (hj : j < d)
    (ms0 m0 s0 : List ℝ) (Pr : CondMoments Unit)
    (Pc : CondMoments (List ℝ)) (Ps : CondMoments (List ℝ × List ℝ)) (cm : List ℝ → List ℝ)
    (cmv : List ℝ → List ℝ × List ℝ) (ys : List Y) :
    let dim := (mis.headD []).length
    (∀ l ∈ liks (FilterND.nextRms B stable pdf mis inds Pr) (FilterND.likRms B stable pdf mis inds Pr) ms0 ys, 0 < l) ∧
    (∀ l ∈ liks (FilterND.nextCms B stable pdf dim mis inds Pc cm) (FilterND.likCms B stable pdf dim mis inds Pc cm) (ms0, m0) ys, 0 < l) ∧
    (∀ l ∈ liks (FilterND.nextScms B stable pdf dim mis inds Ps cmv) (FilterND.likScms B stable pdf dim mis inds Ps cmv) (ms0, m0, s0) ys,
        0 < l) := by
  intro dim
  have hfun : ∀ y, pdf y = fun x => g y (x.getD j 0) := fun y => funext (hpdf y)
  refine ⟨?_, ?_, ?_⟩
  · refine liks_pos (fun _ => True) (fun _ _ _ => trivial) (fun s y _ => ?_) _ trivial ys
    rw [FilterND.likRms, FilterND.ruleRms, hfun]
    exact integND_coord_pos B hB _ inds hd hz _ _ (by simp) (by simp) _ _ j hj _ (hg y)
  · refine liks_pos (fun _ => True) (fun _ _ _ => trivial) (fun s y _ => ?_) _ trivial ys
    rw [FilterND.likCms, FilterND.ruleCms, hfun]
    refine integND_coord_pos B hB _ inds hd hz _ _ ?_ (by simp) _ _ j hj _ (hg y)
    rintro m hm
    obtain rfl : _ = m := by simpa using hm
    simp [FilterND.predCms, wsumVec, dim, hmis]
  · refine liks_pos (fun _ => True) (fun _ _ _ => trivial) (fun s y _ => ?_) _ trivial ys
    rw [FilterND.likScms, FilterND.ruleScms, hfun]
    refine integND_coord_pos B hB _ inds hd hz _ _ ?_ ?_ _ _ j hj _ (hg y)
    · rintro m hm
      obtain rfl : _ = m := by simpa using hm
      simp [FilterND.predScms, wsumVec, dim, hmis]
    · rintro m hm
      obtain rfl : _ = m := by simpa using hm
      simp [FilterND.predScms, wsumVec, dim, hmis]

/-- **C139 (posterior).** In the same situation the moments of the measured coordinate in every record of the raw filter are
realisable: their Hankel matrix is positive semi-definite, so for instance the posterior variance of that coordinate is not negative. -/
theorem C139_nd_posterior_realisable (B : Backend) (hB : B.Valid) (stable : Bool) (pdf : Y → List ℝ → ℝ) (j : ℕ) (g : Y → ℝ → ℝ)
    (hg : ∀ y t, 0 < g y t) (hpdf : ∀ y x, pdf y x = g y (x.getD j 0)) (T : Tables N d basis full mats) (hj : j < d)
    (ms0 : List ℝ) (P : CondMoments Unit) (ys : List Y) (recs : List (List ℝ)) (nell : ℝ)
    (hrun : FilterND.filterRms B P pdf ys (full, mats) ms0 stable = .ok (recs, nell)) :
    ∀ r ∈ recs, (Matrix.of fun k l : Fin N => momentAt full r (axisIndex d j (k + l))).PosSemidef := by
  rw [FilterND.filterRms_eq] at hrun
  split_ifs at hrun
  injection hrun with hrun
  injection hrun with h1 h2
  subst h1
  have hz := (C22_applies N d (by have := T.hN; omega) T.hd mats T.mats_eq).2
  -- every record is a posterior
  have hrec : ∀ (s : List ℝ) (ys : List Y), ∀ r ∈ traj (FilterND.nextRms B stable pdf full mats P) s ys,
      ∃ s y, r = FilterND.nextRms B stable pdf full mats P s y := by
    intro s ys
    induction ys generalizing s with
    | nil => simp [traj]
    | cons y ys ih =>
      intro r hr
      rw [traj, List.mem_cons] at hr
      rcases hr with rfl | hr
      · exact ⟨s, y, rfl⟩
      · exact ih _ r hr
  intro r hr
  obtain ⟨s, y, rfl⟩ := hrec ms0 ys r hr
  obtain ⟨v, t, h0, hs1, hv⟩ := C139_nd_marginals B hB (FilterND.predRms B stable full mats P s) mats T.mats_len hz none none
    (by simp) (by simp) false stable j hj
  have hnode : ∀ p ∈ FilterND.ruleRms B stable full mats P s, p.2.length = d :=
    momentQuadratureND_node_length B _ _ d T.mats_len _ _ (by simp) (by simp) _ _
  set Z := FilterND.likRms B stable pdf full mats P s y with hZ
  have hZpos : 0 < Z := by
    have : pdf y = fun x => g y (x.getD j 0) := funext (hpdf y)
    rw [hZ, FilterND.likRms, FilterND.ruleRms, this]
    exact integND_coord_pos B hB _ mats T.mats_len hz _ _ (by simp) (by simp) _ _ j hj _ (hg y)
  have hmom : ∀ k l : Fin N, momentAt full (FilterND.nextRms B stable pdf full mats P s y) (axisIndex d j (k + l))
      = ∑ i, (v i * g y (t i) / Z) * (t i ^ (k : ℕ) * t i ^ (l : ℕ)) := by
    intro k l
    have hmem : axisIndex d j (k + l) ∈ full := T.mem_full.2 ⟨by simp [axisIndex], by simp, by
      rw [sum_axisIndex d j _ hj]; omega⟩
    rw [FilterND.nextRms, momentAt_map _ _ _ hmem]
    have : integND (FilterND.ruleRms B stable full mats P s) (fun x => monomial x (axisIndex d j (k + l)) * pdf y x)
        = integND (FilterND.ruleRms B stable full mats P s) (fun x => (fun u => u ^ ((k : ℕ) + l) * g y u) (x.getD j 0)) := by
      refine integND_congr fun p hp => ?_
      rw [monomial_axis _ (hnode p hp) j _ hj, hpdf]
    rw [this, FilterND.ruleRms, hv (fun u => u ^ ((k : ℕ) + l) * g y u), ← hZ, Finset.sum_div]
    refine Finset.sum_congr rfl fun i _ => ?_
    rw [pow_add]
    ring
  have hsum : (Matrix.of fun k l : Fin N => momentAt full (FilterND.nextRms B stable pdf full mats P s y) (axisIndex d j (k + l)))
      = ∑ i, (v i * g y (t i) / Z) • Matrix.vecMulVec (fun k : Fin N => t i ^ (k : ℕ)) (star fun k : Fin N => t i ^ (k : ℕ)) := by
    ext k l
    rw [Matrix.of_apply, hmom, Matrix.sum_apply]
    simp [Matrix.vecMulVec_apply]
  rw [hsum]
  refine Matrix.posSemidef_sum _ fun i _ => ?_
  exact (Matrix.posSemidef_vecMulVec_self_star _).smul (div_nonneg (mul_nonneg (h0 i) (hg y _).le) hZpos.le)

/-- probability of a binary measurement of the second coordinate. -/
noncomputable def secondCoordPmf (y : Bool) (x : List ℝ) : ℝ :=
  if y then 1 / (1 + Real.exp (x.getD 1 0)) else 1 - 1 / (1 + Real.exp (x.getD 1 0))

/-- a logistic measurement of the second of three coordinates meets the hypotheses of C139 and of both parts of C138. -/
example (B : Backend) (hB : B.Valid) (N : ℕ) (basis full : List (List ℕ)) (mats : List (List (List ℤ)))
    (T : Tables N 3 basis full mats) (P : CondMoments Unit) (ms0 : List ℝ) :
    (∀ x, HasSum (fun y => secondCoordPmf y x) 1) ∧
    (∀ ys : List Bool, ∀ l ∈ liks (FilterND.nextRms B false secondCoordPmf full mats P)
      (FilterND.likRms B false secondCoordPmf full mats P) ms0 ys, 0 < l) := by
  constructor
  · intro x
    convert hasSum_fintype (fun y : Bool => secondCoordPmf y x) using 1
    simp [secondCoordPmf]
  · intro ys
    refine (C139_nd_likelihood_pos (d := 3) B hB false secondCoordPmf 1
      (fun y t => if y then 1 / (1 + Real.exp t) else 1 - 1 / (1 + Real.exp t)) ?_ (fun _ _ => rfl) full mats T.head_len T.mats_len
      (C22_applies N 3 (by have := T.hN; omega) T.hd mats T.mats_eq).2 (by norm_num) ms0 [] [] P (.multiIndex fun _ _ _ => 0)
      (.multiIndex fun _ _ _ => 0) id (fun x => (x, x)) ys).1
    intro y t
    have h := Real.exp_pos t
    cases y
    · simp only [Bool.false_eq_true, if_false, sub_pos]
      rw [div_lt_one (by linarith)]
      linarith
    · simp only [if_true]
      positivity

/-! ## C140 -/

/-- entries of the combinations stay among the entries of the rows. -/
theorem node_coord {z : ℕ} (x : List (Fin z → ℝ)) (idx : List (Fin z)) (h : idx.length = x.length) (j : ℕ) (hj : j < x.length) :
    ∃ i, (List.zipWith (fun row i => row i) x idx).getD j 0 = x[j] i := by
  refine ⟨idx[j], ?_⟩
  simp [List.getD_eq_getElem?_getD, hj, h]

/-- **C140 (functionals).** If the moments (up to order `2N - 1`) are those of a positive functional concentrated where `a ≤ xⱼ ≤ b`, that is
`L((xⱼ - a) q²) ≥ 0` and `L((b - xⱼ) q²) ≥ 0` for all polynomials `q` of degree below `N`, the `j`-th coordinate of every node lies in
`[a, b]`. -/
theorem C140_nd_nodes_functional (B : Backend) (hB : B.Valid) (T : Tables N d basis full mats)
    (L : MvPolynomial (Fin d) ℝ →ₗ[ℝ] ℝ) (hpd : (gramOn basis (polyMoment L rawCoord)).PosDef) (j : Fin d) (a b : ℝ)
    (ha : ∀ q : MvPolynomial (Fin d) ℝ, q.totalDegree < N → 0 ≤ L ((MvPolynomial.X j - MvPolynomial.C a) * q ^ 2))
    (hb : ∀ q : MvPolynomial (Fin d) ℝ, q.totalDegree < N → 0 ≤ L ((MvPolynomial.C b - MvPolynomial.X j) * q ^ 2)) (sort ldl : Bool) :
    ∀ p ∈ momentQuadratureND B (full.map (polyMoment L rawCoord)) mats none none sort ldl, p.2.getD j 0 ∈ Set.Icc a b := by
  have hN := T.hN
  obtain ⟨hz, Hs, hq, hD⟩ := nd_setup (by omega) T.hd (polyMoment L rawCoord) T.basis_eq T.full_eq T.mats_eq
  set G := gramOn basis (polyMoment L rawCoord) with hG
  have hR := codeR_isChol hB hpd ldl
  set R := codeR B G ldl with hRdef
  have D := hD R hR
  intro p hp
  rw [hq, quadCore_map B hz, List.mem_map] at hp
  obtain ⟨idx, hidx, rfl⟩ := hp
  have hil : idx.length = d := by
    have := ((C19_cartesian_product _ _).2.2.1 idx).1 hidx
    simpa using this
  simp only [affineNode]
  obtain ⟨i, hi⟩ := node_coord (((List.ofFn Hs).map fun H => B.eigh sort (symmetrize (Quad1.orthonormalise (codeR B G ldl) H))).map
    fun e => e.2) idx (by simp [hil]) j (by simp)
  rw [hi]
  simp only [List.getElem_map, List.getElem_ofFn, Fin.eta]
  have hK : (multMat R (Hs j)).IsSymm := D.symm j
  rw [← hRdef, Quad1.orthonormalise_eq (G := G) hR.lower, symmetrize_eq hK]
  obtain ⟨horth, hspec⟩ := hB.eigh sort _ hK
  set U := (B.eigh sort (multMat R (Hs j))).1 with hU
  set lam := (B.eigh sort (multMat R (Hs j))).2 with hlam
  have horth' : Uᵀ * U = 1 := mul_eq_one_comm.1 horth
  -- the polynomial belonging to the eigenvector
  set w : Fin basis.length → ℝ := Rᵀ⁻¹ *ᵥ (fun k => U k i) with hw
  set q : MvPolynomial (Fin d) ℝ := ∑ c, MvPolynomial.C (w c) * ∏ k, (rawCoord k : MvPolynomial (Fin d) ℝ) ^ (basis[c]).getD k 0 with hqd
  have hbl : ∀ c : Fin basis.length, IsMultiIndex d (N - 1) 0 basis[c] := fun c => T.mem_basis.1 (List.getElem_mem c.2)
  have hdeg : q.totalDegree < N := by
    refine lt_of_le_of_lt (MvPolynomial.totalDegree_finsetSum_le (d := N - 1) fun c _ => ?_) (by omega)
    refine (MvPolynomial.totalDegree_mul _ _).trans ?_
    rw [MvPolynomial.totalDegree_C, zero_add]
    refine (MvPolynomial.totalDegree_finsetProd _ _).trans (le_trans ?_ (hbl c).2.2)
    calc ∑ k : Fin d, ((rawCoord k : MvPolynomial (Fin d) ℝ) ^ (basis[c]).getD k 0).totalDegree ≤ ∑ k : Fin d, (basis[c]).getD k 0 :=
          Finset.sum_le_sum fun k _ => (MvPolynomial.totalDegree_pow _ _).trans (by
            have : (rawCoord k : MvPolynomial (Fin d) ℝ).totalDegree ≤ 1 := by rw [rawCoord, MvPolynomial.totalDegree_X]
            nlinarith)
      _ = (basis[c]).sum := by rw [← List.sum_ofFn, ofFn_getD _ (hbl c).1]
  have hmono : ∀ α : Fin d → ℕ, polyMoment L rawCoord (List.ofFn α) = L (∏ k, (MvPolynomial.X k) ^ α k) := by
    intro α
    rw [polyMoment]
    simp [rawCoord, List.getD_eq_getElem?_getD]
  have hquad : ∀ M : Matrix (Fin basis.length) (Fin basis.length) ℝ, ∀ r : MvPolynomial (Fin d) ℝ,
      (∀ c e, M c e = L (r * ((∏ k, (rawCoord k : MvPolynomial (Fin d) ℝ) ^ (basis[c]).getD k 0)
        * ∏ k, (rawCoord k : MvPolynomial (Fin d) ℝ) ^ (basis[e]).getD k 0))) → w ⬝ᵥ (M *ᵥ w) = L (r * q ^ 2) := by
    intro M r hM
    have : r * q ^ 2 = ∑ c, ∑ e, (w c * w e) • (r * ((∏ k, (rawCoord k : MvPolynomial (Fin d) ℝ) ^ (basis[c]).getD k 0)
        * ∏ k, (rawCoord k : MvPolynomial (Fin d) ℝ) ^ (basis[e]).getD k 0)) := by
      rw [hqd, sq, Finset.sum_mul_sum, Finset.mul_sum]
      refine Finset.sum_congr rfl fun c _ => ?_
      rw [Finset.mul_sum]
      refine Finset.sum_congr rfl fun e _ => ?_
      rw [MvPolynomial.smul_eq_C_mul, MvPolynomial.C_mul]
      ring
    rw [this, map_sum, dotProduct]
    refine Finset.sum_congr rfl fun c _ => ?_
    rw [map_sum, mulVec, dotProduct, Finset.mul_sum]
    refine Finset.sum_congr rfl fun e _ => ?_
    rw [map_smul, smul_eq_mul, ← hM]
    ring
  have hGq : w ⬝ᵥ (G *ᵥ w) = L (1 * q ^ 2) := by
    refine hquad G 1 fun c e => ?_
    rw [D.G_eq, hmono, one_mul, ← Finset.prod_mul_distrib]
    congr 1
    refine Finset.prod_congr rfl fun k _ => ?_
    rw [Pi.add_apply, pow_add, rawCoord]
  have hHq : w ⬝ᵥ (Hs j *ᵥ w) = L (MvPolynomial.X j * q ^ 2) := by
    refine hquad (Hs j) (MvPolynomial.X j) fun c e => ?_
    rw [D.H_eq, hmono, ← Finset.prod_mul_distrib]
    congr 1
    have : (MvPolynomial.X j : MvPolynomial (Fin d) ℝ) = ∏ k, MvPolynomial.X k ^ (Pi.single j 1 : Fin d → ℕ) k := by
      rw [Finset.prod_eq_single j]
      · simp
      · intro k _ hk; simp [hk]
      · simp
    conv_rhs => rw [this]
    rw [← Finset.prod_mul_distrib]
    refine Finset.prod_congr rfl fun k _ => ?_
    rw [Pi.add_apply, Pi.add_apply, pow_add, pow_add, rawCoord]
    ring
  -- Rayleigh quotients
  have hdet : IsUnit R.det := hR.isUnit_det
  have hdet' : IsUnit Rᵀ.det := by rw [Matrix.det_transpose]; exact hdet
  set u : Fin basis.length → ℝ := fun k => U k i with hu
  have huu : u ⬝ᵥ u = 1 := by
    have := congrFun (congrFun horth' i) i
    rw [Matrix.mul_apply, Matrix.one_apply_eq] at this
    rw [dotProduct, ← this]
    rfl
  have hKu : u ⬝ᵥ (multMat R (Hs j) *ᵥ u) = lam i := by
    have h1 : Uᵀ *ᵥ u = Pi.single i 1 := by
      have : u = U *ᵥ Pi.single i 1 := by ext k; simp [hu]
      rw [this, Matrix.mulVec_mulVec, horth', Matrix.one_mulVec]
    rw [hspec, ← Matrix.mulVec_mulVec, h1, ← Matrix.mulVec_mulVec, Matrix.dotProduct_mulVec, ← Matrix.mulVec_transpose, h1]
    simp
  have hRw : Rᵀ *ᵥ w = u := by
    rw [hw, Matrix.mulVec_mulVec, Matrix.mul_nonsing_inv _ hdet', Matrix.one_mulVec]
  have hGw : w ⬝ᵥ (G *ᵥ w) = 1 := by
    have : G = R * Rᵀ := hR.mul_transpose.symm
    rw [this, ← Matrix.mulVec_mulVec, hRw, Matrix.dotProduct_mulVec, ← Matrix.mulVec_transpose, hRw, huu]
  have hHw : w ⬝ᵥ (Hs j *ᵥ w) = lam i := by
    have : Hs j = R * (multMat R (Hs j) * Rᵀ) := hR.mul_multMat_mul.symm
    rw [this, ← Matrix.mulVec_mulVec, ← Matrix.mulVec_mulVec, hRw, Matrix.dotProduct_mulVec, ← Matrix.mulVec_transpose, hRw, hKu]
  have h1 := ha q hdeg
  have h2 := hb q hdeg
  rw [sub_mul, map_sub, ← MvPolynomial.smul_eq_C_mul, map_smul, smul_eq_mul] at h1 h2
  rw [one_mul] at hGq
  rw [← hHq, ← hGq, hGw, hHw] at h1 h2
  constructor
  · linarith
  · linarith

open MeasureTheory in
/-- **C140.** If the moments are those of a finite measure concentrated on the box `[lo, hi]`, every node of the multidimensional rule
lies in that box. -/
theorem C140_nd_nodes_in_box (B : Backend) (hB : B.Valid) (T : Tables N d basis full mats) (μ : Measure (Fin d → ℝ))
    [IsFiniteMeasure μ] (lo hi : Fin d → ℝ) (hsupp : μ (Set.Icc lo hi)ᶜ = 0)
    (m : List ℕ → ℝ) (hm : ∀ α ∈ full, m α = ∫ x, ∏ j, x j ^ α.getD j 0 ∂μ) (hpd : (gramOn basis m).PosDef) (sort ldl : Bool) :
    ∀ p ∈ momentQuadratureND B (full.map m) mats none none sort ldl,
      p.2.length = d ∧ ∀ j : Fin d, p.2.getD j 0 ∈ Set.Icc (lo j) (hi j) := by
  have hae : ∀ᵐ x ∂μ, x ∈ Set.Icc lo hi := by rw [ae_iff]; exact hsupp
  have hres : μ.restrict (Set.Icc lo hi) = μ := Measure.restrict_eq_self_of_ae_mem hae
  have hint : ∀ p : MvPolynomial (Fin d) ℝ, Integrable (fun x => MvPolynomial.eval x p) μ := by
    intro p
    have := (MvPolynomial.continuous_eval p).continuousOn (s := Set.Icc lo hi) |>.integrableOn_compact (μ := μ) isCompact_Icc
    rwa [IntegrableOn, hres] at this
  let L : MvPolynomial (Fin d) ℝ →ₗ[ℝ] ℝ :=
    { toFun := fun p => ∫ x, MvPolynomial.eval x p ∂μ
      map_add' := fun p q => by
        simp only [map_add]
        exact integral_add (hint p) (hint q)
      map_smul' := fun c p => by
        simp only [MvPolynomial.smul_eval, RingHom.id_apply, smul_eq_mul]
        exact integral_const_mul c _ }
  have hL : ∀ p, L p = ∫ x, MvPolynomial.eval x p ∂μ := fun _ => rfl
  have hfull : full.map m = full.map (polyMoment L rawCoord) := by
    refine List.map_congr_left fun α hα => ?_
    rw [hm α hα, polyMoment, hL]
    simp [rawCoord]
  have hpd' : (gramOn basis (polyMoment L rawCoord)).PosDef := by
    rw [← T.gram, ← hfull, T.gram]
    exact hpd
  have hpos : ∀ (r q : MvPolynomial (Fin d) ℝ), (∀ x ∈ Set.Icc lo hi, 0 ≤ MvPolynomial.eval x r) → 0 ≤ L (r * q ^ 2) := by
    intro r q hr
    rw [hL]
    refine integral_nonneg_of_ae ?_
    filter_upwards [hae] with x hx
    rw [map_mul, map_pow]
    exact mul_nonneg (hr x hx) (sq_nonneg _)
  rw [hfull]
  intro p hp
  refine ⟨momentQuadratureND_node_length B _ _ d T.mats_len _ _ (by simp) (by simp) _ _ p hp, fun j => ?_⟩
  refine C140_nd_nodes_functional B hB T L hpd' j (lo j) (hi j) (fun q _ => hpos _ q ?_) (fun q _ => hpos _ q ?_) sort ldl p hp
  · intro x hx
    simpa using hx.1 j
  · intro x hx
    simpa using hx.2 j

open MeasureTheory in
/-- hypotheses of C140: two independent fair signs in the box `[-1, 1]²`, `N = 2`. -/
example : ∃ (μ : Measure (Fin 2 → ℝ)), IsFiniteMeasure μ ∧ μ (Set.Icc (fun _ => -1) (fun _ => 1))ᶜ = 0 ∧
    (gramOn [[0, 0], [0, 1], [1, 0]] fun α => ∫ x, ∏ j, x j ^ α.getD j 0 ∂μ).PosDef := by
  have hd : ∀ (v : Fin 2 → ℝ) (f : (Fin 2 → ℝ) → ℝ), Integrable f (Measure.dirac v) := fun v f => integrable_dirac (by simp)
  refine ⟨(1 / 4 : NNReal) • (Measure.dirac ![1, 1] + Measure.dirac ![1, -1] + Measure.dirac ![-1, 1] + Measure.dirac ![-1, -1]),
    inferInstance, ?_, ?_⟩
  · simp [Pi.le_def, Fin.forall_fin_two]
  · have : (gramOn [[0, 0], [0, 1], [1, 0]] fun α => ∫ x : Fin 2 → ℝ, ∏ j, x j ^ α.getD j 0 ∂((1 / 4 : NNReal) •
        (Measure.dirac ![1, 1] + Measure.dirac ![1, -1] + Measure.dirac ![-1, 1] + Measure.dirac ![-1, -1])))
        = (1 : Matrix (Fin 3) (Fin 3) ℝ) := by
      ext i k
      rw [gramOn, Matrix.of_apply, integral_smul_nnreal_measure, integral_add_measure ((((hd _ _).add_measure (hd _ _)).add_measure (hd _ _))) (hd _ _),
        integral_add_measure ((hd _ _).add_measure (hd _ _)) (hd _ _), integral_add_measure (hd _ _) (hd _ _)]
      simp only [integral_dirac]
      fin_cases i <;> fin_cases k <;> simp [Fin.prod_univ_two, NNReal.smul_def] <;> norm_num
    rw [this]
    exact Matrix.PosDef.one

end Mfs.Props

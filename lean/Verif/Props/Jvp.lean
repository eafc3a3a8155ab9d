import Verif.Lemmas.RuleJvpND
import Verif.Props.Smooth

/-!
# C171: forward-mode differentiation of the one-dimensional rule
-/

namespace Mfs.Props

open Matrix Mfs.Spec Filter Topology Mfs.Quad1 Mfs.QuadND Mfs.Filter1 Mfs.Cont Mfs.Smooth Mfs.Spectral Mfs.Jvp

variable {n : ℕ} {t : ℝ} {B : Backend}

/-! ### auxiliary: the rule as a function of one matrix -/

/-- the multiplication matrix and its tangent, with the length made a parameter. -/
noncomputable def kmat (B : Backend) (n : ℕ) (ms : List ℝ) : Matrix (Fin (n / 2)) (Fin (n / 2)) ℝ :=
  symmetrize (orthonormalise (B.chol (symmetrize (gather ms (hankelIndices (n / 2)).1))) (gather ms (hankelIndices (n / 2)).2))

noncomputable def dkmat (B : Backend) (n : ℕ) (ms dms : List ℝ) : Matrix (Fin (n / 2)) (Fin (n / 2)) ℝ :=
  symmetrize (orthonormaliseJvp (B.chol (symmetrize (gather ms (hankelIndices (n / 2)).1)))
    (cholJvp (B.chol (symmetrize (gather ms (hankelIndices (n / 2)).1))) (symmetrize (gather dms (hankelIndices (n / 2)).1)))
    (gather ms (hankelIndices (n / 2)).2) (gather dms (hankelIndices (n / 2)).2))

theorem integ_core (ms : List ℝ) (hl : ms.length = n) (h : 0 < n / 2) (mean scale : ℝ) (sort : Bool) (f : ℝ → ℝ) :
    integ (momentQuadrature B ms mean scale sort false) f
      = integND (coreRule h fun _ : Fin 1 => B.eigh sort (kmat B n ms)) fun x => f (scale * x.getD 0 0 + mean) := by
  subst hl
  simp only [integ, momentQuadrature, integND, coreRule, ndCartesianProdIndices, List.replicate_succ, List.replicate_zero, cartesianProd, List.map_cons, List.map_nil, List.map_flatMap]
  simp only [← List.map_eq_flatMap, List.ofFn_succ, List.ofFn_zero, List.map_cons, List.map_nil, List.zipWith_cons_cons,
    List.zipWith_nil_left, weight, chain, List.getD_cons_zero]
  rw [sum_finRange]
  refine Finset.sum_congr rfl fun i _ => ?_
  simp [kmat, sq]

theorem jvp_core (ms dms : List ℝ) (hl : ms.length = n) (h : 0 < n / 2) (hinj : Function.Injective (B.eigh sort (kmat B n ms)).2) (mean dmean scale dscale : ℝ) :
    ∃ d, momentQuadratureJvp B ms dms dmean scale dscale sort = some d ∧ ∀ (f : ℝ → ℝ) (df : ℝ → ℝ → ℝ),
      ∑ i, (d.1 i * f ((momentQuadrature B ms mean scale sort false).2 i)
        + (momentQuadrature B ms mean scale sort false).1 i * df ((momentQuadrature B ms mean scale sort false).2 i) (d.2 i))
      = integJvp (coreRule h fun _ : Fin 1 => B.eigh sort (kmat B n ms)) (coreJvp h 1 (edual (fun _ : Fin 1 => B.eigh sort (kmat B n ms)) fun _ => dkmat B n ms dms))
        (fun x => f (scale * x.getD 0 0 + mean)) fun x dx => df (scale * x.getD 0 0 + mean) (dscale * x.getD 0 0 + scale * dx.getD 0 0 + dmean) := by
  subst hl
  unfold kmat at hinj
  refine ⟨_, by rw [momentQuadratureJvp, eighJvp, if_pos hinj]; rfl, fun f df => ?_⟩
  simp only [momentQuadrature, integJvp, coreRule, coreJvp, edual, ndCartesianProdIndices, List.replicate_succ, List.replicate_zero, cartesianProd, List.map_cons, List.map_nil]
  simp only [← List.map_eq_flatMap, List.map_map, Function.comp_def, List.ofFn_succ, List.ofFn_zero, List.map_cons, List.map_nil, List.zipWith_cons_cons,
    List.zipWith_nil_left, weight, chain, List.getD_cons_zero, List.zipWith_map, List.zipWith_self]
  rw [sum_finRange]
  refine Finset.sum_congr rfl fun i _ => ?_
  simp [kmat, dkmat, sq, weightJvp, prodJvp, tanU, tanL]
  left
  ring

theorem kmat_data (hB : B.Valid) (sort : Bool) {s : ℝ → List ℝ} (hs : Sm 1 t n s) {ds : List ℝ} (hl : ds.length = n)
    (hd : ∀ k < n, HasDerivAt (fun u => (s u).getD k 0) (ds.getD k 0) t) (hpd : (gramOf (s t)).PosDef) :
    (∀ a b, ContDiffAt ℝ 1 (fun u => kmat B n (s u) a b) t) ∧ MDeriv (fun u => kmat B n (s u)) (dkmat B n (s t) ds) t ∧
    Function.Injective (B.eigh sort (kmat B n (s t))).2 := by
  have hlen : ∀ u, 2 * (n / 2) ≤ (s u).length := fun u => by rw [hs.len]; omega
  have hG : ∀ u, gather (s u) (hankelIndices (n / 2)).1 = hankelMat (n / 2) fun k => (s u).getD k 0 := fun u => (gather_eq _ (hlen u)).1
  have hH : ∀ u, gather (s u) (hankelIndices (n / 2)).2 = hankelMat (n / 2) fun k => (s u).getD (k + 1) 0 := fun u => (gather_eq _ (hlen u)).2
  have hdG : gather ds (hankelIndices (n / 2)).1 = hankelMat (n / 2) fun k => ds.getD k 0 := (gather_eq _ (by rw [hl]; omega)).1
  have hdH : gather ds (hankelIndices (n / 2)).2 = hankelMat (n / 2) fun k => ds.getD (k + 1) 0 := (gather_eq _ (by rw [hl]; omega)).2
  have mG : MDeriv (fun u => gather (s u) (hankelIndices (n / 2)).1) (gather ds (hankelIndices (n / 2)).1) t := by
    intro a b
    simp only [hG, hdG, hankelMat, Matrix.of_apply]
    exact hd _ (by have := a.2; have := b.2; omega)
  have mH : MDeriv (fun u => gather (s u) (hankelIndices (n / 2)).2) (gather ds (hankelIndices (n / 2)).2) t := by
    intro a b
    simp only [hH, hdH, hankelMat, Matrix.of_apply]
    exact hd _ (by have := a.2; have := b.2; omega)
  have sG : ∀ a b, ContDiffAt ℝ 1 (fun u => symmetrize (gather (s u) (hankelIndices (n / 2)).1) a b) t := by
    intro a b
    simp only [symmetrize, hG, hankelMat, Matrix.smul_apply, Matrix.add_apply, Matrix.transpose_apply, Matrix.of_apply, smul_eq_mul]
    exact contDiffAt_const.mul ((hs.smooth' _).add (hs.smooth' _))
  have sH : ∀ a b, ContDiffAt ℝ 1 (fun u => gather (s u) (hankelIndices (n / 2)).2 a b) t := by
    intro a b
    simp only [hH, hankelMat, Matrix.of_apply]
    exact hs.smooth' _
  have hR : ∀ᶠ u in 𝓝 t, IsChol (symmetrize (gather (s u) (hankelIndices (n / 2)).1)) (B.chol (symmetrize (gather (s u) (hankelIndices (n / 2)).1))) := by
    filter_upwards [eventually_gram hs.lconv hpd] with u hu
    rw [hG, symmetrize_eq (hankelMat_isSymm _ _)]
    exact hB.chol _ hu
  have h0 := hR.self_of_nhds
  have sR := chol_smooth sG hR
  have hdet := h0.isUnit_det.ne_zero
  have mR := chol_jvp sG mG.symm hR
  have hlow : ∀ᶠ u in 𝓝 t, IsLower (B.chol (symmetrize (gather (s u) (hankelIndices (n / 2)).1))) := hR.mono fun u hu => hu.lower
  refine ⟨fun a b => ?_, (orth_jvp sR mR mH hlow hdet).symm, ?_⟩
  · have hmm := multMat_smooth sR sH hdet
    have h1 : ContDiffAt ℝ 1 (fun u => symmetrize (multMat (B.chol (symmetrize (gather (s u) (hankelIndices (n / 2)).1))) (gather (s u) (hankelIndices (n / 2)).2)) a b) t := by
      simp only [symmetrize, Matrix.smul_apply, Matrix.add_apply, Matrix.transpose_apply, smul_eq_mul]
      exact contDiffAt_const.mul ((hmm a b).add (hmm b a))
    refine h1.congr_of_eventuallyEq ?_
    filter_upwards [hlow] with u hu
    rw [kmat, orthonormalise_eq (G := gather (s u) (hankelIndices (n / 2)).1) hu]
  · have key : ∀ ms : List ℝ, ms.length = n → (gramOf ms).PosDef → Function.Injective (B.eigh sort (kmat B n ms)).2 := by
      intro ms hm hp
      subst hm
      have hr := momentQuadrature_reproduces B hB ms ((gram_posDef_iff rfl).1 hp) sort false
      have hi := hr.injective (posDef_normalised _ ((gram_posDef_iff rfl).1 hp))
      intro i j hij
      refine hi ?_
      simp only [momentQuadrature, one_mul, add_zero]
      exact hij
    exact key _ (hs.len t) hpd

/-- **C171, rule.** Along any continuously differentiable curve of valid moment vectors, means and scales, the tangents of weights and nodes
computed by forward mode are finite, and they give the derivative of `∑ᵢ wᵢ F(t, xᵢ)` for every continuously differentiable `F`, whatever
eigenvectors the backend returns. -/
theorem C171_rule_jvp (hB : B.Valid) (sort : Bool) (s : ℝ → List ℝ) (hs : Sm 1 t n s) (ds : List ℝ) (hl : ds.length = n)
    (hd : ∀ k < n, HasDerivAt (fun u => (s u).getD k 0) (ds.getD k 0) t) (hpd : (gramOf (s t)).PosDef) (m c : ℝ → ℝ) (dm dc : ℝ)
    (hm : ContDiffAt ℝ 1 m t) (hc : ContDiffAt ℝ 1 c t) (hdm : HasDerivAt m dm t) (hdc : HasDerivAt c dc t) :
    ∃ d, momentQuadratureJvp B (s t) ds dm (c t) dc sort = some d ∧ ∀ F : ℝ → ℝ → ℝ, Joint 1 t F →
      HasDerivAt (fun u => ∑ i, (momentQuadrature B (s u) (m u) (c u) sort false).1 i * F u ((momentQuadrature B (s u) (m u) (c u) sort false).2 i))
        (∑ i, (d.1 i * F t ((momentQuadrature B (s t) (m t) (c t) sort false).2 i)
          + (momentQuadrature B (s t) (m t) (c t) sort false).1 i
            * fderiv ℝ (fun p : ℝ × ℝ => F p.1 p.2) (t, (momentQuadrature B (s t) (m t) (c t) sort false).2 i) (1, d.2 i))) t := by
  obtain ⟨hKs, hK, hinj⟩ := kmat_data hB sort hs hl hd hpd
  rcases Nat.eq_zero_or_pos (n / 2) with h0 | h
  · have he : ∀ u, IsEmpty (Fin ((s u).length / 2)) := fun u => by rw [hs.len, h0]; infer_instance
    have : Function.Injective (B.eigh sort (symmetrize (orthonormalise (B.chol (symmetrize (gather (s t) (hankelIndices ((s t).length / 2)).1)))
        (gather (s t) (hankelIndices ((s t).length / 2)).2)))).2 := fun i => ((he t).false i).elim
    refine ⟨_, by rw [momentQuadratureJvp, eighJvp, if_pos this]; rfl, fun F _ => ?_⟩
    simp only [Finset.univ_eq_empty_iff.2 (he _), Finset.sum_empty]
    exact hasDerivAt_const _ _
  obtain ⟨d, hdj, hsum⟩ := jvp_core (B := B) (sort := sort) (s t) ds (hs.len t) h hinj (m t) dm (c t) dc
  refine ⟨d, hdj, fun F hF => ?_⟩
  rw [hsum (F t) fun x dx => fderiv ℝ (fun p : ℝ × ℝ => F p.1 p.2) (t, x) (1, dx)]
  have hint : (fun u => ∑ i, (momentQuadrature B (s u) (m u) (c u) sort false).1 i * F u ((momentQuadrature B (s u) (m u) (c u) sort false).2 i))
      = fun u => integND (coreRule h fun _ : Fin 1 => B.eigh sort (kmat B n (s u))) fun x => F u (c u * x.getD 0 0 + m u) :=
    funext fun u => integ_core (s u) (hs.len u) h (m u) (c u) sort (F u)
  rw [hint]
  have hcomp : ∀ v : Fin 1 → ℝ, ContDiffAt ℝ 1 (fun p : ℝ × (Fin 1 → ℝ) => (p.1, c p.1 * p.2 0 + m p.1)) (t, v) := fun v => by
    have h1 : ContDiffAt ℝ 1 (fun p : ℝ × (Fin 1 → ℝ) => c p.1) (t, v) := ContDiffAt.comp (g := c) (t, v) hc contDiffAt_fst
    have h2 : ContDiffAt ℝ 1 (fun p : ℝ × (Fin 1 → ℝ) => m p.1) (t, v) := ContDiffAt.comp (g := m) (t, v) hm contDiffAt_fst
    have h3 : ContDiffAt ℝ 1 (fun p : ℝ × (Fin 1 → ℝ) => p.2 0) (t, v) := ((contDiff_apply ℝ ℝ 0).comp contDiff_snd).contDiffAt
    exact contDiffAt_fst.prodMk ((h1.mul h3).add h2)
  refine core_jvp h le_rfl (K := fun u _ => kmat B n (s u)) (K' := fun _ => dkmat B n (s t) ds) (e := fun u _ => B.eigh sort (kmat B n (s u)))
    (fun _ => hKs) (fun _ => hK) (Eventually.of_forall fun u _ => hB.eigh sort _ (symmetrize_isSymm _)) (fun _ => hinj)
    (F := fun u x => F u (c u * x.getD 0 0 + m u)) (fun v => ?_) (fun v dv => ?_)
  · simp only [List.ofFn_succ, List.ofFn_zero, List.getD_cons_zero]
    exact ContDiffAt.comp (g := fun p : ℝ × ℝ => F p.1 p.2) (t, v) (hF _) (hcomp v)
  · simp only [List.ofFn_succ, List.ofFn_zero, List.getD_cons_zero]
    have h4 : HasFDerivAt (fun p : ℝ × ℝ => F p.1 p.2) (fderiv ℝ (fun p : ℝ × ℝ => F p.1 p.2) (t, c t * v 0 + m t)) (t, c t * v 0 + m t) :=
      ((hF (c t * v 0 + m t)).differentiableAt one_ne_zero).hasFDerivAt
    have h5 : HasFDerivAt (fun p : ℝ × (Fin 1 → ℝ) => (p.1, c p.1 * p.2 0 + m p.1)) _ (t, v) := ((hcomp v).differentiableAt one_ne_zero).hasFDerivAt
    have h6 : fderiv ℝ (fun p : ℝ × (Fin 1 → ℝ) => F p.1 (c p.1 * p.2 0 + m p.1)) (t, v)
        = (fderiv ℝ (fun p : ℝ × ℝ => F p.1 p.2) (t, c t * v 0 + m t)).comp (fderiv ℝ (fun p : ℝ × (Fin 1 → ℝ) => (p.1, c p.1 * p.2 0 + m p.1)) (t, v)) :=
      (HasFDerivAt.comp (g := fun p : ℝ × ℝ => F p.1 p.2) (t, v) h4 h5).fderiv
    rw [h6, ContinuousLinearMap.comp_apply]
    congr 1
    have hcur : HasDerivAt (fun u : ℝ => (u, fun j : Fin 1 => v j + (u - t) * dv j)) (1, dv) t := by
      refine (hasDerivAt_id t).prodMk (hasDerivAt_pi.2 fun j => ?_)
      simpa using (((hasDerivAt_id t).sub_const t).mul_const (dv j)).const_add (v j)
    have hcur0 : ((t, fun j : Fin 1 => v j + (t - t) * dv j) : ℝ × (Fin 1 → ℝ)) = (t, v) := by simp
    rw [← hcur0] at h5
    have h7 := h5.comp_hasDerivAt t hcur
    rw [hcur0] at h7
    have h8 : HasDerivAt (fun u : ℝ => (u, c u * (v 0 + (u - t) * dv 0) + m u)) (1, dc * v 0 + c t * dv 0 + dm) t := by
      have h9 : HasDerivAt (fun u : ℝ => v 0 + (u - t) * dv 0) (dv 0) t := by
        simpa using (((hasDerivAt_id t).sub_const t).mul_const (dv 0)).const_add (v 0)
      have h10 := (hdc.mul h9).add hdm
      refine (hasDerivAt_id t).prodMk (h10.congr_deriv ?_)
      simp
    exact h8.unique h7

theorem jvp_affine (ms dms : List ℝ) (dmean scale dscale : ℝ) (sort : Bool) :
    momentQuadratureJvp B ms dms dmean scale dscale sort = (momentQuadratureJvp B ms dms 0 1 0 sort).map
      fun d => (d.1, fun i => dscale * (momentQuadrature B ms 0 1 sort false).2 i + scale * d.2 i + dmean) := by
  have h : (momentQuadrature B ms 0 1 sort false).2 = (B.eigh sort (symmetrize (orthonormalise (B.chol (symmetrize (gather ms (hankelIndices (ms.length / 2)).1)))
      (gather ms (hankelIndices (ms.length / 2)).2)))).2 := funext fun i => by simp [momentQuadrature]
  simp only [h, momentQuadratureJvp, Option.map_map, Function.comp_def, zero_mul, one_mul, zero_add, add_zero]

/-- **C171, nodes.** With `sort_nodes` the tangents are the derivatives of every single weight and every single node. -/
theorem C171_nodes_jvp (hB : B.Valid) (s : ℝ → Fin n → ℝ) (ds : Fin n → ℝ) (hs : ContDiffAt ℝ 1 s t) (hd : HasDerivAt s ds t)
    (hpd : (gramOf (List.ofFn (s t))).PosDef) (m c : ℝ → ℝ) (dm dc : ℝ) (hdm : HasDerivAt m dm t) (hdc : HasDerivAt c dc t) :
    ∃ d, momentQuadratureJvp B (List.ofFn (s t)) (List.ofFn ds) dm (c t) dc true = some d ∧ ∀ j : Fin (n / 2),
      HasDerivAt (fun u => (momentQuadrature B (List.ofFn (s u)) (m u) (c u) true false).1 (Fin.cast (by simp) j)) (d.1 (Fin.cast (by simp) j)) t ∧
      HasDerivAt (fun u => (momentQuadrature B (List.ofFn (s u)) (m u) (c u) true false).2 (Fin.cast (by simp) j)) (d.2 (Fin.cast (by simp) j)) t := by
  have hS : Sm 1 t n fun u => List.ofFn (s u) := Sm.ofFn hs
  have hget : ∀ (v : Fin n → ℝ) (k : ℕ) (hk : k < n), (List.ofFn v).getD k 0 = v ⟨k, hk⟩ := fun v k hk => by
    rw [List.getD_eq_getElem _ _ (by simpa using hk), List.getElem_ofFn]
  obtain ⟨d, hdj, hF⟩ := C171_rule_jvp hB true (fun u => List.ofFn (s u)) hS (List.ofFn ds) List.length_ofFn
    (fun k hk => by simpa only [hget _ k hk] using hasDerivAt_pi.1 hd ⟨k, hk⟩) hpd (fun _ => 0) (fun _ => 1) 0 0 contDiffAt_const contDiffAt_const
    (hasDerivAt_const _ _) (hasDerivAt_const _ _)
  refine ⟨_, by rw [jvp_affine, hdj]; rfl, ?_⟩
  have hlen : ∀ v : Fin n → ℝ, (List.ofFn v).length = n := fun v => List.length_ofFn
  set a : ℝ → (Fin (n / 2) → ℝ) × (Fin (n / 2) → ℝ) := fun u => nw B false (List.ofFn (s u)) (hlen (s u)) with hadef
  have ha : ContDiffAt ℝ 1 a t := contDiffAt_nw B hB hS hpd false
  obtain ⟨a', ha'⟩ : ∃ a', HasDerivAt a a' t := ⟨_, (ha.differentiableAt one_ne_zero).hasDerivAt⟩
  have hmom : HasDerivAt (fun u => momMap (n / 2) (a u)) (momDeriv (a t) a') t := (hasFDerivAt_momMap (a t)).comp_hasDerivAt t ha'
  obtain ⟨-, hw, hx, -⟩ := nw_spec B hB false (List.ofFn (s t)) (hlen _) ((gram_posDef_iff (hlen _)).1 hpd)
  have hcast : ∀ (v : Fin n → ℝ) (g : Fin ((List.ofFn v).length / 2) → ℝ), ∑ i, g i = ∑ i : Fin (n / 2), g (Fin.cast (by simp) i) := fun v g =>
    (Fintype.sum_equiv (finCongr (show n / 2 = (List.ofFn v).length / 2 by simp)) (fun i => g (Fin.cast (by simp) i)) g fun i => rfl).symm
  set d0 : (Fin (n / 2) → ℝ) × (Fin (n / 2) → ℝ) := (fun i => d.1 (Fin.cast (by simp) i), fun i => d.2 (Fin.cast (by simp) i)) with hd0
  have hk : ∀ k : Fin (2 * (n / 2)), momDeriv (a t) a' k = momDeriv (a t) d0 k := by
    intro k
    have h1 := hF (fun _ x => x ^ (k : ℕ)) fun x => contDiffAt_snd.pow _
    have h2 : (fun u => ∑ i, (momentQuadrature B (List.ofFn (s u)) 0 1 true false).1 i * (momentQuadrature B (List.ofFn (s u)) 0 1 true false).2 i ^ (k : ℕ))
        = fun u => momMap (n / 2) (a u) k := funext fun u => hcast (s u) _
    rw [h2] at h1
    refine ((hasDerivAt_pi.1 hmom) k).unique (h1.congr_deriv ?_)
    rw [hcast (s t), momDeriv_apply]
    refine Finset.sum_congr rfl fun i _ => ?_
    have h3 : ∀ x dx : ℝ, fderiv ℝ (fun p : ℝ × ℝ => p.2 ^ (k : ℕ)) (t, x) (1, dx) = (k : ℕ) * x ^ ((k : ℕ) - 1) * dx := fun x dx => by
      have h5 : HasFDerivAt (fun p : ℝ × ℝ => p.2) (ContinuousLinearMap.snd ℝ ℝ ℝ) (t, x) := hasFDerivAt_snd
      have h4 : HasFDerivAt (fun p : ℝ × ℝ => p.2 ^ (k : ℕ)) (((k : ℕ) * x ^ ((k : ℕ) - 1)) • ContinuousLinearMap.snd ℝ ℝ ℝ) (t, x) :=
        HasDerivAt.comp_hasFDerivAt (h₂ := fun y : ℝ => y ^ (k : ℕ)) (t, x) (hasDerivAt_pow (k : ℕ) x) h5
      rw [h4.fderiv]
      simp
    rw [h3, add_comm, mul_comm (d.1 _)]
    rfl
  have he : a' = d0 := momDeriv_injective (fun i => (hw i).ne') hx.injective (funext hk)
  have e1 : ∀ i, HasDerivAt (fun u => (a u).1 i) (d0.1 i) t :=
    hasDerivAt_pi.1 (he ▸ (ContinuousLinearMap.fst ℝ (Fin (n / 2) → ℝ) (Fin (n / 2) → ℝ)).hasFDerivAt.comp_hasDerivAt t ha')
  have e2 : ∀ i, HasDerivAt (fun u => (a u).2 i) (d0.2 i) t :=
    hasDerivAt_pi.1 (he ▸ (ContinuousLinearMap.snd ℝ (Fin (n / 2) → ℝ) (Fin (n / 2) → ℝ)).hasFDerivAt.comp_hasDerivAt t ha')
  intro j
  refine ⟨e1 j, ?_⟩
  have h5 : (fun u => (momentQuadrature B (List.ofFn (s u)) (m u) (c u) true false).2 (Fin.cast (by simp) j)) = fun u => c u * (a u).2 j + m u :=
    funext fun u => by simp [hadef, nw, momentQuadrature]
  rw [h5]
  exact (hdc.mul (e2 j)).add hdm

/-- the hypotheses at a curve through the moments of the standard normal law, along which the second moment grows. -/
example : theBackend.Valid ∧ (ContDiffAt ℝ 1 (fun u : ℝ => ![(1 : ℝ), 0, 1 + u, 0]) 0) ∧ HasDerivAt (fun u : ℝ => ![(1 : ℝ), 0, 1 + u, 0]) ![0, 0, 1, 0] 0 ∧
    (gramOf (List.ofFn ((fun u : ℝ => ![(1 : ℝ), 0, 1 + u, 0]) 0))).PosDef :=
  ⟨theBackend_valid, contDiffAt_pi.2 fun i => by fin_cases i <;> simp <;> fun_prop,
    hasDerivAt_pi.2 fun i => by
      fin_cases i
      · exact hasDerivAt_const _ _
      · exact hasDerivAt_const _ _
      · simpa using (hasDerivAt_id (0 : ℝ)).const_add 1
      · exact hasDerivAt_const _ _, by
    have : List.ofFn ((fun u : ℝ => ![(1 : ℝ), 0, 1 + u, 0]) 0) = [1, 0, 1, 0] := by simp [List.ofFn_succ]
    exact (congrArg (fun l => (gramOf l).PosDef) this).mpr gramOf_example⟩

end Mfs.Props

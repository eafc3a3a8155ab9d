import Verif.Lemmas.FilterJvp

/-!
# Forward mode of the multidimensional rule: lemmas
-/

namespace Mfs.Jvp

open Matrix Mfs.Spec Filter Topology Mfs.Quad1 Mfs.QuadND Mfs.Cont Mfs.Smooth Mfs.Props Mfs.Spectral

variable {N d : ℕ} {basis full : List (List ℕ)} {mats : List (List (List ℤ))} {t : ℝ} {B : Backend}

/-- `dF` is the derivative of `F` in the direction that moves the parameter with speed one. -/
def JDN (t : ℝ) (d : ℕ) (F : ℝ → List ℝ → ℝ) (dF : List ℝ → List ℝ → ℝ) : Prop :=
  JointND 1 t d F ∧ ∀ v dv : Fin d → ℝ, dF (List.ofFn v) (List.ofFn dv) = fderiv ℝ (fun p : ℝ × (Fin d → ℝ) => F p.1 (List.ofFn p.2)) (t, v) (1, dv)

/-- along any curve of nodes. -/
theorem JDN.curve {F : ℝ → List ℝ → ℝ} {dF : List ℝ → List ℝ → ℝ} (h : JDN t d F dF) {x : ℝ → Fin d → ℝ} {dx : Fin d → ℝ}
    (hx : ∀ j, HasDerivAt (fun u => x u j) (dx j) t) : HasDerivAt (fun u => F u (List.ofFn (x u))) (dF (List.ofFn (x t)) (List.ofFn dx)) t := by
  have h1 : HasFDerivAt (fun p : ℝ × (Fin d → ℝ) => F p.1 (List.ofFn p.2)) (fderiv ℝ (fun p : ℝ × (Fin d → ℝ) => F p.1 (List.ofFn p.2)) (t, x t)) (t, x t) :=
    ((h.1 (x t)).differentiableAt one_ne_zero).hasFDerivAt
  have h2 : HasDerivAt (fun u : ℝ => (u, x u)) (1, dx) t := (hasDerivAt_id t).prodMk (hasDerivAt_pi.2 hx)
  rw [h.2]
  exact h1.comp_hasDerivAt t h2

theorem JDN.of_curve {F : ℝ → List ℝ → ℝ} {dF : List ℝ → List ℝ → ℝ} (h : JointND 1 t d F)
    (hd : ∀ x dx : Fin d → ℝ, HasDerivAt (fun u => F u (List.ofFn fun j => x j + (u - t) * dx j)) (dF (List.ofFn x) (List.ofFn dx)) t) : JDN t d F dF := by
  refine ⟨h, fun x dx => (hd x dx).unique ?_⟩
  have h2 := JDN.curve (F := F) (dF := fun v dv => fderiv ℝ (fun p : ℝ × (Fin d → ℝ) => F p.1 (List.ofFn p.2)) (t, fun j : Fin d => v.getD j 0) (1, fun j : Fin d => dv.getD j 0))
    ⟨h, fun v dv => by simp [List.getD_eq_getElem?_getD]⟩ (x := fun u j => x j + (u - t) * dx j) (dx := dx) fun j => hasDerivAt_line (x j) (dx j)
  simpa [List.getD_eq_getElem?_getD] using h2

/-- the derivative of a smooth integrand. -/
theorem JDN.fderiv {F : ℝ → List ℝ → ℝ} (h : JointND 1 t d F) : JDN t d F fun x dx =>
    _root_.fderiv ℝ (fun p : ℝ × (Fin d → ℝ) => F p.1 (List.ofFn p.2)) (t, fun j : Fin d => x.getD j 0) (1, fun j : Fin d => dx.getD j 0) :=
  ⟨h, fun v dv => by simp [List.getD_eq_getElem?_getD]⟩

theorem JDN.comp {F : ℝ → List ℝ → ℝ} {dF : List ℝ → List ℝ → ℝ} (hF : JDN t d F dF) {w : ℝ → List ℝ → List ℝ} {dw : List ℝ → List ℝ → List ℝ}
    {W : ℝ → (Fin d → ℝ) → Fin d → ℝ} {dW : (Fin d → ℝ) → (Fin d → ℝ) → Fin d → ℝ} (hw : ∀ u x, w u (List.ofFn x) = List.ofFn (W u x))
    (hdw : ∀ x dx, dw (List.ofFn x) (List.ofFn dx) = List.ofFn (dW x dx))
    (hW : ∀ x j, ContDiffAt ℝ 1 (fun p : ℝ × (Fin d → ℝ) => W p.1 p.2 j) (t, x))
    (hdW : ∀ x dx j, HasDerivAt (fun u => W u (fun j => x j + (u - t) * dx j) j) (dW x dx j) t) :
    JDN t d (fun u x => F u (w u x)) fun x dx => dF (w t x) (dw x dx) := by
  refine JDN.of_curve (JointND.comp (r := 1) hF.1 hw hW) fun x dx => ?_
  simp only [hw, hdw]
  have h := hF.curve (x := fun u => W u fun j => x j + (u - t) * dx j) (dx := dW x dx) fun j => hdW x dx j
  simpa using h

/-! ### the decompositions -/

/-- the decomposition of the `j`-th multiplication matrix, without and with its tangent. -/
noncomputable def edN (B : Backend) (sort : Bool) (z : ℕ) (mats : List (List (List ℤ))) (ms : List ℝ) (j : ℕ) : Matrix (Fin z) (Fin z) ℝ × (Fin z → ℝ) :=
  B.eigh sort (symmetrize (orthonormalise (B.chol (symmetrize (gatherL ms z (mats.getD 0 [])))) (gatherL ms z (mats.getD (j + 1) []))))

noncomputable def dkN (B : Backend) (z : ℕ) (mats : List (List (List ℤ))) (ms dms : List ℝ) (j : ℕ) : Matrix (Fin z) (Fin z) ℝ :=
  symmetrize (orthonormaliseJvp (B.chol (symmetrize (gatherL ms z (mats.getD 0 []))))
    (cholJvp (B.chol (symmetrize (gatherL ms z (mats.getD 0 [])))) (symmetrize (gatherL dms z (mats.getD 0 []))))
    (gatherL ms z (mats.getD (j + 1) [])) (gatherL dms z (mats.getD (j + 1) [])))

theorem allSome_ofFn {α : Type} {n : ℕ} (P : Fin n → Prop) [DecidablePred P] [Decidable (∀ j, P j)] (x : Fin n → α) :
    (List.ofFn fun j => if P j then some (x j) else none).allSome = if ∀ j, P j then some (List.ofFn x) else none := by
  induction n with
  | zero => simp [List.allSome]
  | succ n ih =>
    classical
    have h := ih (fun j => P j.succ) (fun j => x j.succ)
    simp only [List.allSome] at h ⊢
    rw [List.ofFn_succ, List.mapM_cons, h]
    by_cases h0 : P 0
    · by_cases hs : ∀ j : Fin n, P j.succ
      · have : ∀ j, P j := fun j => Fin.cases h0 hs j
        simp [h0, hs, this, List.ofFn_succ]
      · have : ¬ ∀ j, P j := fun h => hs fun j => h _
        simp [h0, hs, this]
    · have : ¬ ∀ j, P j := fun h => h0 (h _)
      simp [h0, this]

theorem tail_map_ofFn (T : Tables N d basis full mats) {α : Type*} (f : List (List ℤ) → α) :
    mats.tail.map f = List.ofFn fun j : Fin d => f (mats.getD (j + 1) []) := by
  have hl := T.mats_len
  apply List.ext_getElem
  · simp [hl]
  · intro i h1 h2
    simp only [List.getElem_map, List.getElem_tail, List.getElem_ofFn]
    rw [List.getD_eq_getElem _ _ (by simp at h1; omega)]

open _root_.Classical in
theorem ndJvp_eq' (T : Tables N d basis full mats) {z : ℕ} (hz : (mats.getD 0 []).length = z) (h0 : 0 < z) (ms dms : List ℝ) (mean dmean scale dscale : Option (List ℝ)) (sort : Bool) :
    momentQuadratureNDJvp B ms dms mats mean dmean scale dscale sort
      = if ∀ j : Fin d, Function.Injective (edN B sort z mats ms j).2 then
          some (List.zipWith (fun p q => (q.1, affineNodeJvp mean dmean scale dscale p.2 q.2))
            (coreRule h0 fun j : Fin d => edN B sort z mats ms j)
            (coreJvp h0 d (edual (fun j : Fin d => edN B sort z mats ms j) fun j => dkN B z mats ms dms j)))
        else none := by
  subst hz
  rw [momentQuadratureNDJvp]
  simp only [T.mats_len, Nat.add_sub_cancel]
  simp only [tail_map_ofFn T, eighJvp]
  have h := allSome_ofFn (fun j : Fin d => Function.Injective (edN B sort (mats.getD 0 []).length mats ms j).2)
    (fun j : Fin d => (tanU (edN B sort (mats.getD 0 []).length mats ms j).1 (edN B sort (mats.getD 0 []).length mats ms j).2 (dkN B (mats.getD 0 []).length mats ms dms j),
      tanL (edN B sort (mats.getD 0 []).length mats ms j).1 (dkN B (mats.getD 0 []).length mats ms dms j)))
  unfold edN dkN tanU tanL at h
  rw [h]
  by_cases hinj : ∀ j : Fin d, Function.Injective (edN B sort (mats.getD 0 []).length mats ms j).2
  · have h2 := hinj
    unfold edN at h2
    rw [if_pos h2, if_pos hinj, Option.map_some, dif_pos h0]
    congr 1
    rw [coreRule, coreJvp, List.zipWith_map]
    simp only [ndCartesianProd, edual, List.zip, List.zipWith_map_left, List.zipWith_map_right, List.zipWith_self, List.map_ofFn, zip_ofFn, Function.comp_def]
    rfl
  · have h2 := hinj
    unfold edN at h2
    rw [if_neg h2, if_neg hinj]
    rfl

open _root_.Classical in
theorem ndJvp_eq (T : Tables N d basis full mats) (ms dms : List ℝ) (mean dmean scale dscale : Option (List ℝ)) (sort : Bool) :
    momentQuadratureNDJvp B ms dms mats mean dmean scale dscale sort
      = if ∀ j : Fin d, Function.Injective (edN B sort basis.length mats ms j).2 then
          some (List.zipWith (fun p q => (q.1, affineNodeJvp mean dmean scale dscale p.2 q.2))
            (coreRule (mats_zero_len T).2 fun j : Fin d => edN B sort basis.length mats ms j)
            (coreJvp (mats_zero_len T).2 d (edual (fun j : Fin d => edN B sort basis.length mats ms j) fun j => dkN B basis.length mats ms dms j)))
        else none :=
  ndJvp_eq' T (mats_zero_len T).1 _ ms dms mean dmean scale dscale sort

theorem integND_edN (T : Tables N d basis full mats) (ms : List ℝ) (mean scale : Option (List ℝ)) (sort : Bool) (F : List ℝ → ℝ) :
    integND (momentQuadratureND B ms mats mean scale sort false) F
      = integND (coreRule (mats_zero_len T).2 fun j : Fin d => edN B sort basis.length mats ms j) fun x => F (affineNode mean scale x) := by
  rw [rule_core T, quadCore_core B (mats_zero_len T).2]
  rfl

theorem rule_edN' (T : Tables N d basis full mats) {z : ℕ} (hz : (mats.getD 0 []).length = z) (h0 : 0 < z) (ms : List ℝ) (mean scale : Option (List ℝ)) (sort : Bool) :
    momentQuadratureND B ms mats mean scale sort false
      = (coreRule h0 fun j : Fin d => edN B sort z mats ms j).map fun p => (p.1, affineNode mean scale p.2) := by
  subst hz
  rw [momentQuadratureND, quadCore_affine]
  simp only [T.mats_len, Nat.add_sub_cancel]
  rw [tail_ofFn T, quadCore_core B h0]
  rfl

theorem rule_edN (T : Tables N d basis full mats) (ms : List ℝ) (mean scale : Option (List ℝ)) (sort : Bool) :
    momentQuadratureND B ms mats mean scale sort false
      = (coreRule (mats_zero_len T).2 fun j : Fin d => edN B sort basis.length mats ms j).map fun p => (p.1, affineNode mean scale p.2) :=
  rule_edN' T (mats_zero_len T).1 _ ms mean scale sort

theorem kmatN_data (T : Tables N d basis full mats) (hB : B.Valid) {s : ℝ → List ℝ} {ds : List ℝ} (hs : SmD t full.length s ds)
    (hpd : (gramOn basis (momentAt full (s t))).PosDef) (j : Fin d) :
    (∀ a b, ContDiffAt ℝ 1 (fun u => symmetrize (orthonormalise (B.chol (symmetrize (gatherL (s u) basis.length (mats.getD 0 [])))) (gatherL (s u) basis.length (mats.getD (j + 1) []))) a b) t) ∧
    MDeriv (fun u => symmetrize (orthonormalise (B.chol (symmetrize (gatherL (s u) basis.length (mats.getD 0 [])))) (gatherL (s u) basis.length (mats.getD (j + 1) []))))
      (dkN B basis.length mats (s t) ds j) t := by
  have mG : ∀ M, MDeriv (fun u => gatherL (s u) basis.length M) (gatherL ds basis.length M) t := by
    intro M a b
    simp only [gatherL, Matrix.of_apply, jget, hs.1.len, hs.2.1]
    have key : ∀ k, HasDerivAt (fun u => (s u).getD k 0) (ds.getD k 0) t := by
      intro k
      by_cases hk : k < full.length
      · exact hs.2.2 k hk
      · have h1 : ∀ L : List ℝ, L.length = full.length → L.getD k 0 = 0 := fun L hL => by
          rw [List.getD_eq_default _ _ (by omega)]
        simp only [h1 _ (hs.1.len _), h1 _ hs.2.1]
        exact hasDerivAt_const _ _
    exact key _
  have sG : ∀ M a b, ContDiffAt ℝ 1 (fun u => gatherL (s u) basis.length M a b) t := fun M a b => smooth_gather (r := 1) hs.1 M a b
  have sGs : ∀ a b, ContDiffAt ℝ 1 (fun u => symmetrize (gatherL (s u) basis.length (mats.getD 0 [])) a b) t := by
    intro a b
    simp only [symmetrize, Matrix.smul_apply, Matrix.add_apply, Matrix.transpose_apply, smul_eq_mul]
    exact contDiffAt_const.mul ((sG _ a b).add (sG _ b a))
  have hR : ∀ᶠ u in 𝓝 t, IsChol (symmetrize (gatherL (s u) basis.length (mats.getD 0 []))) (B.chol (symmetrize (gatherL (s u) basis.length (mats.getD 0 [])))) := by
    filter_upwards [eventually_gramND hs.1.lconv hpd] with u hu
    rw [gather_gram T _ (hs.1.len u), symmetrize_eq (gramOn_isSymm _ _)]
    exact hB.chol _ hu
  have h0 := hR.self_of_nhds
  have sR := chol_smooth sGs hR
  have hdet := h0.isUnit_det.ne_zero
  have mR := chol_jvp sGs (mG _).symm hR
  have hlow : ∀ᶠ u in 𝓝 t, IsLower (B.chol (symmetrize (gatherL (s u) basis.length (mats.getD 0 [])))) := hR.mono fun u hu => hu.lower
  refine ⟨fun a b => ?_, (orth_jvp sR mR (mG _) hlow hdet).symm⟩
  have hmm := multMat_smooth sR (sG (mats.getD (j + 1) [])) hdet
  have h1 : ContDiffAt ℝ 1 (fun u => symmetrize (multMat (B.chol (symmetrize (gatherL (s u) basis.length (mats.getD 0 [])))) (gatherL (s u) basis.length (mats.getD (j + 1) []))) a b) t := by
    simp only [symmetrize, Matrix.smul_apply, Matrix.add_apply, Matrix.transpose_apply, smul_eq_mul]
    exact contDiffAt_const.mul ((hmm a b).add (hmm b a))
  refine h1.congr_of_eventuallyEq ?_
  filter_upwards [hlow] with u hu
  rw [orthonormalise_eq (G := gatherL (s u) basis.length (mats.getD 0 [])) hu]

/-- forward mode of the rule, for any change of variable. -/
theorem ndRule_jvp (T : Tables N d basis full mats) (hB : B.Valid) {s : ℝ → List ℝ} {ds : List ℝ} (hs : SmD t full.length s ds)
    (hpd : (gramOn basis (momentAt full (s t))).PosDef) {mean scale : ℝ → Option (List ℝ)} {dmean dscale : Option (List ℝ)} {sort : Bool} {L : List (ℝ × List ℝ)}
    (hL : momentQuadratureNDJvp B (s t) ds mats (mean t) dmean (scale t) dscale sort = some L) {F : ℝ → List ℝ → ℝ} {dF : List ℝ → List ℝ → ℝ}
    (hF : JDN t d (fun u x => F u (affineNode (mean u) (scale u) x))
      fun x dx => dF (affineNode (mean t) (scale t) x) (affineNodeJvp (mean t) dmean (scale t) dscale x dx)) :
    HasDerivAt (fun u => integND (momentQuadratureND B (s u) mats (mean u) (scale u) sort false) (F u))
      (integJvp (momentQuadratureND B (s t) mats (mean t) (scale t) sort false) L (F t) dF) t := by
  classical
  rw [ndJvp_eq T] at hL
  by_cases hinj : ∀ j : Fin d, Function.Injective (edN B sort basis.length mats (s t) j).2
  · rw [if_pos hinj, Option.some.injEq] at hL
    have h := core_jvp (mats_zero_len T).2 T.hd (fun j => (kmatN_data T hB hs hpd j).1) (fun j => (kmatN_data T hB hs hpd j).2)
      (e := fun u (j : Fin d) => edN B sort basis.length mats (s u) j)
      (Eventually.of_forall fun u j => hB.eigh sort _ (symmetrize_isSymm _)) hinj (F := fun u x => F u (affineNode (mean u) (scale u) x)) hF.1
      (dF := fun x dx => dF (affineNode (mean t) (scale t) x) (affineNodeJvp (mean t) dmean (scale t) dscale x dx)) hF.2
    simp only [integND_edN T]
    refine h.congr_deriv ?_
    rw [← hL, rule_edN T, integJvp, integJvp]
    congr 1
    rw [List.zipWith_map_left]
    generalize coreRule (mats_zero_len T).2 (fun j : Fin d => edN B sort basis.length mats (s t) j) = A
    generalize coreJvp (mats_zero_len T).2 d (edual (fun j : Fin d => edN B sort basis.length mats (s t) j) fun j => dkN B basis.length mats (s t) ds j) = C
    induction A generalizing C with
    | nil => simp
    | cons a A ih =>
      cases C with
      | nil => simp
      | cons c C => simp [ih]
  · rw [if_neg hinj] at hL
    cases hL

end Mfs.Jvp

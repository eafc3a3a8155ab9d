import Verif.Lemmas.RuleCont
import Verif.Props.FilterNDEquiv

/-!
# Continuity of the multidimensional rule
-/

namespace Mfs.Cont

open Matrix Mfs.Spec Filter Topology Mfs.Quad1 Mfs.QuadND Mfs.Props

variable {ι : Type*} {l : Filter ι} {z d : ℕ}

/-- integrands on vectors of length `d` that converge jointly with the argument. -/
def DConv (l : Filter ι) (d : ℕ) (F : ι → List ℝ → ℝ) (F0 : List ℝ → ℝ) : Prop :=
  ∀ v : Fin d → ℝ, Tendsto (fun p : ι × (Fin d → ℝ) => F p.1 (List.ofFn p.2)) (l ×ˢ 𝓝 v) (𝓝 (F0 (List.ofFn v)))

theorem DConv.comp {F : ι → List ℝ → ℝ} {F0 : List ℝ → ℝ} (h : DConv l d F F0) {u : ι → Fin d → ℝ} {g : Filter ι} (hg : g ≤ l)
    {v : Fin d → ℝ} (hu : Tendsto u g (𝓝 v)) : Tendsto (fun i => F i (List.ofFn (u i))) g (𝓝 (F0 (List.ofFn v))) :=
  (h v).comp ((tendsto_id.mono_right hg).prodMk hu)

theorem DConv.const {F : List ℝ → ℝ} (hF : Continuous fun v : Fin d → ℝ => F (List.ofFn v)) : DConv l d (fun _ => F) F :=
  fun v => (hF.tendsto v).comp tendsto_snd

theorem DConv.mul {F G : ι → List ℝ → ℝ} {F0 G0 : List ℝ → ℝ} (hF : DConv l d F F0) (hG : DConv l d G G0) :
    DConv l d (fun i x => F i x * G i x) fun x => F0 x * G0 x := fun v => (hF v).mul (hG v)

/-- a jointly continuous function of a parameter that converges. -/
theorem DConv.param {P : Type*} [TopologicalSpace P] {F : P → List ℝ → ℝ} (hF : Continuous fun p : P × (Fin d → ℝ) => F p.1 (List.ofFn p.2))
    {u : ι → P} {u0 : P} (hu : Tendsto u l (𝓝 u0)) : DConv l d (fun i => F (u i)) (F u0) := fun v => by
  have h1 : Tendsto (fun p : ι × (Fin d → ℝ) => (u p.1, p.2)) (l ×ˢ 𝓝 v) (𝓝 (u0, v)) := by
    rw [nhds_prod_eq]
    exact (hu.comp tendsto_fst).prodMk tendsto_snd
  exact (hF.tendsto (u0, v)).comp h1

theorem zip_ofFn {α β γ : Type*} {n : ℕ} (f : α → β → γ) (a : Fin n → α) (b : Fin n → β) :
    List.zipWith f (List.ofFn a) (List.ofFn b) = List.ofFn fun i => f (a i) (b i) := by
  apply List.ext_getElem <;> simp

/-- the rule of a list of eigen-decompositions. -/
noncomputable def coreRule (h : 0 < z) (e : Fin d → Matrix (Fin z) (Fin z) ℝ × (Fin z → ℝ)) : List (ℝ × List ℝ) :=
  (ndCartesianProdIndices d z).map fun idx =>
    (weight h (List.zipWith (fun row i => row i) ((List.ofFn e).map fun e => fun i k => e.1 k i) idx),
      List.zipWith (fun row i => row i) ((List.ofFn e).map fun e => e.2) idx)

theorem coreRule_length (h : 0 < z) (e : Fin d → Matrix (Fin z) (Fin z) ℝ × (Fin z → ℝ)) : ∀ p ∈ coreRule h e, p.2.length = d := by
  intro p hp
  rw [coreRule, List.mem_map] at hp
  obtain ⟨idx, hidx, rfl⟩ := hp
  rw [ndCartesianProdIndices, mem_cartesianProd_replicate] at hidx
  simp [hidx.1]

theorem coreRule_prod (h : 0 < z) (hd : 1 ≤ d) (e : Fin d → Matrix (Fin z) (Fin z) ℝ × (Fin z → ℝ)) (fs : List (ℝ → ℝ)) (hl : fs.length = d) :
    integND (coreRule h e) (prodFun fs)
      = (List.zipWith (fun e f => funMat e.1 e.2 f) (List.ofFn e) fs).prod ⟨0, h⟩ ⟨0, h⟩ := by
  rw [coreRule, integND, List.map_map]
  set es := List.ofFn e with hes
  have hlen : es.length = d := by simp [hes]
  have := transfer ⟨0, h⟩ es fs (by rw [hl, hlen]) (Pi.single ⟨0, h⟩ 1)
  rw [single_one_dotProduct, Matrix.mulVec_single_one, Matrix.col_apply] at this
  rw [← this, ndCartesianProdIndices, hlen]
  congr 1
  apply List.map_congr_left
  intro idx hidx
  rw [mem_cartesianProd_replicate] at hidx
  simp only [Function.comp_def]
  congr 1
  obtain ⟨e', es', he⟩ : ∃ e' es', es = e' :: es' := by
    cases hq : es with
    | nil => rw [hq] at hlen; simp at hlen; omega
    | cons e es' => exact ⟨e, es', rfl⟩
  rw [he] at hlen ⊢
  obtain ⟨hi, _⟩ := hidx
  cases idx with
  | nil => simp at hi; omega
  | cons i idx => exact weight_eq h _ _

/-- different eigen-decompositions of the same matrices give rules that integrate alike. -/
theorem coreRule_unique (h : 0 < z) (hd : 1 ≤ d) {K : Fin d → Matrix (Fin z) (Fin z) ℝ} {e e' : Fin d → Matrix (Fin z) (Fin z) ℝ × (Fin z → ℝ)}
    (he : ∀ j, IsEigh (K j) (e j).1 (e j).2) (he' : ∀ j, IsEigh (K j) (e' j).1 (e' j).2) (F : List ℝ → ℝ) :
    integND (coreRule h e) F = integND (coreRule h e') F := by
  refine integND_eq_of_prod (coreRule_length h e) (coreRule_length h e') (fun fs hl => ?_) F
  rw [coreRule_prod h hd e fs hl, coreRule_prod h hd e' fs hl]
  have hz : List.zipWith (fun e f => funMat e.1 e.2 f) (List.ofFn e) fs = List.zipWith (fun e f => funMat e.1 e.2 f) (List.ofFn e') fs := by
    apply List.ext_getElem
    · simp
    · intro i h1 h2
      simp only [List.getElem_zipWith, List.getElem_ofFn]
      exact (he _).funMat_eq (he' _) _
  rw [hz]

theorem continuous_chain {X : Type*} [TopologicalSpace X] (Ls : List (X → Fin z → ℝ)) (h : ∀ f ∈ Ls, Continuous f) :
    Continuous fun x => chain (Ls.map fun f => f x) := by
  induction Ls with
  | nil => simpa [chain] using continuous_const
  | cons f Ls ih =>
    cases Ls with
    | nil => simpa [chain] using continuous_const
    | cons g Ls =>
      have h1 := ih fun k hk => h k (by simp [hk])
      have h2 : (fun x => chain ((f :: g :: Ls).map fun k => k x)) = fun x => (f x ⬝ᵥ g x) * chain ((g :: Ls).map fun k => k x) := by
        funext x
        simp [chain]
      rw [h2]
      exact ((h f (by simp)).dotProduct (h g (by simp))).mul h1

theorem continuous_weight {X : Type*} [TopologicalSpace X] (h0 : 0 < z) (Ls : List (X → Fin z → ℝ)) (h : ∀ f ∈ Ls, Continuous f) :
    Continuous fun x => weight h0 (Ls.map fun f => f x) := by
  unfold weight
  refine ((continuous_chain Ls h).mul ?_).mul ?_
  · cases Ls with
    | nil => simpa using continuous_const
    | cons f Ls => simpa [Function.comp_def] using (continuous_apply _).comp (h f (by simp))
  · rcases List.eq_nil_or_concat Ls with rfl | ⟨Ls', f, rfl⟩
    · simpa using continuous_const
    · simpa [List.getLastD_eq_getLast?, Function.comp_def] using (continuous_apply _).comp (h f (by simp))

theorem tendsto_coreRule (h : 0 < z) {g : Filter ι} (hg : g ≤ l) {e : ι → Fin d → Matrix (Fin z) (Fin z) ℝ × (Fin z → ℝ)} {e0 : Fin d → Matrix (Fin z) (Fin z) ℝ × (Fin z → ℝ)}
    (he : Tendsto e g (𝓝 e0)) {F : ι → List ℝ → ℝ} {F0 : List ℝ → ℝ} (hF : DConv l d F F0) :
    Tendsto (fun i => integND (coreRule h (e i)) (F i)) g (𝓝 (integND (coreRule h e0) F0)) := by
  simp only [integND, coreRule, List.map_map, Function.comp_def]
  refine tendsto_list_sum _ fun idx hidx => ?_
  rw [ndCartesianProdIndices, mem_cartesianProd_replicate] at hidx
  obtain ⟨ix, rfl⟩ : ∃ ix : Fin d → Fin z, idx = List.ofFn ix :=
    ⟨fun a => idx[a]'(by rw [hidx.1]; exact a.2), by apply List.ext_getElem <;> simp [hidx.1]⟩
  simp only [List.map_ofFn, Function.comp_def, zip_ofFn]
  refine Tendsto.mul ?_ (hF.comp hg (tendsto_pi_nhds.2 fun a => ?_))
  · have hc : Continuous fun e : Fin d → Matrix (Fin z) (Fin z) ℝ × (Fin z → ℝ) => weight h (List.ofFn fun a => fun k => (e a).1 k (ix a)) := by
      have := continuous_weight h (List.ofFn fun a => fun (e : Fin d → Matrix (Fin z) (Fin z) ℝ × (Fin z → ℝ)) k => (e a).1 k (ix a)) (by
        intro f hf
        rw [List.mem_ofFn] at hf
        obtain ⟨a, rfl⟩ := hf
        refine continuous_pi fun k => ?_
        exact (continuous_apply _).comp ((continuous_apply k).comp (continuous_fst.comp (continuous_apply a))))
      simpa only [List.map_ofFn, Function.comp_def] using this
    exact (hc.tendsto e0).comp he
  · have hc : Continuous fun e : Fin d → Matrix (Fin z) (Fin z) ℝ × (Fin z → ℝ) => (e a).2 (ix a) :=
      (continuous_apply (ix a)).comp (continuous_snd.comp (continuous_apply a))
    exact (hc.tendsto e0).comp he

theorem tendsto_symmetrize {A : ι → Matrix (Fin z) (Fin z) ℝ} {A0 : Matrix (Fin z) (Fin z) ℝ} (h : Tendsto A l (𝓝 A0)) :
    Tendsto (fun i => symmetrize (A i)) l (𝓝 (symmetrize A0)) := by
  have hc : Continuous fun A : Matrix (Fin z) (Fin z) ℝ => symmetrize A := by
    have h1 : Continuous fun A : Matrix (Fin z) (Fin z) ℝ => A + Aᵀ := continuous_id.add continuous_id.matrix_transpose
    exact h1.const_smul (1 / 2 : ℝ)
  exact (hc.tendsto A0).comp h

theorem symmetrize_isSymm (A : Matrix (Fin z) (Fin z) ℝ) : (symmetrize A).IsSymm := by
  rw [Matrix.IsSymm, symmetrize, Matrix.transpose_smul, Matrix.transpose_add, Matrix.transpose_transpose, add_comm]

theorem quadCore_core (B : Backend) (h : 0 < z) (G : Matrix (Fin z) (Fin z) ℝ) (H : Fin d → Matrix (Fin z) (Fin z) ℝ) (sort ldl : Bool) :
    quadCore B z d G (List.ofFn H) none none sort ldl
      = coreRule h fun j => B.eigh sort (symmetrize (orthonormalise (codeR B G ldl) (H j))) := by
  rw [quadCore_map B h, coreRule]
  simp only [affineNode, List.map_ofFn, Function.comp_def]

/-- the rule is continuous in the matrices and the integrand wherever the Gram matrix is positive definite. -/
theorem tendsto_quadCore (B : Backend) (hB : B.Valid) (h : 0 < z) (hd : 1 ≤ d) {G : ι → Matrix (Fin z) (Fin z) ℝ} {G0 : Matrix (Fin z) (Fin z) ℝ}
    (hG : Tendsto G l (𝓝 G0)) (hs : ∀ᶠ i in l, (G i).IsSymm) (hpd : G0.PosDef) {H : ι → Fin d → Matrix (Fin z) (Fin z) ℝ} {H0 : Fin d → Matrix (Fin z) (Fin z) ℝ}
    (hH : ∀ j, Tendsto (fun i => H i j) l (𝓝 (H0 j))) (sort ldl : Bool) {F : ι → List ℝ → ℝ} {F0 : List ℝ → ℝ} (hF : DConv l d F F0) :
    Tendsto (fun i => integND (quadCore B z d (G i) (List.ofFn (H i)) none none sort ldl) (F i)) l
      (𝓝 (integND (quadCore B z d G0 (List.ofFn H0) none none sort ldl) F0)) := by
  simp only [quadCore_core B h]
  have hR0 := codeR_isChol hB hpd ldl
  have hR : ∀ᶠ i in l, IsChol (G i) (codeR B (G i) ldl) := (eventually_posDef hG hs hpd).mono fun i hi => codeR_isChol hB hi ldl
  have hRt := tendsto_chol hG hR hR0
  have hK : ∀ j, Tendsto (fun i => symmetrize (orthonormalise (codeR B (G i) ldl) (H i j))) l (𝓝 (symmetrize (orthonormalise (codeR B G0 ldl) (H0 j)))) := by
    intro j
    refine tendsto_symmetrize ?_
    rw [orthonormalise_eq (G := G0) hR0.lower]
    refine (tendsto_multMat hRt (hH j) hR0).congr' ?_
    filter_upwards [hR] with i hi
    rw [orthonormalise_eq (G := G i) hi.lower]
  rw [tendsto_iff_ultrafilter]
  intro g hg
  choose U v hU hv hE using fun j => exists_lim_eigh g ((hK j).mono_left hg)
    (Eventually.of_forall fun i => hB.eigh sort _ (symmetrize_isSymm (orthonormalise (codeR B (G i) ldl) (H i j))))
  rw [coreRule_unique h hd (e := fun j => B.eigh sort (symmetrize (orthonormalise (codeR B G0 ldl) (H0 j)))) (e' := fun j => (U j, v j))
    (fun j => hB.eigh sort _ (symmetrize_isSymm _)) hE F0]
  refine tendsto_coreRule h hg (tendsto_pi_nhds.2 fun j => ?_) hF
  exact (hU j).prodMk_nhds (hv j)

/-! ### the rule of a moment vector -/

variable {N : ℕ} {basis full : List (List ℕ)} {mats : List (List (List ℤ))}

theorem list_eq_ofFn {n : ℕ} (L : List ℝ) (h : L.length = n) : L = List.ofFn fun j : Fin n => L.getD j 0 := by
  apply List.ext_getElem
  · simp [h]
  · intro i h1 h2
    simp only [List.getElem_ofFn]
    rw [List.getD_eq_getElem _ _ h1]

/-- a vector over the table is the table of its entries. -/
theorem full_eq_map (T : Tables N d basis full mats) (ms : List ℝ) (h : ms.length = full.length) : ms = full.map (momentAt full ms) := by
  have hnd : full.Nodup := by
    obtain ⟨t, ht, hs, _⟩ := C01_generate_complete d (2 * N - 1) 0 T.hd (by omega)
    rw [T.full_eq] at ht
    cases ht
    exact hs
  apply List.ext_getElem
  · simp [h]
  · intro i h1 h2
    rw [List.getElem_map, momentAt, hnd.idxOf_getElem]
    rw [List.getD_eq_getElem _ _ h1]

theorem gather_gram (T : Tables N d basis full mats) (ms : List ℝ) (h : ms.length = full.length) :
    gatherL ms basis.length (mats.getD 0 []) = gramOn basis (momentAt full ms) := by
  obtain ⟨_, _, _, hg, _⟩ := momentData (by have := T.hN; omega) T.hd (momentAt full ms) T.basis_eq T.full_eq T.mats_eq
  rw [← full_eq_map T ms h] at hg
  exact hg

theorem gramOn_isSymm (basis : List (List ℕ)) (μ : List ℕ → ℝ) : (gramOn basis μ).IsSymm := by
  ext a b
  simp only [gramOn, Matrix.transpose_apply, Matrix.of_apply]
  congr 1
  exact List.zipWith_comm_of_comm fun x y => add_comm x y

theorem mats_zero_len (T : Tables N d basis full mats) : (mats.getD 0 []).length = basis.length ∧ 0 < basis.length := by
  obtain ⟨h0, _, h, _⟩ := momentData (by have := T.hN; omega) T.hd (fun _ => 0) T.basis_eq T.full_eq T.mats_eq
  exact ⟨h, h0⟩

theorem tail_ofFn (T : Tables N d basis full mats) (ms : List ℝ) (z : ℕ) :
    (mats.tail.map fun M => gatherL ms z M) = List.ofFn fun j : Fin d => gatherL ms z (mats.getD (j + 1) []) := by
  have hl := T.mats_len
  apply List.ext_getElem
  · simp [hl]
  · intro i h1 h2
    simp only [List.getElem_map, List.getElem_tail, List.getElem_ofFn]
    rw [List.getD_eq_getElem _ _ (by simp at h1; omega)]

theorem rule_core (T : Tables N d basis full mats) (B : Backend) (ms : List ℝ) (mean scale : Option (List ℝ)) (sort ldl : Bool) (F : List ℝ → ℝ) :
    integND (momentQuadratureND B ms mats mean scale sort ldl) F
      = integND (quadCore B basis.length d (gatherL ms basis.length (mats.getD 0 [])) (List.ofFn fun j : Fin d => gatherL ms basis.length (mats.getD (j + 1) []))
        none none sort ldl) fun x => F (affineNode mean scale x) := by
  rw [momentQuadratureND, quadCore_affine]
  simp only [T.mats_len, Nat.add_sub_cancel]
  rw [(mats_zero_len T).1, tail_ofFn T, integND, integND, List.map_map]
  rfl

theorem LConv.gather {s : ι → List ℝ} {s0 : List ℝ} {n : ℕ} (h : LConv l n s s0) (M : List (List ℤ)) :
    Tendsto (fun i => gatherL (s i) z M) l (𝓝 (gatherL s0 z M)) := by
  refine tendsto_of_entries fun a b => ?_
  simp only [gatherL, Matrix.of_apply, jget, h.len, h.len0]
  exact h.lim' _

/-- nearby moment vectors are valid too. -/
theorem eventually_gramND {s : ι → List ℝ} {s0 : List ℝ} (h : LConv l full.length s s0)
    (hpd : (gramOn basis (momentAt full s0)).PosDef) : ∀ᶠ i in l, (gramOn basis (momentAt full (s i))).PosDef := by
  refine eventually_posDef (G0 := gramOn basis (momentAt full s0)) (tendsto_of_entries fun a b => h.lim' _)
    (Eventually.of_forall fun i => gramOn_isSymm _ _) hpd

/-- the rule without a change of variable is continuous in the moments and the integrand. -/
theorem tendsto_rule_raw (T : Tables N d basis full mats) (B : Backend) (hB : B.Valid) {s : ι → List ℝ} {s0 : List ℝ} (h : LConv l full.length s s0)
    (hpd : (gramOn basis (momentAt full s0)).PosDef) (sort ldl : Bool) {F : ι → List ℝ → ℝ} {F0 : List ℝ → ℝ} (hF : DConv l d F F0) :
    Tendsto (fun i => integND (momentQuadratureND B (s i) mats none none sort ldl) (F i)) l (𝓝 (integND (momentQuadratureND B s0 mats none none sort ldl) F0)) := by
  simp only [rule_core T]
  refine tendsto_quadCore B hB (mats_zero_len T).2 T.hd (h.gather _) (Eventually.of_forall fun i => ?_) ?_ (fun j => h.gather _) sort ldl hF
  · rw [gather_gram T _ (h.len i)]
    exact gramOn_isSymm _ _
  · rw [gather_gram T _ h.len0]
    exact hpd

theorem rule_affine (T : Tables N d basis full mats) (B : Backend) (ms : List ℝ) (mean scale : Option (List ℝ)) (sort ldl : Bool) (F : List ℝ → ℝ) :
    integND (momentQuadratureND B ms mats mean scale sort ldl) F
      = integND (momentQuadratureND B ms mats none none sort ldl) fun x => F (affineNode mean scale x) := by
  rw [rule_core T, rule_core T]
  rfl

theorem LConv.vec {m : ι → List ℝ} {m0 : List ℝ} (h : LConv l d m m0) :
    Tendsto (fun i => fun j : Fin d => (m i).getD j 0) l (𝓝 fun j : Fin d => m0.getD j 0) :=
  tendsto_pi_nhds.2 fun j => h.lim' j

theorem DConv.affine {F : ι → List ℝ → ℝ} {F0 : List ℝ → ℝ} (hF : DConv l d F F0) {m c : ι → List ℝ} {m0 c0 : List ℝ} (hm : LConv l d m m0)
    (hc : LConv l d c c0) : DConv l d (fun i x => F i (affineNode (some (m i)) (some (c i)) x)) fun x => F0 (affineNode (some m0) (some c0) x) := by
  intro v
  have key : ∀ (m c : List ℝ), m.length = d → c.length = d → ∀ v : Fin d → ℝ, affineNode (some m) (some c) (List.ofFn v)
      = List.ofFn fun j : Fin d => v j * c.getD j 0 + m.getD j 0 := by
    intro m c hm hc v
    conv_lhs => rw [list_eq_ofFn m hm, list_eq_ofFn c hc]
    simp only [affineNode, zip_ofFn]
  simp only [key _ _ hm.len0 hc.len0, key _ _ (hm.len _) (hc.len _)]
  have h1 : Tendsto (fun p : ι × (Fin d → ℝ) => (p.1, fun j : Fin d => p.2 j * (c p.1).getD j 0 + (m p.1).getD j 0)) (l ×ˢ 𝓝 v)
      (l ×ˢ 𝓝 fun j : Fin d => v j * c0.getD j 0 + m0.getD j 0) := by
    refine tendsto_fst.prodMk (tendsto_pi_nhds.2 fun j => ?_)
    exact ((((continuous_apply j).tendsto v).comp tendsto_snd).mul ((hc.lim' j).comp tendsto_fst)).add ((hm.lim' j).comp tendsto_fst)
  exact (hF _).comp h1

theorem DConv.shift {F : ι → List ℝ → ℝ} {F0 : List ℝ → ℝ} (hF : DConv l d F F0) {m : ι → List ℝ} {m0 : List ℝ} (hm : LConv l d m m0) :
    DConv l d (fun i x => F i (affineNode (some (m i)) none x)) fun x => F0 (affineNode (some m0) none x) := by
  intro v
  have key : ∀ (m : List ℝ), m.length = d → ∀ v : Fin d → ℝ, affineNode (some m) none (List.ofFn v) = List.ofFn fun j : Fin d => v j + m.getD j 0 := by
    intro m hm v
    conv_lhs => rw [list_eq_ofFn m hm]
    simp only [affineNode, zip_ofFn]
  simp only [key _ hm.len0, key _ (hm.len _)]
  have h1 : Tendsto (fun p : ι × (Fin d → ℝ) => (p.1, fun j : Fin d => p.2 j + (m p.1).getD j 0)) (l ×ˢ 𝓝 v)
      (l ×ˢ 𝓝 fun j : Fin d => v j + m0.getD j 0) := by
    refine tendsto_fst.prodMk (tendsto_pi_nhds.2 fun j => ?_)
    exact (((continuous_apply j).tendsto v).comp tendsto_snd).add ((hm.lim' j).comp tendsto_fst)
  exact (hF _).comp h1

theorem tendsto_rule_central (T : Tables N d basis full mats) (B : Backend) (hB : B.Valid) {s : ι → List ℝ} {s0 : List ℝ} (h : LConv l full.length s s0)
    (hpd : (gramOn basis (momentAt full s0)).PosDef) {m : ι → List ℝ} {m0 : List ℝ} (hm : LConv l d m m0) (sort ldl : Bool)
    {F : ι → List ℝ → ℝ} {F0 : List ℝ → ℝ} (hF : DConv l d F F0) :
    Tendsto (fun i => integND (momentQuadratureND B (s i) mats (some (m i)) none sort ldl) (F i)) l
      (𝓝 (integND (momentQuadratureND B s0 mats (some m0) none sort ldl) F0)) := by
  simp only [rule_affine T B _ (some _)]
  exact tendsto_rule_raw T B hB h hpd sort ldl (hF.shift hm)

theorem tendsto_rule_scaled (T : Tables N d basis full mats) (B : Backend) (hB : B.Valid) {s : ι → List ℝ} {s0 : List ℝ} (h : LConv l full.length s s0)
    (hpd : (gramOn basis (momentAt full s0)).PosDef) {m c : ι → List ℝ} {m0 c0 : List ℝ} (hm : LConv l d m m0) (hc : LConv l d c c0) (sort ldl : Bool)
    {F : ι → List ℝ → ℝ} {F0 : List ℝ → ℝ} (hF : DConv l d F F0) :
    Tendsto (fun i => integND (momentQuadratureND B (s i) mats (some (m i)) (some (c i)) sort ldl) (F i)) l
      (𝓝 (integND (momentQuadratureND B s0 mats (some m0) (some c0) sort ldl) F0)) := by
  simp only [rule_affine T B _ (some _)]
  exact tendsto_rule_raw T B hB h hpd sort ldl (hF.affine hm hc)

end Mfs.Cont

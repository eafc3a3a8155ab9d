import Verif.Spec.IdealGen
import Mathlib.Probability.ProductMeasure
import Mathlib.Probability.Independence.InfinitePi
import Mathlib.Data.Finset.Option

/-!
# An ideal generator exists

A key is a tree of draws; splitting takes subtrees.
-/

namespace Mfs.Lemmas

open MeasureTheory ProbabilityTheory Mfs.Prng Mfs.Spec Measure

/-- the draws at one node: normals and uniforms. -/
abbrev Label := (ℕ → ℝ) × (ℕ → ℝ)

/-- a tree of draws. -/
abbrev TreeKey := List ℕ → Label

/-- the generator that reads the draws off the root and splits into subtrees. -/
noncomputable def treeGen : Gen TreeKey :=
  ⟨fun k num => (List.range num).map fun i l => k (i :: l), fun k _ i => (k []).2 i, fun k _ i => (k []).1 i⟩

instance : IsProbabilityMeasure ((volume : Measure ℝ).restrict (Set.Ico 0 1)) := ⟨by simp⟩

/-- the law of the draws at one node. -/
noncomputable def labelLaw : Measure Label :=
  (infinitePi fun _ : ℕ => gaussianReal 0 1).prod (infinitePi fun _ : ℕ => (volume : Measure ℝ).restrict (Set.Ico 0 1))

instance : IsProbabilityMeasure labelLaw := by unfold labelLaw; infer_instance

/-- the law of a tree. -/
noncomputable def treeLaw : Measure TreeKey := infinitePi fun _ : List ℕ => labelLaw

instance : IsProbabilityMeasure treeLaw := by unfold treeLaw; infer_instance

theorem treeGen_key {num i : ℕ} (h : i < num) (k : TreeKey) : treeGen.key k num i = fun l => k (i :: l) := by
  simp [Gen.key, treeGen, List.getD_eq_getElem?_getD, h]

/-- one coordinate and all others of a product. -/
theorem infinitePi_option {A U : Type} [MeasurableSpace U] (π : Measure U) [IsProbabilityMeasure π] :
    (infinitePi fun _ : Option A => π).map (fun ω => (ω none, fun a => ω (some a))) = π.prod (infinitePi fun _ : A => π) := by
  classical
  have hm : Measurable fun (p : U × (A → U)) (o : Option A) => o.elim p.1 p.2 := by
    refine measurable_pi_lambda _ fun o => ?_
    cases o with
    | none => exact measurable_fst
    | some a => exact (measurable_pi_apply a).comp measurable_snd
  have h : (π.prod (infinitePi fun _ : A => π)).map (fun p (o : Option A) => o.elim p.1 p.2) = infinitePi fun _ : Option A => π := by
    refine eq_infinitePi _ fun s t ht => ?_
    rw [Measure.map_apply hm (MeasurableSet.pi s.countable_toSet fun i _ => ht i)]
    have e : (fun (p : U × (A → U)) (o : Option A) => o.elim p.1 p.2) ⁻¹' Set.pi s t
        = (if none ∈ s then t none else Set.univ) ×ˢ Set.pi (Finset.eraseNone s : Finset A) fun a => t (some a) := by
      ext ⟨u, v⟩
      simp only [Set.mem_preimage, Set.mem_pi, Set.mem_prod, Finset.mem_coe, Finset.mem_eraseNone]
      constructor
      · intro hx
        refine ⟨?_, fun a ha => hx (some a) ha⟩
        split_ifs with hn
        · exact hx none hn
        · trivial
      · rintro ⟨h1, h2⟩ o ho
        cases o with
        | none => rw [if_pos ho] at h1; exact h1
        | some a => exact h2 a ho
    rw [e, Measure.prod_prod, infinitePi_pi _ fun a _ => ht _]
    by_cases hn : none ∈ s
    · rw [if_pos hn]
      have : s = insert none ((Finset.eraseNone s).map Function.Embedding.some) := by
        ext o
        cases o <;> simp [hn]
      conv_rhs => rw [this]
      rw [Finset.prod_insert (by simp), Finset.prod_map]
      rfl
    · rw [if_neg hn, measure_univ, one_mul]
      have : s = (Finset.eraseNone s).map Function.Embedding.some := by
        ext o
        cases o <;> simp [hn]
      conv_rhs => rw [this]
      rw [Finset.prod_map]
      rfl
  rw [← h, Measure.map_map ?_ hm]
  · exact Measure.map_id
  · exact (measurable_pi_apply none).prodMk (measurable_pi_lambda _ fun a => measurable_pi_apply _)

/-- the draws at the root and the subtrees are independent, and each subtree is like the whole tree. -/
theorem treeLaw_split (num : ℕ) :
    treeLaw.map (fun k => (k [], fun (i : Fin num) (l : List ℕ) => k ((i : ℕ) :: l))) = labelLaw.prod (Measure.pi fun _ => treeLaw) := by
  set σ : Option (Fin num × List ℕ) → List ℕ := fun o => o.elim [] fun p => (p.1 : ℕ) :: p.2 with hσ
  have hinj : Function.Injective σ := by
    intro a b hab
    cases a with
    | none => cases b with
      | none => rfl
      | some b => simp [hσ] at hab
    | some a => cases b with
      | none => simp [hσ] at hab
      | some b =>
        simp only [hσ, Option.elim, List.cons.injEq] at hab
        rw [Prod.ext (Fin.ext hab.1) hab.2]
  have h1 : treeLaw.map (fun k o => k (σ o)) = infinitePi fun _ : Option (Fin num × List ℕ) => labelLaw :=
    map_infinitePi_infinitePi_of_inj hinj
  have h2 := infinitePi_option (A := Fin num × List ℕ) labelLaw
  have h3 : (infinitePi fun _ : Fin num × List ℕ => labelLaw).map (MeasurableEquiv.curry (Fin num) (List ℕ) Label) = Measure.pi fun _ => treeLaw := by
    rw [infinitePi_map_curry (fun (_ : Fin num) (_ : List ℕ) => labelLaw), infinitePi_eq_pi]
    rfl
  have hmσ : Measurable fun (k : TreeKey) o => k (σ o) := measurable_pi_lambda _ fun o => measurable_pi_apply _
  have hm2 : Measurable fun ω : Option (Fin num × List ℕ) → Label => (ω none, fun a => ω (some a)) :=
    (measurable_pi_apply none).prodMk (measurable_pi_lambda _ fun a => measurable_pi_apply _)
  have h4 := Measure.map_prod_map labelLaw (infinitePi fun _ : Fin num × List ℕ => labelLaw) measurable_id (MeasurableEquiv.curry (Fin num) (List ℕ) Label).measurable
  rw [Measure.map_id, h3] at h4
  rw [h4, ← h2, ← h1, Measure.map_map hm2 hmσ, Measure.map_map (measurable_id.prodMap (MeasurableEquiv.measurable _)) (hm2.comp hmσ)]
  rfl

theorem labelLaw_normals (size : ℕ) : labelLaw.map (fun u (i : Fin size) => u.1 i) = Measure.pi fun _ => gaussianReal 0 1 := by
  have h : labelLaw.map Prod.fst = infinitePi fun _ : ℕ => gaussianReal 0 1 := by
    rw [labelLaw, Measure.map_fst_prod, measure_univ, one_smul]
  have h2 := map_infinitePi_infinitePi_of_inj (P := fun _ : ℕ => gaussianReal 0 1) (f := fun i : Fin size => (i : ℕ)) Fin.val_injective
  rw [infinitePi_eq_pi (ι := Fin size), ← h, Measure.map_map (measurable_pi_lambda _ fun i => measurable_pi_apply _) measurable_fst] at h2
  exact h2

theorem labelLaw_uniforms (size : ℕ) :
    labelLaw.map (fun u (i : Fin size) => u.2 i) = Measure.pi fun _ => (volume : Measure ℝ).restrict (Set.Ico 0 1) := by
  have h : labelLaw.map Prod.snd = infinitePi fun _ : ℕ => (volume : Measure ℝ).restrict (Set.Ico 0 1) := by
    rw [labelLaw, Measure.map_snd_prod, measure_univ, one_smul]
  have h2 := map_infinitePi_infinitePi_of_inj (P := fun _ : ℕ => (volume : Measure ℝ).restrict (Set.Ico 0 1)) (f := fun i : Fin size => (i : ℕ)) Fin.val_injective
  rw [infinitePi_eq_pi (ι := Fin size), ← h, Measure.map_map (measurable_pi_lambda _ fun i => measurable_pi_apply _) measurable_snd] at h2
  exact h2

/-- **the tree generator is ideal.** -/
theorem treeGen_ideal : IdealGen treeGen treeLaw where
  prob := inferInstance
  length := fun k num => by simp [treeGen]
  measurable_key := fun num i => by
    by_cases h : i < num
    · simp only [treeGen_key h]
      exact measurable_pi_lambda _ fun l => measurable_pi_apply _
    · have : ∀ k, treeGen.key k num i = k := fun k => by
        simp [Gen.key, treeGen, List.getD_eq_getElem?_getD, not_lt.1 h]
      simp only [this]
      exact measurable_id
  measurable_normal := fun size i => (measurable_pi_apply i).comp (measurable_fst.comp (measurable_pi_apply []))
  measurable_uniform := fun size i => (measurable_pi_apply i).comp (measurable_snd.comp (measurable_pi_apply []))
  normals := fun num size => by
    have hm : Measurable fun (u : Label) (i : Fin size) => u.1 i := measurable_pi_lambda _ fun i => (measurable_pi_apply _).comp measurable_fst
    have h := Measure.map_prod_map labelLaw (Measure.pi fun _ : Fin num => treeLaw) hm measurable_id
    rw [Measure.map_id, labelLaw_normals, ← treeLaw_split, Measure.map_map (hm.prodMap measurable_id) ?_] at h
    · rw [h]
      refine congrArg (fun φ => treeLaw.map φ) (funext fun k => ?_)
      simp only [treeGen_key (Fin.is_lt _)]
      rfl
    · refine (measurable_pi_apply _).prodMk (measurable_pi_lambda _ fun i => measurable_pi_lambda _ fun l => measurable_pi_apply _)
  uniforms := fun size => by
    have hm : Measurable fun (u : Label) (i : Fin size) => u.2 i := measurable_pi_lambda _ fun i => (measurable_pi_apply _).comp measurable_snd
    have h : treeLaw.map (fun k => k []) = labelLaw := infinitePi_map_eval _ _
    have h2 := labelLaw_uniforms size
    rw [← h, Measure.map_map hm (measurable_pi_apply _)] at h2
    exact h2

end Mfs.Lemmas

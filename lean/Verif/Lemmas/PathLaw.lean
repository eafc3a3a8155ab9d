import Verif.Lemmas.WeakPaths

/-!
# The law of a path driven by independent draws
-/

namespace Mfs.PathLaw

open Mfs.Spec Mfs.Benes MeasureTheory ProbabilityTheory Filter

variable {X Z : Type} [MeasurableSpace X] [MeasurableSpace Z]

/-- the states after a list of draws. -/
def last (g : X → Z → X) : (n : ℕ) → X → (Fin n → Z) → X
  | 0, x, _ => x
  | n + 1, x, w => last g n (g x (w 0)) (Fin.tail w)

/-- all states. -/
def path (g : X → Z → X) : (T : ℕ) → X → (Fin T → Z) → Fin T → X
  | 0, _, _ => Fin.elim0
  | T + 1, x, z => Fin.cons (g x (z 0)) (path g T (g x (z 0)) (Fin.tail z))

theorem measurable_last {g : X → Z → X} (hg : Measurable fun p : X × Z => g p.1 p.2) (n : ℕ) : Measurable fun p : X × (Fin n → Z) => last g n p.1 p.2 := by
  induction n with
  | zero => exact measurable_fst
  | succ n ih =>
    have h0 : Measurable fun p : X × (Fin (n + 1) → Z) => p.2 0 := (measurable_pi_apply 0).comp measurable_snd
    have h1 : Measurable fun p : X × (Fin (n + 1) → Z) => Fin.tail p.2 := measurable_pi_lambda _ fun i => (measurable_pi_apply i.succ).comp measurable_snd
    exact ih.comp ((hg.comp (measurable_fst.prodMk h0)).prodMk h1)

theorem measurable_path {g : X → Z → X} (hg : Measurable fun p : X × Z => g p.1 p.2) (T : ℕ) : Measurable fun p : X × (Fin T → Z) => path g T p.1 p.2 := by
  induction T with
  | zero => exact measurable_const
  | succ T ih =>
    have h0 : Measurable fun p : X × (Fin (T + 1) → Z) => p.2 0 := (measurable_pi_apply 0).comp measurable_snd
    have h1 : Measurable fun p : X × (Fin (T + 1) → Z) => Fin.tail p.2 := measurable_pi_lambda _ fun i => (measurable_pi_apply i.succ).comp measurable_snd
    have hy := hg.comp (measurable_fst.prodMk h0)
    exact (measurable_finCons T).comp (hy.prodMk (ih.comp (hy.prodMk h1)))

theorem measurable_last_of {g : X → Z → X} (hg : Measurable fun p : X × Z => g p.1 p.2) (n : ℕ) (x : X) : Measurable (last g n x) :=
  (measurable_last hg n).comp measurable_prodMk_left

theorem measurable_path_of {g : X → Z → X} (hg : Measurable fun p : X × Z => g p.1 p.2) (T : ℕ) (x : X) : Measurable (path g T x) :=
  (measurable_path hg T).comp measurable_prodMk_left

/-- splitting the first draw off. -/
theorem lintegral_pi_cons (ν : Measure Z) [IsProbabilityMeasure ν] (T : ℕ) {φ : (Fin (T + 1) → Z) → ENNReal} (hφ : Measurable φ) :
    ∫⁻ x, φ x ∂(Measure.pi fun _ : Fin (T + 1) => ν) = ∫⁻ k, ∫⁻ x, φ (Fin.cons k x) ∂(Measure.pi fun _ : Fin T => ν) ∂ν := by
  have hmp := (measurePreserving_piFinSuccAbove (fun _ : Fin (T + 1) => ν) 0).symm
  rw [← hmp.lintegral_comp hφ]
  refine (lintegral_prod (μ := ν) (ν := Measure.pi fun _ : Fin T => ν) _ (hφ.comp hmp.measurable).aemeasurable).trans ?_
  refine lintegral_congr fun x => lintegral_congr fun xs => congrArg φ ?_
  exact Fin.insertNth_zero' x xs

/-- the law after `n + 1` draws. -/
theorem map_last_succ {g : X → Z → X} (hg : Measurable fun p : X × Z => g p.1 p.2) (ν : Measure Z) [IsProbabilityMeasure ν] (n : ℕ) (P : Kernel X X)
    (hP : ∀ x, (Measure.pi fun _ : Fin n => ν).map (last g n x) = P x) (x : X) :
    (Measure.pi fun _ : Fin (n + 1) => ν).map (last g (n + 1) x) = (ν.map (g x)).bind P := by
  have hgx : Measurable (g x) := hg.comp measurable_prodMk_left
  refine Measure.ext_of_lintegral _ fun f hf => ?_
  rw [lintegral_map hf (measurable_last_of hg (n + 1) _),
    lintegral_pi_cons ν n (φ := fun w => f (last g (n + 1) x w)) (hf.comp (measurable_last_of hg (n + 1) _)),
    Measure.lintegral_bind P.measurable.aemeasurable hf.aemeasurable, lintegral_map hf.lintegral_kernel hgx]
  refine lintegral_congr fun k => ?_
  rw [← hP (g x k), lintegral_map hf (measurable_last_of hg n _)]
  rfl

/-- a path driven by independent draws is a Markov chain. -/
theorem map_path {g : X → Z → X} (hg : Measurable fun p : X × Z => g p.1 p.2) (ν : Measure Z) [IsProbabilityMeasure ν] (P : Kernel X X) [IsMarkovKernel P]
    (hP : ∀ x, ν.map (g x) = P x) (T : ℕ) (x : X) : (Measure.pi fun _ : Fin T => ν).map (path g T x) = pathKernel P T x := by
  induction T generalizing x with
  | zero =>
    show _ = Measure.dirac Fin.elim0
    have : path g 0 x = fun _ => Fin.elim0 := rfl
    rw [this, Measure.map_const, measure_univ, one_smul]
  | succ T ih =>
    have hgx : Measurable (g x) := hg.comp measurable_prodMk_left
    refine Measure.ext_of_lintegral _ fun f hf => ?_
    have hfc : Measurable fun p : X × (Fin T → X) => f (Fin.cons p.1 p.2) := hf.comp (measurable_finCons T)
    have e : ∫⁻ y, f y ∂(pathKernel P (T + 1) x) = ∫⁻ y, ∫⁻ ys, f (Fin.cons y ys) ∂(pathKernel P T y) ∂(P x) := by
      show ∫⁻ y, f y ∂(((P ⊗ₖ Kernel.prodMkLeft X (pathKernel P T)).map fun p => (Fin.cons p.1 p.2 : Fin (T + 1) → X)) x) = _
      rw [Kernel.lintegral_map _ (measurable_finCons T) _ hf, Kernel.lintegral_compProd _ _ _ hfc]
      rfl
    rw [e, lintegral_map hf (measurable_path_of hg (T + 1) _),
      lintegral_pi_cons ν T (φ := fun w => f (path g (T + 1) x w)) (hf.comp (measurable_path_of hg (T + 1) _)), ← hP x,
      lintegral_map (hfc.lintegral_kernel_prod_right' (κ := pathKernel P T)) hgx]
    refine lintegral_congr fun k => ?_
    have hfk : Measurable fun ys : Fin T → X => f (Fin.cons (g x k) ys) := hfc.comp measurable_prodMk_left
    rw [← ih (g x k), lintegral_map hfk (measurable_path_of hg T _)]
    rfl

/-- one draw. -/
noncomputable def drawKernel (g : X → Z → X) (ν : Measure Z) : Kernel X X :=
  (Kernel.deterministic id measurable_id ×ₖ Kernel.const X ν).map fun p => g p.1 p.2

theorem drawKernel_apply {g : X → Z → X} (hg : Measurable fun p : X × Z => g p.1 p.2) (ν : Measure Z) [IsProbabilityMeasure ν] (x : X) : drawKernel g ν x = ν.map (g x) := by
  rw [drawKernel, Kernel.map_apply _ hg, Kernel.prod_apply, Kernel.deterministic_apply, Kernel.const_apply, id, Measure.dirac_prod, Measure.map_map hg measurable_prodMk_left]
  rfl

omit [MeasurableSpace X] [MeasurableSpace Z] in
theorem foldl_eq_last (g : X → Z → X) (n : ℕ) (x : X) (w : Fin n → Z) : (List.ofFn w).foldl g x = last g n x w := by
  induction n generalizing x with
  | zero => simp [last]
  | succ n ih => rw [List.ofFn_succ, List.foldl_cons, last]; exact ih _ _

end Mfs.PathLaw

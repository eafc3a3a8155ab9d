import Verif.Spec.Hmm
import Verif.Lemmas.Filter1
import Mathlib.Data.List.GetD

/-!
# Forward recursion of a finite-state hidden Markov model, and its representation by filters
-/

namespace Mfs

open Mfs.Spec

section hmm

variable {Y : Type} {n : ℕ} {T : Fin n → Fin n → ℝ} {g : Y → Fin n → ℝ}

/-- unnormalised forward step. -/
def fwd (T : Fin n → Fin n → ℝ) (g : Y → Fin n → ℝ) (p : Fin n → ℝ) (y : Y) : Fin n → ℝ :=
  fun j => (∑ i, p i * T i j) * g y j

theorem pathSum_eq (p : Fin n → ℝ) (ys : List Y) (f : Fin n → ℝ) :
    ∑ s : Fin (ys.length + 1) → Fin n, pathWeight p T g ys s * f (s (Fin.last _))
      = ∑ j, ys.foldl (fwd T g) p j * f j := by
  induction ys generalizing p with
  | nil =>
    simp only [List.length_nil, List.foldl_nil, pathWeight]
    rw [← (Equiv.funUnique (Fin 1) (Fin n)).symm.sum_comp]
    refine Finset.sum_congr rfl fun j _ => ?_
    simp [Equiv.funUnique, uniqueElim_const]
  | cons y ys ih =>
    rw [List.foldl_cons, ← ih]
    have := (Fin.consEquiv (fun _ : Fin (ys.length + 1 + 1) => Fin n)).sum_comp
      (fun s : Fin (ys.length + 1 + 1) → Fin n => pathWeight p T g (y :: ys) s * f (s (Fin.last _)))
    refine Eq.trans this.symm ?_
    rw [Fintype.sum_prod_type_right]
    refine Finset.sum_congr rfl fun s _ => ?_
    have h : ∀ a : Fin n, pathWeight p T g (y :: ys)
        (Fin.consEquiv (fun _ : Fin (ys.length + 1 + 1) => Fin n) (a, s)) = p a * T a (s 0) * g y (s 0) * ∏ k : Fin ys.length, T (s k.castSucc) (s k.succ) * g ys[k] (s k.succ) := by
      intro a
      rw [pathWeight]
      refine Eq.trans (congrArg (p a * ·) (Fin.prod_univ_succ (n := ys.length) _)) ?_
      simp only [Fin.consEquiv_apply, Fin.castSucc_zero, Fin.cons_zero, Fin.cons_succ, ← Fin.succ_castSucc]
      simp only [Fin.getElem_fin, Fin.val_zero, List.getElem_cons_zero, Fin.val_succ, List.getElem_cons_succ]
      ring
    simp only [h]
    simp only [Fin.consEquiv_apply, ← Fin.succ_last, Fin.cons_succ]
    rw [pathWeight, ← Finset.sum_mul, ← Finset.sum_mul, ← Finset.sum_mul, fwd]

theorem hmmLik_eq (p : Fin n → ℝ) (ys : List Y) : hmmLik p T g ys = ∑ j, ys.foldl (fwd T g) p j := by
  have := pathSum_eq (T := T) (g := g) p ys (fun _ => 1)
  simpa [hmmLik] using this

/-- expectation of `f` under the weights `p`. -/
noncomputable def lawE (p f : Fin n → ℝ) : ℝ := (∑ i, p i * f i) / ∑ i, p i

theorem hmmPost_eq (p : Fin n → ℝ) (ys : List Y) (f : Fin n → ℝ) :
    hmmPost p T g ys f = lawE (ys.foldl (fwd T g) p) f := by
  rw [hmmPost, hmmLik_eq, pathSum_eq, lawE]

theorem foldl_fwd_pos (hT : ∀ i j, 0 ≤ T i j) (hTc : ∀ j, ∃ i, 0 < T i j) (hg : ∀ y j, 0 < g y j) {p : Fin n → ℝ}
    (hp : ∀ i, 0 < p i) (y : Y) (j : Fin n) : 0 < fwd T g p y j := by
  obtain ⟨i, hi⟩ := hTc j
  exact mul_pos (Finset.sum_pos' (fun i _ => mul_nonneg (hp i).le (hT i j)) ⟨i, Finset.mem_univ _, mul_pos (hp i) hi⟩)
    (hg y j)

/-- a recursion whose state represents the current law of the chain computes the forward recursion; `Inv` is what the next step
needs of a state, `Out` what is claimed of the recorded states. -/
theorem represents {S : Type} {next : S → Y → S} {lik : S → Y → ℝ} (Inv Out : S → (Fin n → ℝ) → Prop) (hn : 0 < n)
    (hT : ∀ i j, 0 ≤ T i j) (hTc : ∀ j, ∃ i, 0 < T i j) (hg : ∀ y j, 0 < g y j)
    (step : ∀ s p y, (∀ i, 0 < p i) → Inv s p → Inv (next s y) (fwd T g p y) ∧ Out (next s y) (fwd T g p y) ∧
      lik s y = (∑ j, fwd T g p y j) / ∑ j, p j)
    (s : S) (p : Fin n → ℝ) (hp : ∀ i, 0 < p i) (h : Inv s p) (ys : List Y) :
    ((liks next lik s ys).map Real.log).sum = Real.log ((∑ j, ys.foldl (fwd T g) p j) / ∑ j, p j) ∧
    ∀ (t : ℕ) o, (traj next s ys)[t]? = some o → Out o ((ys.take (t + 1)).foldl (fwd T g) p) := by
  have hne : (Finset.univ : Finset (Fin n)).Nonempty := ⟨⟨0, hn⟩, Finset.mem_univ _⟩
  have hpos : ∀ (ys : List Y) (p : Fin n → ℝ), (∀ i, 0 < p i) → 0 < ∑ j, ys.foldl (fwd T g) p j := by
    intro ys
    induction ys with
    | nil => intro p hp; exact Finset.sum_pos (fun i _ => hp i) hne
    | cons y ys ih => intro p hp; exact ih _ (foldl_fwd_pos hT hTc hg hp y)
  induction ys generalizing s p with
  | nil =>
    have := hpos [] p hp
    rw [List.foldl_nil] at this
    simp [liks, traj, div_self this.ne']
  | cons y ys ih =>
    obtain ⟨h1, h3, h2⟩ := step s p y hp h
    have hp' := foldl_fwd_pos hT hTc hg hp y
    obtain ⟨i1, i2⟩ := ih _ _ hp' h1
    constructor
    · rw [liks, List.map_cons, List.sum_cons, i1, h2, List.foldl_cons]
      have a1 := hpos [] _ hp'
      have a2 := hpos [] _ hp
      have a3 := hpos ys _ hp'
      simp only [List.foldl_nil] at a1 a2
      rw [← Real.log_mul (div_pos a1 a2).ne' (div_pos a3 a1).ne']
      congr 1
      field_simp
    · intro t o ho
      cases t with
      | zero =>
        simp only [traj, List.getElem?_cons_zero, Option.some.injEq] at ho
        subst ho
        simpa using h3
      | succ t =>
        simp only [traj, List.getElem?_cons_succ] at ho
        simpa using i2 t o ho

end hmm

end Mfs

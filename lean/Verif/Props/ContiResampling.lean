import Verif.Lemmas.ContiResampling
import Verif.Lemmas.RuleCont
import Mathlib.Analysis.SpecialFunctions.Log.Basic

/-!
# C175: the likelihood of the bootstrap filter with continuous resampling is continuous in the parameters
-/

namespace Mfs.Props

open Finset Filter Topology Mfs.Resampling Mfs.Smc Mfs.Cont

section
variable {Θ Y K : Type} [TopologicalSpace Θ] {n : ℕ} [NeZero n]

private theorem knot_cont {θ₀ : Θ} {w : Θ → ℕ → ℝ} {m : ℕ} (h : ∀ i < m, ContinuousAt (fun θ => w θ i) θ₀) : ∀ i < m, ContinuousAt (fun θ => knot (w θ) i) θ₀
  | 0, hi => by simpa only [knot] using (h 0 hi).div_const 2
  | i + 1, hi => by
    simp only [knot]
    exact (knot_cont h i (by omega)).add (((h _ hi).add (h i (by omega))).div_const 2)

/-- one resampling step, the weights being a function of the samples. -/
theorem conti_step {eps : ℝ} (heps : 0 ≤ eps) (draw : K → ℕ → ℝ) (key : K) {θ₀ : Θ} {x : Θ → Fin n → ℝ} (hx : ContinuousAt x θ₀) {p : Θ → ℝ → ℝ}
    (hp : Continuous fun q : Θ × ℝ => p q.1 q.2) (hpos : ∀ θ a, 0 < p θ a) (hok : ∀ i, eps < p θ₀ (x θ₀ i) / ∑ j, p θ₀ (x θ₀ j)) :
    ContinuousAt (fun θ => resampleConti eps draw (x θ) (fun i => p θ (x θ i) / ∑ j, p θ (x θ j)) key) θ₀ := by
  have hpc : ∀ {a : Θ → ℝ}, ContinuousAt a θ₀ → ContinuousAt (fun θ => p θ (a θ)) θ₀ := fun {a} ha =>
    ContinuousAt.comp (g := fun q : Θ × ℝ => p q.1 q.2) (f := fun θ => (θ, a θ)) hp.continuousAt (continuousAt_id.prodMk ha)
  have hxi : ∀ i, ContinuousAt (fun θ => x θ i) θ₀ := fun i => (continuous_apply i).continuousAt.comp hx
  have hsum : ContinuousAt (fun θ => ∑ j, p θ (x θ j)) θ₀ := tendsto_finsetSum _ fun j _ => hpc (hxi j)
  have hne : ∀ θ, (∑ j, p θ (x θ j)) ≠ 0 := fun θ => (sum_pos (fun j _ => hpos _ _) univ_nonempty).ne'
  have hord : ∀ k < n, ContinuousAt (fun θ => ordStat (x θ) k) θ₀ := fun k hk => (continuous_ordStat hk).continuousAt.comp hx
  have hw : ∀ k < n, ContinuousAt (fun θ => p θ (ordStat (x θ) k) / ∑ j, p θ (x θ j)) θ₀ := fun k hk => (hpc (hord k hk)).div hsum (hne _)
  have hnear : ∀ᶠ θ in 𝓝 θ₀, ∀ i, eps < p θ (x θ i) / ∑ j, p θ (x θ j) := eventually_all.2 fun i =>
    continuousAt_const.eventually_lt ((hpc (hxi i)).div hsum (hne _)) (hok i)
  refine continuousAt_pi.2 fun j => ?_
  refine ContinuousAt.congr (f := fun θ => ordStat (x θ) 0 + ∑ i ∈ range (n - 1), (ordStat (x θ) (i + 1) - ordStat (x θ) i) *
      unitClip (((draw key j + (j : ℕ)) / n - knot (fun i => p θ (ordStat (x θ) i) / ∑ j, p θ (x θ j)) i)
        / ((p θ (ordStat (x θ) (i + 1)) / (∑ j, p θ (x θ j)) + p θ (ordStat (x θ) i) / ∑ j, p θ (x θ j)) / 2))) ?_ ?_
  · refine (hord 0 (Nat.pos_of_ne_zero (NeZero.ne n))).add (tendsto_finsetSum _ fun i hi => ?_)
    have hi' := mem_range.1 hi
    refine ((hord (i + 1) (by omega)).sub (hord i (by omega))).mul (continuous_unitClip.continuousAt.comp ?_)
    refine (continuousAt_const.sub (knot_cont hw i (by omega))).div (((hw (i + 1) (by omega)).add (hw i (by omega))).div_const 2) (ne_of_gt ?_)
    have h := fun k => div_pos (hpos θ₀ (ordStat (x θ₀) k)) (sum_pos (fun j _ => hpos θ₀ (x θ₀ j)) univ_nonempty)
    have h1 := h (i + 1)
    have h2 := h i
    linarith
  · filter_upwards [hnear] with θ hθ
    exact (conti_formula heps draw (x θ) (fun a => p θ a / ∑ j, p θ (x θ j)) hθ key j).symm

/-- the particles after one step of `bootstrap_filter` with `conti_resampling=True`, and the condition that each normalised weight exceeds
`eps`, below which `jnp.interp` treats a step as empty. -/
noncomputable def contiNext (eps : ℝ) (draw : K → ℕ → ℝ) (tr : (Fin n → ℝ) → K → Fin n → ℝ) (p : Y → ℝ → ℝ) (splitFst : K → K)
    (s : Fin n → ℝ) (e : Y × K) : Fin n → ℝ :=
  resampleConti eps draw (tr s e.2) (fun i => p e.1 (tr s e.2 i) / ∑ j, p e.1 (tr s e.2 j)) (splitFst e.2)

/-- **C175.** For a fixed key, the particles and the negative log-likelihood of `bootstrap_filter` with continuous resampling are continuous in
the parameters, for every transition sampler and every positive density continuous in parameters and state. -/
theorem C175_conti_continuousAt {eps : ℝ} (heps : 0 ≤ eps) (draw : K → ℕ → ℝ) (tr : Θ → (Fin n → ℝ) → K → Fin n → ℝ)
    (htr : ∀ k, Continuous fun q : Θ × (Fin n → ℝ) => tr q.1 q.2 k) (p : Θ → Y → ℝ → ℝ) (hp : ∀ y, Continuous fun q : Θ × ℝ => p q.1 y q.2)
    (hpos : ∀ θ y a, 0 < p θ y a) (ys : List Y) (init : Θ → K → Fin n → ℝ) (hinit : ∀ k, Continuous fun θ => init θ k) (key : K)
    (splitFst : K → K) (splitN : K → ℕ → List K) (θ₀ : Θ)
    (hok : RunOK (fun s (e : Y × K) => ∀ i, eps < p θ₀ e.1 (tr θ₀ s e.2 i) / ∑ j, p θ₀ e.1 (tr θ₀ s e.2 j))
      (contiNext eps draw (tr θ₀) (p θ₀) splitFst) (init θ₀ key) (ys.zip (splitN key ys.length))) :
    ContinuousAt (fun θ => (bootstrapFilter (tr θ) (fun y s i => p θ y (s i)) ys (init θ) key (resampleConti eps draw) splitFst splitN).2) θ₀ ∧
    ∀ t, ContinuousAt (fun θ => (bootstrapFilter (tr θ) (fun y s i => p θ y (s i)) ys (init θ) key (resampleConti eps draw) splitFst splitN).1.getD t 0) θ₀ := by
  have main : ∀ (l : List (Y × K)) (s : Θ → Fin n → ℝ) (a : Θ → ℝ), ContinuousAt s θ₀ → ContinuousAt a θ₀ →
      RunOK (fun s (e : Y × K) => ∀ i, eps < p θ₀ e.1 (tr θ₀ s e.2 i) / ∑ j, p θ₀ e.1 (tr θ₀ s e.2 j)) (contiNext eps draw (tr θ₀) (p θ₀) splitFst) (s θ₀) l →
      ContinuousAt (fun θ => (scan (bootstrapBody (tr θ) (fun y s i => p θ y (s i)) (resampleConti eps draw) splitFst) (s θ, a θ) l).1.2) θ₀ ∧
      ∀ t, ContinuousAt (fun θ => (scan (bootstrapBody (tr θ) (fun y s i => p θ y (s i)) (resampleConti eps draw) splitFst) (s θ, a θ) l).2.getD t 0) θ₀ := by
    intro l
    induction l with
    | nil => intro s a hs ha _; exact ⟨ha, fun t => continuousAt_const⟩
    | cons e l ih =>
      intro s a hs ha hok
      obtain ⟨hok0, hok1⟩ := hok
      have hx : ContinuousAt (fun θ => tr θ (s θ) e.2) θ₀ :=
        ContinuousAt.comp (g := fun q : Θ × (Fin n → ℝ) => tr q.1 q.2 e.2) (f := fun θ => (θ, s θ)) (htr e.2).continuousAt (continuousAt_id.prodMk hs)
      have hs' : ContinuousAt (fun θ => contiNext eps draw (tr θ) (p θ) splitFst (s θ) e) θ₀ :=
        conti_step heps draw (splitFst e.2) hx (p := fun θ => p θ e.1) (hp e.1) (fun θ => hpos θ e.1) hok0
      have hsum : ContinuousAt (fun θ => ∑ j, p θ e.1 (tr θ (s θ) e.2 j)) θ₀ := tendsto_finsetSum _ fun j _ =>
        ContinuousAt.comp (g := fun q : Θ × ℝ => p q.1 e.1 q.2) (f := fun θ => (θ, tr θ (s θ) e.2 j)) (hp e.1).continuousAt
          (continuousAt_id.prodMk ((continuous_apply j).continuousAt.comp hx))
      have ha' : ContinuousAt (fun θ => a θ - Real.log ((∑ j, p θ e.1 (tr θ (s θ) e.2 j)) / n)) θ₀ :=
        ha.sub ((hsum.div_const _).log (div_pos (sum_pos (fun j _ => hpos _ _ _) univ_nonempty) (by exact_mod_cast Nat.pos_of_ne_zero (NeZero.ne n))).ne')
      obtain ⟨h1, h2⟩ := ih _ _ hs' ha' hok1
      refine ⟨h1, fun t => ?_⟩
      cases t with
      | zero => exact hs'
      | succ t => exact h2 t
  exact main _ _ _ (hinit key).continuousAt continuousAt_const hok

/-- **C175.** In exact arithmetic (`eps = 0`) no condition on the run is needed. -/
theorem C175_conti_continuous (draw : K → ℕ → ℝ) (tr : Θ → (Fin n → ℝ) → K → Fin n → ℝ)
    (htr : ∀ k, Continuous fun q : Θ × (Fin n → ℝ) => tr q.1 q.2 k) (p : Θ → Y → ℝ → ℝ) (hp : ∀ y, Continuous fun q : Θ × ℝ => p q.1 y q.2)
    (hpos : ∀ θ y a, 0 < p θ y a) (ys : List Y) (init : Θ → K → Fin n → ℝ) (hinit : ∀ k, Continuous fun θ => init θ k) (key : K)
    (splitFst : K → K) (splitN : K → ℕ → List K) :
    Continuous fun θ => (bootstrapFilter (tr θ) (fun y s i => p θ y (s i)) ys (init θ) key (resampleConti 0 draw) splitFst splitN).2 := by
  refine continuous_iff_continuousAt.2 fun θ₀ => (C175_conti_continuousAt le_rfl draw tr htr p hp hpos ys init hinit key splitFst splitN θ₀ ?_).1
  have run : ∀ (l : List (Y × K)) (s : Fin n → ℝ), RunOK (fun s (e : Y × K) => ∀ i, 0 < p θ₀ e.1 (tr θ₀ s e.2 i) / ∑ j, p θ₀ e.1 (tr θ₀ s e.2 j))
      (contiNext 0 draw (tr θ₀) (p θ₀) splitFst) s l := by
    intro l
    induction l with
    | nil => intro _; trivial
    | cons e l ih => intro s; exact ⟨fun i => div_pos (hpos _ _ _) (sum_pos (fun j _ => hpos _ _ _) univ_nonempty), ih _⟩
  exact run _ _

end

end Mfs.Props

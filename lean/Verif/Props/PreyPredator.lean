import Verif.Model.Experiments
import Verif.Props.FilterNDEquiv

/-!
# Property C132: the means of the prey–predator experiment
-/

namespace Mfs.Props

open Matrix Mfs.Spec Mfs.MultiIndex Mfs.QuadND Mfs.FilterND Mfs.Experiments MvPolynomial

variable {Y : Type}

/-- the positions 2 and 1 read by the script are those of `extract_mean`, for every moment vector. -/
theorem C132_prey_extract (rms : List ℝ) : preyMeansRaw rms = extractMean rms 2 := by
  rfl

/-- **C132.** Under the hypotheses of C36 for two state components, the means computed by the script in mode `raw` are, at every step,
those returned by the filter in mode `central` (with components in the order of the state), so the two modes report the same errors. -/
theorem C132_prey_modes {N : ℕ} {basis full : List (List ℕ)} {mats : List (List (List ℤ))} {B : Backend}
    {E : List ℝ → MvPolynomial (Fin 2) ℝ →ₗ[ℝ] ℝ} {cv : List ℝ → List ℝ} {pdf : Y → List ℝ → ℝ} (hB : B.Valid)
    (T : Tables N 2 basis full mats) (hE : ∀ x, E x 1 = 1) (l₁ l₂ : Bool) (rms0 cms0 scms0 m0 s0 : List ℝ)
    (L : MvPolynomial (Fin 2) ℝ →ₗ[ℝ] ℝ) (h : SameLawND full L rms0 (cms0, m0) (scms0, m0, s0)) (ys : List Y)
    (hv : StaysValidND B E cv pdf l₁ basis full mats rms0 ys) :
    ∃ a b, FilterND.filterRms B (rawOfND E) pdf ys (full, mats) rms0 l₁ = .ok a ∧
      FilterND.filterCms B (centralOfND E) (meanOfND E) pdf ys (full, mats) cms0 m0 l₂ = .ok b ∧
      a.1.length = ys.length ∧ a.1.map preyMeansRaw = b.1.map fun o => some o.2 := by
  obtain ⟨a, b, c, ha, hb, -, -, -, h1, h2, h3, h4⟩ := C36_nd_same_filter hB T hE l₁ l₂ false rms0 cms0 scms0 m0 s0 L h ys hv
  refine ⟨a, b, ha, hb, h1, List.ext_getElem? fun k => ?_⟩
  rcases lt_or_ge k ys.length with hk | hk
  · have ea := List.getElem?_eq_getElem (l := a.1) (i := k) (by rw [h1]; exact hk)
    have eb := List.getElem?_eq_getElem (l := b.1) (i := k) (by rw [h2]; exact hk)
    have ec := List.getElem?_eq_getElem (l := c.1) (i := k) (by rw [h3]; exact hk)
    obtain ⟨L', hL', hm, -⟩ := h4 k _ _ _ ea eb ec
    rw [List.getElem?_map, List.getElem?_map, ea, eb, Option.map_some, Option.map_some, C132_prey_extract, hL'.raw,
      (C07_extract 2 (2 * N - 1) (by norm_num) _ full T.full_eq).2.1 (by have := T.hN; omega)]
    congr 2
    have hl := hL'.mean_len
    have h0 := hm 0
    have h1 := hm 1
    generalize b.1[k].2 = l at hl h0 h1
    obtain ⟨x, y, rfl⟩ := List.length_eq_two.1 hl
    simp only [Fin.val_zero, List.getD_cons_zero, Fin.val_one, List.getD_cons_succ] at h0 h1
    simp [List.range_succ, polyMoment, rawCoord, unitIndex, Fin.prod_univ_two, h0, h1]
  · rw [List.getElem?_eq_none (by rw [List.length_map, h1]; exact hk), List.getElem?_eq_none (by rw [List.length_map, h2]; exact hk)]

/-- the script reads the first component from position two: a moment vector of order one. The hypotheses of `C132_prey_modes` are those of
C36, with the example given there. -/
example : preyMeansRaw [1, 20, 30] = some [30, 20] := rfl

end Mfs.Props

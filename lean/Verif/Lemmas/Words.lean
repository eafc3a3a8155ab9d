import Verif.Lemmas.QuadCore
import Mathlib.Algebra.BigOperators.Fin
import Mathlib.Algebra.BigOperators.Group.List.Basic

/-!
# Words in the multiplication matrices

Abstract form of the multidimensional exactness: for every word of length `≤ 2N - 1` in the matrices `K_i`,
`(K_{i_1} ⋯ K_{i_L})_{00} = μ(α)/μ(0)`, where `α` counts the letters.
-/

namespace Mfs.Spec

open Matrix

variable {z d : ℕ}

/-- the multi-index counting the letters of a word. -/
def wt (l : List (Fin d)) : Fin d → ℕ := fun j => l.count j

theorem wt_cons (i : Fin d) (l : List (Fin d)) : wt (i :: l) = wt l + Pi.single i 1 := by
  ext j
  simp only [wt, List.count_cons, Pi.add_apply, Pi.single_apply]
  by_cases h : i = j
  · simp [h]
  · simp [h, Ne.symm h]

theorem wt_append (l l' : List (Fin d)) : wt (l ++ l') = wt l + wt l' := by
  ext j; simp [wt, List.count_append]

theorem wt_reverse (l : List (Fin d)) : wt l.reverse = wt l := by
  ext j; simp [wt]

theorem sum_wt (l : List (Fin d)) : ∑ j, wt l j = l.length := by
  induction l with
  | nil => simp [wt]
  | cons i l ih => rw [wt_cons]; simp [Finset.sum_add_distrib, ih, Finset.sum_pi_single']

/-- the data: basis of multi-indices of order `< N`, Gram and Hankel matrices of `μ`, Cholesky factor. -/
structure MomentData (N : ℕ) (μ : (Fin d → ℕ) → ℝ) (basis : Fin z → (Fin d → ℕ)) (z0 : Fin z)
    (G R : Matrix (Fin z) (Fin z) ℝ) (H : Fin d → Matrix (Fin z) (Fin z) ℝ) : Prop where
  hz0 : (z0 : ℕ) = 0
  basis0 : basis z0 = 0
  surj : ∀ α : Fin d → ℕ, ∑ j, α j < N → ∃ a, basis a = α
  G_eq : ∀ a b, G a b = μ (basis a + basis b)
  H_eq : ∀ i a b, H i a b = μ (basis a + basis b + Pi.single i 1)
  chol : IsChol G R

variable {N : ℕ} {μ : (Fin d → ℕ) → ℝ} {basis : Fin z → (Fin d → ℕ)} {z0 : Fin z}
  {G R : Matrix (Fin z) (Fin z) ℝ} {H : Fin d → Matrix (Fin z) (Fin z) ℝ}

theorem MomentData.symm (D : MomentData N μ basis z0 G R H) (i : Fin d) : (multMat R (H i)).IsSymm := by
  apply multMat_isSymm
  ext a b
  rw [Matrix.transpose_apply, D.H_eq, D.H_eq, add_comm (basis b)]

theorem MomentData.H_symm (D : MomentData N μ basis z0 G R H) (i : Fin d) : (H i).IsSymm := by
  ext a b
  rw [Matrix.transpose_apply, D.H_eq, D.H_eq, add_comm (basis b)]

/-- product of the matrices along a word. -/
noncomputable def wordMat (R : Matrix (Fin z) (Fin z) ℝ) (H : Fin d → Matrix (Fin z) (Fin z) ℝ) (l : List (Fin d)) :
    Matrix (Fin z) (Fin z) ℝ := (l.map fun i => multMat R (H i)).prod

theorem MomentData.word_vec (D : MomentData N μ basis z0 G R H) (l : List (Fin d)) (hl : l.length < N) :
    ∃ a, basis a = wt l ∧ wordMat R H l *ᵥ rowVec R z0 = rowVec R a := by
  induction l with
  | nil => exact ⟨z0, by rw [D.basis0]; ext j; simp [wt], by simp [wordMat]⟩
  | cons i l ih =>
    obtain ⟨a, ha, hv⟩ := ih (by simp at hl; omega)
    obtain ⟨b, hb⟩ := D.surj (wt (i :: l)) (by rw [sum_wt]; exact hl)
    refine ⟨b, hb, ?_⟩
    have : wordMat R H (i :: l) = multMat R (H i) * wordMat R H l := by simp [wordMat]
    rw [this, ← Matrix.mulVec_mulVec, hv]
    apply D.chol.multMat_rowVec
    intro c
    rw [D.H_eq, D.G_eq, hb, wt_cons, ha, add_assoc]

theorem MomentData.word_transpose (D : MomentData N μ basis z0 G R H) (l : List (Fin d)) :
    (wordMat R H l)ᵀ = wordMat R H l.reverse := by
  rw [wordMat, wordMat, Matrix.transpose_list_prod, List.map_map, List.map_reverse]
  congr 2
  apply List.map_congr_left
  intro i _
  exact (D.symm i).eq

theorem MomentData.word_dot (D : MomentData N μ basis z0 G R H) (l : List (Fin d)) (hl : l.length < 2 * N) :
    rowVec R z0 ⬝ᵥ (wordMat R H l *ᵥ rowVec R z0) = μ (wt l) := by
  obtain ⟨l1, l2, rfl, h1, h2⟩ : ∃ l1 l2, l = l1 ++ l2 ∧ l1.length < N ∧ l2.length ≤ N :=
    ⟨l.take (N - 1), l.drop (N - 1), by simp, by simp; omega, by simp; omega⟩
  have hmul : ∀ l1 l2 : List (Fin d), wordMat R H (l1 ++ l2) = wordMat R H l1 * wordMat R H l2 := by
    intro l1 l2; simp [wordMat]
  have hdot : ∀ v, rowVec R z0 ⬝ᵥ (wordMat R H l1 *ᵥ v) = (wordMat R H l1.reverse *ᵥ rowVec R z0) ⬝ᵥ v := by
    intro v
    rw [Matrix.dotProduct_mulVec, ← Matrix.mulVec_transpose, D.word_transpose]
  obtain ⟨a, ha, hva⟩ := D.word_vec l1.reverse (by simpa using h1)
  rw [wt_reverse] at ha
  rw [hmul, ← Matrix.mulVec_mulVec, hdot, hva, wt_append]
  rcases Nat.lt_or_ge l2.length N with h | h
  · obtain ⟨b, hb, hvb⟩ := D.word_vec l2 h
    rw [hvb, D.chol.rowVec_dot, D.G_eq, ha, hb]
  · cases l2 with
    | nil => simp at h; omega
    | cons i l2 =>
      obtain ⟨b, hb, hvb⟩ := D.word_vec l2 (by simp at h2; omega)
      have : wordMat R H (i :: l2) = multMat R (H i) * wordMat R H l2 := by simp [wordMat]
      rw [this, ← Matrix.mulVec_mulVec, hvb, D.chol.rowVec_dot_multMat, D.H_eq, ha, hb, wt_cons, add_assoc]

theorem MomentData.mu0_pos (D : MomentData N μ basis z0 G R H) : 0 < μ 0 ∧ R z0 z0 * R z0 z0 = μ 0 := by
  have := D.chol.rowVec_dot z0 z0
  rw [D.chol.lower.rowVec_zero z0 D.hz0, D.G_eq, D.basis0, add_zero] at this
  simp at this
  refine ⟨?_, this⟩
  rw [← this]
  exact mul_pos (D.chol.diag_pos z0) (D.chol.diag_pos z0)

theorem MomentData.word_entry (D : MomentData N μ basis z0 G R H) (l : List (Fin d)) (hl : l.length < 2 * N) :
    (wordMat R H l) z0 z0 = μ (wt l) / μ 0 := by
  obtain ⟨h0, hr⟩ := D.mu0_pos
  have := D.word_dot l hl
  rw [D.chol.lower.rowVec_zero z0 D.hz0, Matrix.mulVec_smul, smul_dotProduct, dotProduct_smul] at this
  rw [eq_div_iff h0.ne', ← this, ← hr]
  simp
  ring

/-- the word `0…0 1…1 …` with `α_j` letters `j`. -/
def wordOf (α : Fin d → ℕ) : List (Fin d) := (List.finRange d).flatMap fun j => List.replicate (α j) j

theorem wt_wordOf (α : Fin d → ℕ) : wt (wordOf α) = α := by
  ext j
  simp only [wt, wordOf, List.count_flatMap, Function.comp_def, List.count_replicate]
  have : (List.map (fun x => if (x == j) = true then α x else 0) (List.finRange d)).sum
      = ∑ x : Fin d, if x = j then α x else 0 := by
    rw [← List.ofFn_eq_map, List.sum_ofFn]
    simp
  rw [this]; simp

theorem wordMat_wordOf (R : Matrix (Fin z) (Fin z) ℝ) (H : Fin d → Matrix (Fin z) (Fin z) ℝ) (α : Fin d → ℕ) :
    wordMat R H (wordOf α) = (List.ofFn fun j => multMat R (H j) ^ α j).prod := by
  rw [wordMat, wordOf, List.map_flatMap, List.flatMap_def, List.prod_flatten, List.map_map, List.ofFn_eq_map]
  congr 1
  apply List.map_congr_left
  intro j _
  simp

theorem MomentData.exact (D : MomentData N μ basis z0 G R H) (α : Fin d → ℕ) (hα : ∑ j, α j < 2 * N) :
    (List.ofFn fun j => multMat R (H j) ^ α j).prod z0 z0 = μ α / μ 0 := by
  have hlen : (wordOf α).length = ∑ j, α j := by rw [← sum_wt, wt_wordOf]
  rw [← wordMat_wordOf, D.word_entry _ (by omega), wt_wordOf]

end Mfs.Spec

import Verif.Lemmas.Quad1

/-!
# The Golub–Welsch matrix is the multiplication matrix of one order less
-/

namespace Mfs.Quad1

open Matrix Mfs.Spec

variable {p : ℕ} {m : ℕ → ℝ} {R : Matrix (Fin (p + 1)) (Fin (p + 1)) ℝ}

/-- leading block. -/
def lead (R : Matrix (Fin (p + 1)) (Fin (p + 1)) ℝ) : Matrix (Fin p) (Fin p) ℝ :=
  Matrix.of fun i j => R i.castSucc j.castSucc

theorem lead_isChol (hR : IsChol (hankelMat (p + 1) m) R) : IsChol (hankelMat p m) (lead R) where
  lower i j hij := hR.lower _ _ (by simpa using hij)
  diag_pos i := hR.diag_pos _
  mul_transpose := by
    ext i j
    have := congrFun (congrFun hR.mul_transpose i.castSucc) j.castSucc
    rw [Matrix.mul_apply, Fin.sum_univ_castSucc] at this
    simp only [Matrix.transpose_apply] at this
    rw [hR.lower i.castSucc (Fin.last p) (Fin.castSucc_lt_last i), zero_mul, add_zero] at this
    rw [Matrix.mul_apply]
    simpa [lead, hankelMat] using this

/-- `K Rᵀ = S`, `S_ij = R_{j+1, i}`. -/
theorem mult_lead (hR : IsChol (hankelMat (p + 1) m) R) :
    multMat (lead R) (hankelMat p fun k => m (k + 1)) * (lead R)ᵀ = Matrix.of fun i j => R j.succ i.castSucc := by
  have hL := lead_isChol hR
  rw [hL.multMat_mul]
  have : hankelMat p (fun k => m (k + 1)) = lead R * Matrix.of fun i j => R j.succ i.castSucc := by
    ext i j
    have := congrFun (congrFun hR.mul_transpose i.castSucc) j.succ
    rw [Matrix.mul_apply, Fin.sum_univ_castSucc] at this
    simp only [Matrix.transpose_apply] at this
    rw [hR.lower i.castSucc (Fin.last p) (Fin.castSucc_lt_last i), zero_mul, add_zero] at this
    rw [Matrix.mul_apply]
    simp only [lead, Matrix.of_apply]
    rw [this]
    simp [hankelMat, add_assoc]
  rw [this, ← Matrix.mul_assoc, Matrix.nonsing_inv_mul _ hL.isUnit_det, Matrix.one_mul]

theorem golubWelschK_eq (hR : IsChol (hankelMat (p + 1) m) R) :
    golubWelschK R = multMat (lead R) (hankelMat p fun k => m (k + 1)) := by
  set K := multMat (lead R) (hankelMat p fun k => m (k + 1)) with hK
  have hKs : K.IsSymm := multMat_isSymm (hankelMat_isSymm _ _)
  have hL := lead_isChol hR
  have hmul := mult_lead hR
  rw [← hK] at hmul
  -- `K = S R⁻ᵀ` is upper Hessenberg
  have hKS : K = (Matrix.of fun i j : Fin p => R j.succ i.castSucc) * ((lead R)⁻¹)ᵀ := by
    rw [← hmul, Matrix.mul_assoc, ← Matrix.transpose_mul, Matrix.nonsing_inv_mul _ hL.isUnit_det, Matrix.transpose_one,
      Matrix.mul_one]
  have hHess : ∀ i j : Fin p, (j : ℕ) + 1 < i → K i j = 0 := by
    intro i j hij
    rw [hKS, Matrix.mul_apply]
    apply Finset.sum_eq_zero
    intro k _
    rw [Matrix.of_apply, Matrix.transpose_apply]
    by_cases h : (j : ℕ) < k
    · rw [(hL.lower.inv hL.isUnit_det) j k h, mul_zero]
    · rw [hR.lower k.succ i.castSucc (by simp [Fin.lt_def]; omega), zero_mul]
  have hHess' : ∀ i j : Fin p, (i : ℕ) + 1 < j → K i j = 0 := by
    intro i j hij
    rw [← hKs.apply]; exact hHess j i hij
  have hentry : ∀ i j : Fin p, ∑ k, K i k * R j.castSucc k.castSucc = R j.succ i.castSucc := by
    intro i j
    have := congrFun (congrFun hmul i) j
    rw [Matrix.mul_apply] at this
    simpa [lead] using this
  have hdiag : ∀ i, R i i ≠ 0 := fun i => (hR.diag_pos i).ne'
  -- subdiagonal
  have hsub : ∀ i j : Fin p, (i : ℕ) = j + 1 → K i j = R i.castSucc i.castSucc / R j.castSucc j.castSucc := by
    intro i j hij
    rw [eq_div_iff (hdiag _)]
    have := hentry i j
    rw [Finset.sum_eq_single j] at this
    · rw [this]; congr 1; ext; simp [hij]
    · intro k _ hk
      rcases lt_or_gt_of_ne hk with h | h
      · rw [hHess i k (by have : (k : ℕ) < j := h; omega), zero_mul]
      · rw [hR.lower j.castSucc k.castSucc (by simpa using h), mul_zero]
    · simp
  have hsup : ∀ i j : Fin p, (j : ℕ) = i + 1 → K i j = R j.castSucc j.castSucc / R i.castSucc i.castSucc := by
    intro i j hij
    rw [← hKs.apply]; exact hsub j i hij
  have hdg0 : ∀ i : Fin p, (i : ℕ) = 0 → K i i = R i.succ i.castSucc / R i.castSucc i.castSucc := by
    intro i hi
    rw [eq_div_iff (hdiag _)]
    have := hentry i i
    rw [Finset.sum_eq_single i] at this
    · exact this
    · intro k _ hk
      rw [hR.lower i.castSucc k.castSucc (by
        rw [Fin.lt_def]; simp
        have : (k : ℕ) ≠ i := fun h => hk (Fin.ext h)
        omega), mul_zero]
    · simp
  have hdg : ∀ i j : Fin p, (i : ℕ) = j + 1 → K i i = R i.succ i.castSucc / R i.castSucc i.castSucc
      - R i.castSucc j.castSucc / R j.castSucc j.castSucc := by
    intro i j hij
    have := hentry i i
    rw [Finset.sum_eq_add_of_mem i j (Finset.mem_univ _) (Finset.mem_univ _)
      (fun h => by rw [h] at hij; omega)] at this
    · rw [hsub i j hij] at this
      have h1 := hdiag i.castSucc
      have h2 := hdiag j.castSucc
      field_simp at this ⊢
      linarith
    · intro k _ hk
      rcases lt_trichotomy (k : ℕ) i with h | h | h
      · have : (k : ℕ) ≠ j := fun h => hk.2 (Fin.ext h)
        rw [hHess i k (by omega), zero_mul]
      · exact absurd (Fin.ext h) hk.1
      · rw [hR.lower i.castSucc k.castSucc (by rw [Fin.lt_def]; exact h), mul_zero]
  have hu : ∀ (i j : ℕ) (hi : i < p + 1) (hj : j < p + 1), uget R i j = R ⟨j, hj⟩ ⟨i, hi⟩ := by
    intro i j hi hj
    simp [uget, Ldl.mget, hi, hj]
  refine Matrix.ext (fun (i : Fin p) (j : Fin p) => ?_)
  have hi : (i : ℕ) < p := i.isLt
  have hj : (j : ℕ) < p := j.isLt
  show (if (i : ℕ) = j then (if (i : ℕ) = 0 then uget R 0 1 / uget R 0 0
      else uget R i (i + 1) / uget R i i - uget R (i - 1) (i - 1 + 1) / uget R (i - 1) (i - 1)) else 0)
    + (if (i : ℕ) = j + 1 then uget R (j + 1) (j + 1) / uget R j j else 0)
    + (if (i : ℕ) + 1 = j then uget R (i + 1) (i + 1) / uget R i i else 0) = K i j
  rcases lt_trichotomy (i : ℕ) j with h | h | h
  · rw [if_neg (show ¬ (i : ℕ) = j by omega), if_neg (show ¬ (i : ℕ) = j + 1 by omega)]
    by_cases h' : (i : ℕ) + 1 = j
    · rw [if_pos h', hsup i j h'.symm, hu _ _ (by omega) (by omega), hu _ _ (by omega) (by omega)]
      simp only [zero_add]
      have : (⟨(i : ℕ) + 1, by omega⟩ : Fin (p + 1)) = j.castSucc := by ext; simp [h']
      rw [this]; rfl
    · rw [if_neg h', hHess' i j (by omega)]; simp
  · have : i = j := Fin.ext h
    subst this
    rw [if_pos rfl, if_neg (show ¬ (i : ℕ) = i + 1 by omega), if_neg (show ¬ (i : ℕ) + 1 = i by omega)]
    simp only [add_zero]
    by_cases h0 : (i : ℕ) = 0
    · rw [if_pos h0, hdg0 i h0, hu _ _ (by omega) (by omega), hu _ _ (by omega) (by omega)]
      have e1 : (⟨1, by omega⟩ : Fin (p + 1)) = i.succ := by ext; simp [h0]
      have e2 : (⟨0, by omega⟩ : Fin (p + 1)) = i.castSucc := by ext; simp [h0]
      rw [e1, e2]
    · rw [if_neg h0, hdg i ⟨i - 1, by omega⟩ (by simp; omega), hu _ _ (by omega) (by omega),
        hu _ _ (by omega) (by omega), hu _ _ (by omega) (by omega), hu _ _ (by omega) (by omega)]
      have e1 : (⟨(i : ℕ) - 1 + 1, by omega⟩ : Fin (p + 1)) = i.castSucc := by ext; simp; omega
      rw [e1]; rfl
  · rw [if_neg (show ¬ (i : ℕ) = j by omega), if_neg (show ¬ (i : ℕ) + 1 = j by omega)]
    by_cases h' : (i : ℕ) = j + 1
    · rw [if_pos h', hsub i j h', hu _ _ (by omega) (by omega), hu _ _ (by omega) (by omega)]
      simp only [zero_add, add_zero]
      have : (⟨(j : ℕ) + 1, by omega⟩ : Fin (p + 1)) = i.castSucc := by ext; simp [h']
      rw [this]; rfl
    · rw [if_neg h', hHess i j (by omega)]; simp

end Mfs.Quad1

import Verif.Lemmas.Lanczos
import Mathlib.LinearAlgebra.Dimension.OrzechProperty
import Mathlib.LinearAlgebra.FiniteDimensional.Lemmas
import Mathlib.LinearAlgebra.Matrix.ToLin

/-!
When the residual of the Lanczos recursion vanishes.
-/

namespace Mfs

open Matrix Mfs.Utils Submodule

variable {n : ℕ} (a : Matrix (Fin n) (Fin n) ℝ) (v0 : Fin n → ℝ)

/-- the Krylov vectors. -/
noncomputable def krylov (k : ℕ) : Fin n → ℝ := a ^ k *ᵥ v0

theorem krylov_succ (k : ℕ) : krylov a v0 (k + 1) = a *ᵥ krylov a v0 k := by
  rw [krylov, krylov, Matrix.mulVec_mulVec, ← pow_succ']

theorem mulVec_mem_krylov {k : ℕ} {x : Fin n → ℝ} (hx : x ∈ span ℝ (krylov a v0 '' Set.Iic k)) :
    a *ᵥ x ∈ span ℝ (krylov a v0 '' Set.Iic (k + 1)) := by
  induction hx using Submodule.span_induction with
  | mem x h =>
    obtain ⟨i, hi, rfl⟩ := h
    rw [← krylov_succ]
    exact subset_span ⟨i + 1, Nat.succ_le_succ hi, rfl⟩
  | zero => rw [Matrix.mulVec_zero]; exact zero_mem _
  | add x y _ _ h1 h2 => rw [Matrix.mulVec_add]; exact add_mem h1 h2
  | smul c x _ h => rw [Matrix.mulVec_smul]; exact smul_mem _ c h

theorem krylov_mono {k l : ℕ} (h : k ≤ l) : span ℝ (krylov a v0 '' Set.Iic k) ≤ span ℝ (krylov a v0 '' Set.Iic l) :=
  span_mono (Set.image_mono (Set.Iic_subset_Iic.2 h))

theorem lzV_mem_krylov : ∀ k, lzV a v0 k ∈ span ℝ (krylov a v0 '' Set.Iic k) ∧ lzW a v0 k ∈ span ℝ (krylov a v0 '' Set.Iic (k + 1))
  | 0 => by
    have h : lzV a v0 0 ∈ span ℝ (krylov a v0 '' Set.Iic 0) := subset_span ⟨0, Set.mem_Iic.2 le_rfl, by simp [krylov, lzV_zero]⟩
    refine ⟨h, ?_⟩
    rw [lzW_zero]
    exact sub_mem (mulVec_mem_krylov a v0 h) (smul_mem _ _ (krylov_mono a v0 (Nat.le_succ 0) h))
  | k + 1 => by
    obtain ⟨h1, h2⟩ := lzV_mem_krylov k
    have h : lzV a v0 (k + 1) ∈ span ℝ (krylov a v0 '' Set.Iic (k + 1)) := by
      have : lzV a v0 (k + 1) = (lzB a v0 k)⁻¹ • lzW a v0 k := by
        rw [lzV_succ]
        ext i
        simp [div_eq_inv_mul]
      rw [this]
      exact smul_mem _ _ h2
    refine ⟨h, ?_⟩
    rw [lzW_succ]
    exact sub_mem (sub_mem (mulVec_mem_krylov a v0 h) (smul_mem _ _ (krylov_mono a v0 (Nat.le_succ _) h)))
      (smul_mem _ _ (krylov_mono a v0 (by omega) h1))

theorem lzW_of_zero {k : ℕ} (hb : lzB a v0 k = 0) : lzW a v0 k = 0 := by
  have h : ∑ i, lzW a v0 k i ^ 2 = 0 := (Real.sqrt_eq_zero (Finset.sum_nonneg fun i _ => sq_nonneg _)).1 hb
  ext i
  have := (Finset.sum_eq_zero_iff_of_nonneg fun i _ => sq_nonneg _).1 h i (Finset.mem_univ i)
  simpa using this

/-- when the residual vanishes, the Krylov vectors stay in the span of the Lanczos vectors found. -/
theorem krylov_mem_of_zero {k : ℕ} (hlt : ∀ j < k, lzB a v0 j ≠ 0) (hb : lzB a v0 k = 0) :
    ∀ i, krylov a v0 i ∈ span ℝ (Set.range fun j : Fin (k + 1) => lzV a v0 j) := by
  have hmem : ∀ j ≤ k, lzV a v0 j ∈ span ℝ (Set.range fun j : Fin (k + 1) => lzV a v0 j) :=
    fun j hj => subset_span ⟨⟨j, by omega⟩, rfl⟩
  have hW := lzW_of_zero a v0 hb
  have hinv : ∀ j ≤ k, a *ᵥ lzV a v0 j ∈ span ℝ (Set.range fun j : Fin (k + 1) => lzV a v0 j) := by
    intro j hj
    rcases Nat.eq_or_lt_of_le hj with rfl | hj'
    · rcases j with _ | j
      · rw [lzW_zero, sub_eq_zero] at hW
        rw [hW]
        exact smul_mem _ _ (hmem 0 le_rfl)
      · rw [lzW_succ, sub_sub, sub_eq_zero] at hW
        rw [hW]
        exact add_mem (smul_mem _ _ (hmem _ le_rfl)) (smul_mem _ _ (hmem _ (by omega)))
    · rcases j with _ | j
      · rw [lz_rec_zero (hlt 0 hj')]
        exact add_mem (smul_mem _ _ (hmem _ (by omega))) (smul_mem _ _ (hmem _ (by omega)))
      · rw [lz_rec_succ (hlt _ hj')]
        exact add_mem (add_mem (smul_mem _ _ (hmem _ (by omega))) (smul_mem _ _ (hmem _ (by omega)))) (smul_mem _ _ (hmem _ (by omega)))
  intro i
  induction i with
  | zero =>
    have := hmem 0 (by omega)
    rw [lzV_zero] at this
    simpa [krylov] using this
  | succ i ih =>
    rw [krylov_succ]
    generalize krylov a v0 i = y at ih
    induction ih using Submodule.span_induction with
    | mem x h =>
      obtain ⟨j, rfl⟩ := h
      exact hinv j (by omega)
    | zero => rw [Matrix.mulVec_zero]; exact zero_mem _
    | add x y _ _ h1 h2 => rw [Matrix.mulVec_add]; exact add_mem h1 h2
    | smul c x _ h => rw [Matrix.mulVec_smul]; exact smul_mem _ c h

theorem lz_independent {a : Matrix (Fin n) (Fin n) ℝ} {v0 : Fin n → ℝ} (ha : a.IsSymm) (h0 : v0 ⬝ᵥ v0 = 1) {m : ℕ}
    (hb : ∀ k, k + 1 < m → lzB a v0 k ≠ 0) : LinearIndependent ℝ fun k : Fin m => lzV a v0 k := by
  rw [Fintype.linearIndependent_iff]
  intro g hg i
  have ho := lz_orth ha h0 (m - 1) fun k hk => hb k (by omega)
  have h := congrArg (fun x => x ⬝ᵥ lzV a v0 i) hg
  simp only [sum_dotProduct, smul_dotProduct, zero_dotProduct, smul_eq_mul] at h
  rw [Finset.sum_eq_single i] at h
  · rwa [ho i (by omega) i (by omega), if_pos rfl, mul_one] at h
  · intro j _ hj
    rw [ho j (by omega) i (by omega), if_neg (fun h => hj (Fin.ext h)), mul_zero]
  · simp

/-- no residual vanishes if and only if the Krylov vectors are independent. -/
theorem lz_break_iff {a : Matrix (Fin n) (Fin n) ℝ} {v0 : Fin n → ℝ} (ha : a.IsSymm) (h0 : v0 ⬝ᵥ v0 = 1) (m : ℕ) :
    (∀ k, k + 1 < m → lzB a v0 k ≠ 0) ↔ LinearIndependent ℝ fun k : Fin m => krylov a v0 k := by
  constructor
  · intro hb
    have hli := lz_independent ha h0 hb
    rw [linearIndependent_iff_card_eq_finrank_span]
    refine le_antisymm ?_ (finrank_range_le_card _)
    rw [← finrank_span_eq_card hli]
    refine Submodule.finrank_mono (span_le.2 ?_)
    rintro _ ⟨k, rfl⟩
    refine span_mono ?_ (lzV_mem_krylov a v0 k).1
    rintro _ ⟨j, hj, rfl⟩
    exact ⟨⟨j, lt_of_le_of_lt hj k.2⟩, rfl⟩
  · intro hli
    by_contra hcon
    push Not at hcon
    classical
    have hex : ∃ k, lzB a v0 k = 0 := hcon.imp fun k h => h.2
    obtain ⟨k, hk, hk0⟩ := hcon
    have hmin := Nat.find_min' hex hk0
    have hspan := krylov_mem_of_zero a v0 (k := Nat.find hex) (fun j hj => Nat.find_min hex hj) (Nat.find_spec hex)
    have h1 := finrank_span_eq_card hli
    have h2 : Module.finrank ℝ (span ℝ (Set.range fun k : Fin m => krylov a v0 k)) ≤
        Module.finrank ℝ (span ℝ (Set.range fun j : Fin (Nat.find hex + 1) => lzV a v0 j)) :=
      Submodule.finrank_mono (span_le.2 (by rintro _ ⟨i, rfl⟩; exact hspan i))
    have h3 := finrank_range_le_card (R := ℝ) (fun j : Fin (Nat.find hex + 1) => lzV a v0 j)
    rw [Set.finrank] at h3
    rw [h1, Fintype.card_fin] at h2
    rw [Fintype.card_fin] at h3
    omega

end Mfs

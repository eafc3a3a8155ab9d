import Verif.Lemmas.QuadCore
import Verif.Lemmas.GaussRule
import Verif.Lemmas.Backend
import Verif.Model.Quad1

/-!
# Lemmas for the one-dimensional quadrature
-/

namespace Mfs.Quad1

open Matrix Mfs.Spec

section core

variable {n : ℕ} {G H R U : Matrix (Fin n) (Fin n) ℝ} {lam : Fin n → ℝ} {m : ℕ → ℝ}

theorem hankelMat_isSymm (n : ℕ) (m : ℕ → ℝ) : (hankelMat n m).IsSymm := by
  ext i j
  simp [hankelMat, add_comm]

theorem pow_rowVec (hR : IsChol (hankelMat n m) R) (hn : 0 < n) (k : ℕ) (hk : k < n) :
    (multMat R (hankelMat n fun k => m (k + 1))) ^ k *ᵥ rowVec R ⟨0, hn⟩ = rowVec R ⟨k, hk⟩ := by
  induction k with
  | zero => simp
  | succ k ih =>
    rw [pow_succ', ← Matrix.mulVec_mulVec, ih (by omega)]
    apply hR.multMat_rowVec
    intro c
    simp [hankelMat, add_assoc]

theorem dot_pow_symm {K : Matrix (Fin n) (Fin n) ℝ} (hK : K.IsSymm) (u v : Fin n → ℝ) (a b : ℕ) :
    u ⬝ᵥ (K ^ (a + b) *ᵥ v) = (K ^ a *ᵥ u) ⬝ᵥ (K ^ b *ᵥ v) := by
  have hs : (K ^ a)ᵀ = K ^ a := by rw [Matrix.transpose_pow, hK.eq]
  rw [pow_add, ← Matrix.mulVec_mulVec, Matrix.dotProduct_mulVec, ← Matrix.mulVec_transpose, hs]

theorem core (hR : IsChol (hankelMat n m) R) (hn : 0 < n)
    (hE : IsEigh (multMat R (hankelMat n fun k => m (k + 1))) U lam) :
    Reproduces (2 * n) (fun k => m k / m 0) (fun i => U ⟨0, hn⟩ i ^ 2) lam := by
  intro k hk
  set K := multMat R (hankelMat n fun k => m (k + 1)) with hKdef
  have hK : K.IsSymm := multMat_isSymm (hankelMat_isSymm _ _)
  set z : Fin n := ⟨0, hn⟩ with hz
  have hm0 : R z z * R z z = m 0 := by
    have := hR.rowVec_dot z z
    rw [hR.lower.rowVec_zero z rfl] at this
    simpa [hankelMat, hz] using this
  have hr := hR.diag_pos z
  have hm0' : m 0 ≠ 0 := by rw [← hm0]; positivity
  have hsum : ∑ i, U z i ^ 2 * lam i ^ k = (K ^ k) z z := by
    rw [hE.pow_apply]
    exact Finset.sum_congr rfl (fun i _ => by ring)
  have hv : rowVec R z ⬝ᵥ (K ^ k *ᵥ rowVec R z) = m 0 * (K ^ k) z z := by
    rw [hR.lower.rowVec_zero z rfl, ← hm0, Matrix.mulVec_smul, smul_dotProduct, dotProduct_smul]
    simp; ring
  rw [hsum, eq_div_iff hm0', mul_comm, ← hv]
  obtain ⟨a, b, rfl, ha, hb⟩ : ∃ a b, k = a + b ∧ a < n ∧ b ≤ n := ⟨min k (n - 1), k - min k (n - 1), by omega, by omega, by omega⟩
  rw [dot_pow_symm hK, pow_rowVec hR hn a ha]
  rcases Nat.lt_or_ge b n with h | h
  · rw [pow_rowVec hR hn b h, hR.rowVec_dot]
    simp [hankelMat]
  · obtain rfl : b = n := by omega
    obtain ⟨c, rfl⟩ : ∃ c, b = c + 1 := ⟨b - 1, by omega⟩
    rw [pow_succ', ← Matrix.mulVec_mulVec, pow_rowVec hR hn c (by omega), hR.rowVec_dot_multMat]
    simp [hankelMat, add_assoc]

end core

theorem orthonormalise_eq {n : ℕ} {G R H : Matrix (Fin n) (Fin n) ℝ} (hR : IsLower R) :
    orthonormalise R H = multMat R H := by
  rw [orthonormalise, triSolveRightT, triSolveLeft, lowerPart_eq hR, multMat]

theorem jget_eq {ms : List ℝ} {k : ℕ} (h : k < ms.length) : jget ms k = ms.getD k 0 := by
  rw [jget, min_eq_left (by omega)]

theorem gather_eq {n : ℕ} (ms : List ℝ) (h : 2 * n ≤ ms.length) :
    gather ms (hankelIndices n).1 = hankelMat n (fun k => ms.getD k 0) ∧
    gather ms (hankelIndices n).2 = hankelMat n (fun k => ms.getD (k + 1) 0) := by
  constructor <;>
  · ext i j
    simp only [gather, hankelIndices, hankelMat, Matrix.of_apply]
    exact jget_eq (by omega)

/-- everything about `moment_quadrature` on valid moments. -/
theorem momentQuadrature_data (B : Backend) (hB : B.Valid) (ms : List ℝ)
    (hpd : (hankelMat (ms.length / 2) (fun k => ms.getD k 0)).PosDef) (mean scale : ℝ) (sort ldl : Bool) :
    ∃ R : Matrix (Fin (ms.length / 2)) (Fin (ms.length / 2)) ℝ, IsChol (hankelMat _ (fun k => ms.getD k 0)) R ∧
    ∃ U lam, IsEigh (multMat R (hankelMat _ (fun k => ms.getD (k + 1) 0))) U lam ∧
      (momentQuadrature B ms mean scale sort ldl).1 = (fun i => U ⟨0, i.pos⟩ i ^ 2) ∧
      (momentQuadrature B ms mean scale sort ldl).2 = (fun i => scale * lam i + mean) := by
  obtain ⟨hG, hH⟩ := gather_eq (n := ms.length / 2) ms (by omega)
  set G := hankelMat (ms.length / 2) (fun k => ms.getD k 0) with hGd
  set H := hankelMat (ms.length / 2) (fun k => ms.getD (k + 1) 0) with hHd
  have hR : IsChol G (if ldl then Ldl.ldlChol G else B.chol (symmetrize G)) := by
    cases ldl
    · simp only [Bool.false_eq_true, if_false]
      rw [symmetrize_eq (hankelMat_isSymm _ _)]
      exact hB.chol G hpd
    · simp only [if_true]
      exact Ldl.ldlChol_isChol G hpd none
  refine ⟨_, hR, ?_⟩
  have hK : (multMat (if ldl then Ldl.ldlChol G else B.chol (symmetrize G)) H).IsSymm :=
    multMat_isSymm (hankelMat_isSymm _ _)
  refine ⟨_, _, hB.eigh sort _ hK, ?_, ?_⟩
  all_goals
    simp only [momentQuadrature, hG, hH]
    rw [orthonormalise_eq (G := G) hR.lower, symmetrize_eq hK]

theorem momentQuadrature_reproduces (B : Backend) (hB : B.Valid) (ms : List ℝ)
    (hpd : (hankelMat (ms.length / 2) (fun k => ms.getD k 0)).PosDef) (sort ldl : Bool) :
    Reproduces (2 * (ms.length / 2)) (fun k => ms.getD k 0 / ms.getD 0 0) (momentQuadrature B ms 0 1 sort ldl).1
      (momentQuadrature B ms 0 1 sort ldl).2 := by
  obtain ⟨R, hR, U, lam, hE, h1, h2⟩ := momentQuadrature_data B hB ms hpd 0 1 sort ldl
  rw [h1, h2]
  rcases Nat.eq_zero_or_pos (ms.length / 2) with h0 | h0
  · intro k hk; omega
  · simpa using core hR h0 hE

theorem moment_zero_pos {n : ℕ} (m : ℕ → ℝ) (hn : 0 < n) (hpd : (hankelMat n m).PosDef) : 0 < m 0 := by
  have := hpd.diag_pos (i := ⟨0, hn⟩)
  simpa [hankelMat] using this

theorem posDef_normalised {n : ℕ} (m : ℕ → ℝ) (hpd : (hankelMat n m).PosDef) :
    (hankelMat n (fun k => m k / m 0)).PosDef := by
  rcases Nat.eq_zero_or_pos n with h0 | h0
  · subst h0
    convert hpd using 1
    ext i; exact i.elim0
  · have hp := moment_zero_pos m h0 hpd
    have : hankelMat n (fun k => m k / m 0) = (1 / m 0) • hankelMat n m := by
      ext i j
      simp [hankelMat, div_eq_inv_mul]
    rw [this]
    exact hpd.smul (by positivity)

theorem momentQuadrature_affine (B : Backend) (ms : List ℝ) (mean scale : ℝ) (sort ldl : Bool) :
    (momentQuadrature B ms mean scale sort ldl).1 = (momentQuadrature B ms 0 1 sort ldl).1 ∧
    (momentQuadrature B ms mean scale sort ldl).2
      = fun i => scale * (momentQuadrature B ms 0 1 sort ldl).2 i + mean := by
  constructor
  · rfl
  · ext i; simp [momentQuadrature]

/-- uniqueness, with propositionally equal sizes. -/
theorem Reproduces_unique' {n n' : ℕ} (hn : n' = n) {m : ℕ → ℝ} {w x : Fin n → ℝ} {w' x' : Fin n' → ℝ}
    (hpd : (hankelMat n m).PosDef) (h : Reproduces (2 * n) m w x) (h' : Reproduces (2 * n) m w' x') (f : ℝ → ℝ) :
    ∑ i, w i * f (x i) = ∑ i, w' i * f (x' i) := by
  subst hn
  exact h.unique hpd h' f

end Mfs.Quad1

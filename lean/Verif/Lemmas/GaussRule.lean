import Verif.Spec.LinAlg
import Mathlib.Algebra.Polynomial.BigOperators
import Mathlib.Algebra.Polynomial.Eval.Degree
import Mathlib.Algebra.Polynomial.Roots

/-!
# Uniqueness of Gauss rules

An `n`-point rule reproducing `2n` moments whose Hankel matrix is positive definite has positive weights and distinct
nodes, and is unique as a discrete measure.
-/

namespace Mfs.Spec

open Matrix Polynomial

/-- the Hankel (Gram) matrix of a moment sequence. -/
def hankelMat (n : ℕ) (m : ℕ → ℝ) : Matrix (Fin n) (Fin n) ℝ := Matrix.of fun i j => m (i + j)

/-- the rule `(w, x)` reproduces the moments `m 0, …, m (N - 1)`. -/
def Reproduces {ι : Type*} [Fintype ι] (N : ℕ) (m : ℕ → ℝ) (w x : ι → ℝ) : Prop :=
  ∀ k < N, ∑ i, w i * x i ^ k = m k

/-- the moment functional on polynomials. -/
noncomputable def momFun (m : ℕ → ℝ) (p : ℝ[X]) : ℝ := ∑ k ∈ Finset.range (p.natDegree + 1), p.coeff k * m k

variable {ι : Type*} [Fintype ι] {N : ℕ} {m : ℕ → ℝ} {w x : ι → ℝ}

theorem Reproduces.poly (h : Reproduces N m w x) (p : ℝ[X]) (hp : p.natDegree < N) :
    ∑ i, w i * p.eval (x i) = momFun m p := by
  simp only [Polynomial.eval_eq_sum_range, Finset.mul_sum, momFun]
  rw [Finset.sum_comm]
  apply Finset.sum_congr rfl
  intro k hk
  rw [Finset.mem_range] at hk
  rw [← h k (by omega), Finset.mul_sum]
  exact Finset.sum_congr rfl (fun i _ => by ring)

theorem momFun_sq_pos {n : ℕ} (hpd : (hankelMat n m).PosDef) (h : Reproduces (2 * n) m w x) (q : ℝ[X]) (hq : q ≠ 0)
    (hd : q.natDegree < n) : 0 < ∑ i, w i * q.eval (x i) ^ 2 := by
  let c : Fin n → ℝ := fun i => q.coeff i
  have hc : c ≠ 0 := by
    intro h0
    apply hq
    ext k
    by_cases hk : k < n
    · exact congrFun h0 ⟨k, hk⟩
    · rw [Polynomial.coeff_eq_zero_of_natDegree_lt (by omega), Polynomial.coeff_zero]
  have hpos := hpd.dotProduct_mulVec_pos hc
  rw [star_trivial] at hpos
  refine hpos.trans_eq (Eq.symm ?_)
  have heval : ∀ y, q.eval y = ∑ a : Fin n, c a * y ^ (a : ℕ) := by
    intro y
    rw [Polynomial.eval_eq_sum_range' hd, Finset.sum_range]
  simp only [heval, dotProduct, Matrix.mulVec, hankelMat, Matrix.of_apply, Finset.mul_sum]
  have : ∀ i, w i * (∑ a : Fin n, c a * x i ^ (a : ℕ)) ^ 2
      = ∑ a : Fin n, ∑ b : Fin n, c a * (w i * x i ^ ((a : ℕ) + b)) * c b := by
    intro i
    rw [sq, Finset.sum_mul_sum, Finset.mul_sum]
    apply Finset.sum_congr rfl
    intro a _
    rw [Finset.mul_sum]
    apply Finset.sum_congr rfl
    intro b _
    rw [pow_add]; ring
  simp only [this]
  rw [Finset.sum_comm]
  apply Finset.sum_congr rfl
  intro a _
  rw [Finset.sum_comm]
  apply Finset.sum_congr rfl
  intro b _
  rw [← Finset.sum_mul, ← Finset.mul_sum, h (a + b) (by omega)]
  ring

section Square

variable {n : ℕ} {w x : Fin n → ℝ}

/-- `∏_{j ≠ i} (X - x_j)`. -/
noncomputable def nodePolyErase (x : Fin n → ℝ) (i : Fin n) : ℝ[X] := ∏ j ∈ Finset.univ.erase i, (X - C (x j))

/-- `∏_j (X - x_j)`. -/
noncomputable def nodePoly (x : Fin n → ℝ) : ℝ[X] := ∏ j, (X - C (x j))

theorem natDegree_nodePolyErase (x : Fin n → ℝ) (i : Fin n) : (nodePolyErase x i).natDegree = n - 1 := by
  rw [nodePolyErase, Polynomial.natDegree_prod_of_monic _ _ (fun j _ => Polynomial.monic_X_sub_C _)]
  simp

theorem natDegree_nodePoly (x : Fin n → ℝ) : (nodePoly x).natDegree = n := by
  rw [nodePoly, Polynomial.natDegree_prod_of_monic _ _ (fun j _ => Polynomial.monic_X_sub_C _)]
  simp

theorem nodePolyErase_ne_zero (x : Fin n → ℝ) (i : Fin n) : nodePolyErase x i ≠ 0 :=
  (Polynomial.monic_prod_of_monic _ _ (fun _ _ => Polynomial.monic_X_sub_C _)).ne_zero

theorem eval_nodePolyErase (x : Fin n → ℝ) (i : Fin n) (y : ℝ) :
    (nodePolyErase x i).eval y = ∏ j ∈ Finset.univ.erase i, (y - x j) := by
  simp [nodePolyErase, Polynomial.eval_prod]

theorem eval_nodePoly (x : Fin n → ℝ) (y : ℝ) : (nodePoly x).eval y = ∏ j, (y - x j) := by
  simp [nodePoly, Polynomial.eval_prod]

theorem eval_nodePolyErase_ne (x : Fin n → ℝ) {i j : Fin n} (h : j ≠ i) : (nodePolyErase x i).eval (x j) = 0 := by
  rw [eval_nodePolyErase]
  exact Finset.prod_eq_zero (Finset.mem_erase.2 ⟨h, Finset.mem_univ _⟩) (sub_self _)

theorem sum_erase_eval (w x : Fin n → ℝ) (i : Fin n) (f : ℝ → ℝ) (hf : ∀ y, (nodePolyErase x i).eval y = 0 → f y = 0) :
    ∑ j, w j * f (x j) = w i * f (x i) := by
  rw [Finset.sum_eq_single i]
  · intro j _ hj
    rw [hf _ (eval_nodePolyErase_ne x hj), mul_zero]
  · simp

variable (hpd : (hankelMat n m).PosDef) (h : Reproduces (2 * n) m w x)

include hpd h

theorem Reproduces.sq_pos (i : Fin n) : 0 < w i * (nodePolyErase x i).eval (x i) ^ 2 := by
  have := momFun_sq_pos hpd h (nodePolyErase x i) (nodePolyErase_ne_zero x i)
    (by rw [natDegree_nodePolyErase]; have := i.pos; omega)
  rwa [sum_erase_eval w x i (fun y => (nodePolyErase x i).eval y ^ 2) (fun y hy => by simp [hy])] at this

theorem Reproduces.weight_pos (i : Fin n) : 0 < w i := by
  have := h.sq_pos hpd i
  by_contra hw
  have h2 := sq_nonneg ((nodePolyErase x i).eval (x i))
  nlinarith

theorem Reproduces.eval_ne_zero (i : Fin n) : (nodePolyErase x i).eval (x i) ≠ 0 := by
  intro h0
  have := h.sq_pos hpd i
  rw [h0] at this
  simp at this

theorem Reproduces.injective : Function.Injective x := by
  intro i j hij
  by_contra hne
  exact h.eval_ne_zero hpd i (by
    have := eval_nodePolyErase_ne x (Ne.symm hne)
    rwa [← hij] at this)

/-- Uniqueness: two `n`-point rules reproducing the same `2n` moments integrate every function to the same value. -/
theorem Reproduces.unique {w' x' : Fin n → ℝ} (h' : Reproduces (2 * n) m w' x') (f : ℝ → ℝ) :
    ∑ i, w i * f (x i) = ∑ i, w' i * f (x' i) := by
  have hroot : ∀ j, ∃ i, x i = x' j := by
    intro j
    have hn := j.pos
    have hdeg : (nodePoly x * nodePolyErase x' j).natDegree < 2 * n := by
      refine lt_of_le_of_lt Polynomial.natDegree_mul_le ?_
      rw [natDegree_nodePoly, natDegree_nodePolyErase]
      omega
    have h1 := h.poly _ hdeg
    have h2 := h'.poly _ hdeg
    rw [← h1] at h2
    have h3 : ∑ i, w i * (nodePoly x * nodePolyErase x' j).eval (x i) = 0 := by
      apply Finset.sum_eq_zero
      intro i _
      rw [Polynomial.eval_mul, eval_nodePoly, Finset.prod_eq_zero (Finset.mem_univ i) (sub_self _)]
      simp
    rw [h3, sum_erase_eval w' x' j (fun y => (nodePoly x * nodePolyErase x' j).eval y)
      (fun y hy => by simp [Polynomial.eval_mul, hy]), Polynomial.eval_mul] at h2
    have h4 := (h'.weight_pos hpd j).ne'
    have h5 := h'.eval_ne_zero hpd j
    have h6 : (nodePoly x).eval (x' j) = 0 := by
      rcases mul_eq_zero.1 h2 with h | h
      · exact absurd h h4
      · rcases mul_eq_zero.1 h with h | h
        · exact h
        · exact absurd h h5
    rw [eval_nodePoly, Finset.prod_eq_zero_iff] at h6
    obtain ⟨i, _, hi⟩ := h6
    exact ⟨i, (sub_eq_zero.1 hi).symm⟩
  choose σ hσ using hroot
  have hinj : Function.Injective σ := by
    intro a b hab
    apply h'.injective hpd
    rw [← hσ a, ← hσ b, hab]
  have hbij : Function.Bijective σ := hinj.bijective_of_finite
  let e := Equiv.ofBijective σ hbij
  have hw : ∀ j, w (σ j) = w' j := by
    intro j
    have hn := j.pos
    have hdeg : (nodePolyErase x' j).natDegree < 2 * n := by
      rw [natDegree_nodePolyErase]; omega
    have h1 := h.poly _ hdeg
    have h2 := h'.poly _ hdeg
    rw [← h1, sum_erase_eval w' x' j (fun y => (nodePolyErase x' j).eval y) (fun y hy => hy)] at h2
    rw [Finset.sum_eq_single (σ j), hσ] at h2
    · exact (mul_right_cancel₀ (h'.eval_ne_zero hpd j) h2).symm
    · intro i _ hi
      obtain ⟨k, rfl⟩ := hbij.2 i
      rw [hσ k, eval_nodePolyErase_ne x' (fun hk => hi (by rw [hk])), mul_zero]
    · simp
  rw [← Equiv.sum_comp e]
  apply Finset.sum_congr rfl
  intro j _
  show w (σ j) * f (x (σ j)) = _
  rw [hw, hσ]

end Square

end Mfs.Spec

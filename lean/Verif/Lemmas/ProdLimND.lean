import Verif.Lemmas.StrongLimND

/-!
# Products of functions of single coordinates under the multidimensional rule
-/

namespace Mfs.StrongND

open MeasureTheory Filter Topology Matrix Mfs.Converge Mfs.Spec Mfs.Lemmas

variable {d : ℕ} {μ : Measure (Fin d → ℝ)}
variable {L : MvPolynomial (Fin d) ℝ →ₗ[ℝ] ℝ} {z : ℕ → ℕ} {K U : ∀ N, Fin d → Matrix (Fin (z N)) (Fin (z N)) ℝ}
  {lam : ∀ N, Fin d → Fin (z N) → ℝ} {vec : ∀ N, MvPolynomial (Fin d) ℝ →ₗ[ℝ] (Fin (z N) → ℝ)}

theorem Approx.congr {v v' : ∀ N, Fin (z N) → ℝ} {g g' : (Fin d → ℝ) → ℝ} (h : Approx μ vec v g) (hv : ∀ N, v N = v' N)
    (hg : ∀ x, g x = g' x) : Approx μ vec v' g' := by
  rw [← funext hv, ← funext hg]
  exact h

/-- polynomials of one coordinate. -/
theorem VecSeq.exact (S : VecSeq μ L z K U lam vec) {v : ∀ N, Fin (z N) → ℝ} (q : MvPolynomial (Fin d) ℝ)
    (hv : ∀ᶠ N in atTop, v N = vec N q) (j : Fin d) (p : Polynomial ℝ) :
    ∀ᶠ N in atTop, funMat (U N j) (lam N j) (fun t => p.eval t) *ᵥ v N = vec N (Polynomial.aeval (MvPolynomial.X j) p * q) := by
  filter_upwards [hv, eventually_ge_atTop (max 2 (q.totalDegree + p.natDegree + 1))] with N h1 h2
  rw [h1, (S.eigh N (by omega) j).funMat_poly, (S.pv N (by omega)).poly j p q (by omega)]

/-- the factors from the `k`-th on. -/
def tailProd (F : Fin d → ℝ) (k : ℕ) : ℝ := ∏ j : Fin d, if k ≤ j then F j else 1

/-- the factors before the `k`-th. -/
def headProd (F : Fin d → ℝ) (k : ℕ) : ℝ := ∏ j : Fin d, if (j : ℕ) < k then F j else 1

theorem tailProd_end (F : Fin d → ℝ) : tailProd F d = 1 :=
  Finset.prod_eq_one fun j _ => if_neg (by have := j.2; omega)

theorem headProd_zero (F : Fin d → ℝ) : headProd F 0 = 1 := Finset.prod_eq_one fun j _ => if_neg (by omega)

theorem tailProd_step (F : Fin d → ℝ) (k : ℕ) (hk : k < d) : tailProd F k = F ⟨k, hk⟩ * tailProd F (k + 1) := by
  have e : F ⟨k, hk⟩ = ∏ j : Fin d, if j = ⟨k, hk⟩ then F j else 1 := by simp
  rw [e, tailProd, tailProd, ← Finset.prod_mul_distrib]
  refine Finset.prod_congr rfl fun j _ => ?_
  by_cases h1 : j = ⟨k, hk⟩
  · subst h1; simp
  · have : (j : ℕ) ≠ k := fun h => h1 (Fin.ext h)
    by_cases h2 : k ≤ (j : ℕ)
    · rw [if_pos h2, if_neg h1, if_pos (by omega), one_mul]
    · rw [if_neg h2, if_neg h1, if_neg (by omega), one_mul]

theorem headProd_step (F : Fin d → ℝ) (k : ℕ) (hk : k < d) : headProd F (k + 1) = F ⟨k, hk⟩ * headProd F k := by
  have e : F ⟨k, hk⟩ = ∏ j : Fin d, if j = ⟨k, hk⟩ then F j else 1 := by simp
  rw [e, headProd, headProd, ← Finset.prod_mul_distrib]
  refine Finset.prod_congr rfl fun j _ => ?_
  by_cases h1 : j = ⟨k, hk⟩
  · subst h1; simp
  · have : (j : ℕ) ≠ k := fun h => h1 (Fin.ext h)
    by_cases h2 : (j : ℕ) < k
    · rw [if_pos (by omega), if_neg h1, if_pos h2, one_mul]
    · rw [if_neg (by omega), if_neg h1, if_neg h2, one_mul]

theorem head_mul_tail (F : Fin d → ℝ) (k : ℕ) : headProd F k * tailProd F k = ∏ j, F j := by
  rw [headProd, tailProd, ← Finset.prod_mul_distrib]
  refine Finset.prod_congr rfl fun j _ => ?_
  by_cases h : (j : ℕ) < k
  · rw [if_pos h, if_neg (by omega), mul_one]
  · rw [if_neg h, if_pos (by omega), one_mul]

section
variable {n : ℕ}

/-- the product of the matrices from the `k`-th on, on a vector. -/
def tailVec (M : Fin d → Matrix (Fin n) (Fin n) ℝ) (e : Fin n → ℝ) (k : ℕ) : Fin n → ℝ := ((List.ofFn M).drop k).prod *ᵥ e

/-- the transposed product of the matrices before the `k`-th, on a vector. -/
def headVec (M : Fin d → Matrix (Fin n) (Fin n) ℝ) (e : Fin n → ℝ) (k : ℕ) : Fin n → ℝ := (((List.ofFn M).take k).prod)ᵀ *ᵥ e

theorem tailVec_end (M : Fin d → Matrix (Fin n) (Fin n) ℝ) (e : Fin n → ℝ) : tailVec M e d = e := by
  rw [tailVec, List.drop_eq_nil_of_le (by simp)]
  simp

theorem headVec_zero (M : Fin d → Matrix (Fin n) (Fin n) ℝ) (e : Fin n → ℝ) : headVec M e 0 = e := by simp [headVec]

theorem tailVec_step (M : Fin d → Matrix (Fin n) (Fin n) ℝ) (e : Fin n → ℝ) (k : ℕ) (hk : k < d) :
    tailVec M e k = M ⟨k, hk⟩ *ᵥ tailVec M e (k + 1) := by
  rw [tailVec, List.drop_eq_getElem_cons (by simpa using hk), List.prod_cons, ← Matrix.mulVec_mulVec, tailVec]
  simp

theorem headVec_step (M : Fin d → Matrix (Fin n) (Fin n) ℝ) (hM : ∀ j, (M j)ᵀ = M j) (e : Fin n → ℝ) (k : ℕ) (hk : k < d) :
    headVec M e (k + 1) = M ⟨k, hk⟩ *ᵥ headVec M e k := by
  rw [headVec, List.prod_take_succ _ _ (by simpa using hk), Matrix.transpose_mul, ← Matrix.mulVec_mulVec, headVec]
  simp [hM]

theorem head_dot_tail (M : Fin d → Matrix (Fin n) (Fin n) ℝ) (e : Fin n → ℝ) (k : ℕ) :
    headVec M e k ⬝ᵥ tailVec M e k = e ⬝ᵥ ((List.ofFn M).prod *ᵥ e) := by
  rw [headVec, tailVec, Matrix.mulVec_transpose, ← Matrix.dotProduct_mulVec, Matrix.mulVec_mulVec, ← List.prod_append, List.take_append_drop]

end

/-- **products.** Between the positions `a ≤ b` the factors are bounded, at `a` and `b` of polynomial growth, and polynomials elsewhere. -/
theorem VecSeq.product (S : VecSeq μ L z K U lam vec) (f : Fin d → ℝ → ℝ) (hc : ∀ j, Continuous (f j)) (a b : Fin d) (hab : a ≤ b)
    (hpoly : ∀ j, j < a ∨ b < j → ∃ p : Polynomial ℝ, ∀ t, f j t = p.eval t)
    (hbd : ∀ j, a < j → j < b → ∃ C, ∀ t, |f j t| ≤ C) (ha : PolyGrowth (f a)) (hb : PolyGrowth (f b)) :
    Tendsto (fun N => vec N 1 ⬝ᵥ ((List.ofFn fun j => funMat (U N j) (lam N j) (f j)).prod *ᵥ vec N 1)) atTop
      (𝓝 (∫ x, ∏ j, f j (x j) ∂μ)) := by
  set M : ∀ N, Fin d → Matrix (Fin (z N)) (Fin (z N)) ℝ := fun N j => funMat (U N j) (lam N j) (f j) with hM
  have hsym : ∀ N j, (M N j)ᵀ = M N j := fun N j => funMat_transpose _
  -- polynomials to the right of `b`
  have R1 : ∀ i : ℕ, ∀ k, k + i = d → b < k → ∃ q : MvPolynomial (Fin d) ℝ, (∀ x, MvPolynomial.eval x q = tailProd (fun j => f j (x j)) k) ∧
      ∀ᶠ N in atTop, tailVec (M N) (vec N 1) k = vec N q := by
    intro i
    induction i with
    | zero =>
      intro k hk _
      obtain rfl : k = d := by omega
      exact ⟨1, fun x => by rw [tailProd_end]; simp, .of_forall fun N => tailVec_end _ _⟩
    | succ i ih =>
      intro k hk hbk
      obtain ⟨q, hq1, hq2⟩ := ih (k + 1) (by omega) (by omega)
      have hkd : k < d := by omega
      obtain ⟨p, hp⟩ := hpoly ⟨k, hkd⟩ (Or.inr (Fin.lt_def.2 hbk))
      refine ⟨Polynomial.aeval (MvPolynomial.X ⟨k, hkd⟩) p * q, fun x => ?_, ?_⟩
      · rw [map_mul, eval_aeval_coord, hq1, tailProd_step _ k hkd, hp]
      · filter_upwards [S.exact q hq2 ⟨k, hkd⟩ p] with N hN
        rw [tailVec_step _ _ k hkd, ← hN]
        simp only [hM]
        rw [funext hp]
  -- polynomials to the left of `a`
  have L1 : ∀ k : ℕ, k ≤ a → ∃ q : MvPolynomial (Fin d) ℝ, (∀ x, MvPolynomial.eval x q = headProd (fun j => f j (x j)) k) ∧
      ∀ᶠ N in atTop, headVec (M N) (vec N 1) k = vec N q := by
    intro k
    induction k with
    | zero => exact fun _ => ⟨1, fun x => by rw [headProd_zero]; simp, .of_forall fun N => headVec_zero _ _⟩
    | succ k ih =>
      intro hk
      obtain ⟨q, hq1, hq2⟩ := ih (by omega)
      have hkd : k < d := by have := a.2; omega
      obtain ⟨p, hp⟩ := hpoly ⟨k, hkd⟩ (Or.inl (Fin.lt_def.2 (by simpa using hk)))
      refine ⟨Polynomial.aeval (MvPolynomial.X ⟨k, hkd⟩) p * q, fun x => ?_, ?_⟩
      · rw [map_mul, eval_aeval_coord, hq1, headProd_step _ k hkd, hp]
      · filter_upwards [S.exact q hq2 ⟨k, hkd⟩ p] with N hN
        rw [headVec_step _ (hsym N) _ k hkd, ← hN]
        simp only [hM]
        rw [funext hp]
  -- the factor at `b`
  have R2 : Approx μ vec (fun N => tailVec (M N) (vec N 1) b) fun x => tailProd (fun j => f j (x j)) b := by
    obtain ⟨q, hq1, hq2⟩ := R1 (d - (b + 1)) (b + 1) (by have := b.2; omega) (by omega)
    refine (Approx.growth S q hq2 b (hc b) hb).congr (fun N => ?_) fun x => ?_
    · rw [tailVec_step _ _ b b.2]
    · rw [tailProd_step _ b b.2, hq1]
  -- bounded factors
  have R3 : ∀ i k : ℕ, k + i = b → a < k → Approx μ vec (fun N => tailVec (M N) (vec N 1) k) fun x => tailProd (fun j => f j (x j)) k := by
    intro i
    induction i with
    | zero =>
      intro k hk _
      obtain rfl : k = b := by omega
      exact R2
    | succ i ih =>
      intro k hk hak
      have hkd : k < d := by have := b.2; omega
      obtain ⟨C, hC⟩ := hbd ⟨k, hkd⟩ (Fin.lt_def.2 hak) (Fin.lt_def.2 (by simp; omega))
      refine ((ih (k + 1) (by omega) (by omega)).bdd S ⟨k, hkd⟩ (hc _) hC).congr (fun N => ?_) fun x => ?_
      · rw [tailVec_step _ _ k hkd]
      · rw [tailProd_step _ k hkd]
  obtain ⟨q, hq1, hq2⟩ := L1 a le_rfl
  rcases hab.eq_or_lt with h | h
  · subst h
    have h1 := (Approx.poly (vec := vec) S.expo q hq2).dot S R2
    simp only [hq1, head_mul_tail] at h1
    exact h1.congr fun N => head_dot_tail _ _ _
  · have h2 : Approx μ vec (fun N => headVec (M N) (vec N 1) (a + 1)) fun x => headProd (fun j => f j (x j)) (a + 1) := by
      refine (Approx.growth S q hq2 a (hc a) ha).congr (fun N => ?_) fun x => ?_
      · rw [headVec_step _ (hsym N) _ a a.2]
      · rw [headProd_step _ a a.2, hq1]
    have h1 := h2.dot S (R3 (b - (a + 1)) (a + 1) (by have := Fin.lt_def.1 h; omega) (by omega))
    simp only [head_mul_tail] at h1
    exact h1.congr fun N => head_dot_tail _ _ _

end Mfs.StrongND

import Verif.Lemmas.LanczosBreak
import Verif.Props.Lanczos
import Mathlib.LinearAlgebra.Vandermonde
import Mathlib.Tactic.FinCases

/-!
# C204: when `lanczos` divides by zero, and where the Ritz values lie

C57 and C58 assume that no off-diagonal entry returned by `lanczos` vanishes; a vanishing entry is the denominator of a division of the
zero vector. Here this is characterised in terms of the arguments.
-/

namespace Mfs.Props

open Matrix Mfs.Utils Mfs.Spec

variable {n : ℕ}

private theorem dot_one {v0 : Fin n → ℝ} (hv : ∑ i, v0 i ^ 2 = 1) : v0 ⬝ᵥ v0 = 1 := by
  rw [dotProduct, ← hv]; exact Finset.sum_congr rfl fun i _ => (sq _).symm

private theorem betas_iff (a : Matrix (Fin n) (Fin n) ℝ) (v0 : Fin n → ℝ) (m : ℕ) (hm : 1 ≤ m) :
    (∀ β ∈ (lanczos a v0 m).2.2, β ≠ 0) ↔ ∀ k, k + 1 < m → lzB a v0 k ≠ 0 := by
  rw [lanczos_eq a v0 m hm]
  simp only [List.mem_map, List.mem_range, forall_exists_index, and_imp, forall_apply_eq_imp_iff₂]
  exact ⟨fun h k hk => h k (by omega), fun h k hk => h k (by omega)⟩

/-- C204. No division by zero in `m` iterations if and only if the vectors `v0, a v0, …, a ^ (m - 1) v0` are independent. -/
theorem C204_breakdown_iff (a : Matrix (Fin n) (Fin n) ℝ) (ha : a.IsSymm) (v0 : Fin n → ℝ) (hv : ∑ i, v0 i ^ 2 = 1) (m : ℕ) (hm : 1 ≤ m) :
    (∀ β ∈ (lanczos a v0 m).2.2, β ≠ 0) ↔ LinearIndependent ℝ fun k : Fin m => a ^ (k : ℕ) *ᵥ v0 := by
  rw [betas_iff a v0 m hm]
  exact lz_break_iff ha (dot_one hv) m

/-- C204. More iterations than rows always divide by zero. -/
theorem C204_too_many (a : Matrix (Fin n) (Fin n) ℝ) (ha : a.IsSymm) (v0 : Fin n → ℝ) (hv : ∑ i, v0 i ^ 2 = 1) (m : ℕ) (hm : n < m) :
    (0 : ℝ) ∈ (lanczos a v0 m).2.2 := by
  by_contra h
  have h1 := (C204_breakdown_iff a ha v0 hv m (by omega)).1 fun β hβ h0 => h (h0 ▸ hβ)
  have h2 := h1.fintype_card_le_finrank
  rw [Fintype.card_fin, Module.finrank_fin_fun] at h2
  omega

private theorem eig_pow (a : Matrix (Fin n) (Fin n) ℝ) (ha : a.IsSymm) {x v0 : Fin n → ℝ} {c : ℝ} (hx : a *ᵥ x = c • x) (k : ℕ) :
    x ⬝ᵥ (a ^ k *ᵥ v0) = c ^ k * (x ⬝ᵥ v0) := by
  induction k with
  | zero => simp
  | succ k ih =>
    rw [pow_succ', ← Matrix.mulVec_mulVec, ← lz_symm ha, hx, smul_dotProduct, ih, smul_eq_mul, pow_succ]
    ring

/-- C204. The full decomposition (`m = n`) succeeds if and only if no eigenvector of the matrix is orthogonal to the start vector. -/
theorem C204_full (a : Matrix (Fin n) (Fin n) ℝ) (ha : a.IsSymm) (v0 : Fin n → ℝ) (hv : ∑ i, v0 i ^ 2 = 1) (hn : 1 ≤ n) :
    (∀ β ∈ (lanczos a v0 n).2.2, β ≠ 0) ↔ ∀ (x : Fin n → ℝ) (c : ℝ), x ≠ 0 → a *ᵥ x = c • x → x ⬝ᵥ v0 ≠ 0 := by
  rw [C204_breakdown_iff a ha v0 hv n hn]
  constructor
  · intro hli x c hx0 hx h0
    have htop := hli.span_eq_top_of_card_eq_finrank' (by simp)
    have hall : ∀ y ∈ Submodule.span ℝ (Set.range fun k : Fin n => a ^ (k : ℕ) *ᵥ v0), x ⬝ᵥ y = 0 := by
      intro y hy
      induction hy using Submodule.span_induction with
      | mem y h =>
        obtain ⟨k, rfl⟩ := h
        simp only
        rw [eig_pow a ha hx, h0, mul_zero]
      | zero => simp
      | add y z _ _ h1 h2 => rw [dotProduct_add, h1, h2, add_zero]
      | smul c y _ h => rw [dotProduct_smul, h, smul_zero]
    exact hx0 (dotProduct_self_eq_zero.1 (hall x (htop ▸ Submodule.mem_top)))
  · intro hall
    have he := theBackend_valid.eigh false a ha
    set U := (theBackend.eigh false a).1
    set lam := (theBackend.eigh false a).2
    have hUU := he.orth'
    have hdot : ∀ i j, U.col i ⬝ᵥ U.col j = if i = j then 1 else 0 := fun i j => by
      have := congrFun (congrFun hUU i) j
      rw [Matrix.mul_apply, Matrix.one_apply] at this
      exact this
    have hcol : ∀ i, a *ᵥ U.col i = lam i • U.col i := by
      intro i
      have h : a * U = U * Matrix.diagonal lam := by
        rw [he.spec, Matrix.mul_assoc, hUU, Matrix.mul_one]
      ext j
      have := congrFun (congrFun h j) i
      rw [Matrix.mul_apply, Matrix.mul_diagonal] at this
      rw [Pi.smul_apply, smul_eq_mul, mul_comm]
      exact this
    have hne : ∀ i, U.col i ≠ 0 := fun i h => by
      have := hdot i i
      rw [h, if_pos rfl, zero_dotProduct] at this
      exact zero_ne_one this
    have hinj : Function.Injective lam := by
      intro i j hij
      by_contra hne'
      refine hall ((U.col j ⬝ᵥ v0) • U.col i - (U.col i ⬝ᵥ v0) • U.col j) (lam i) ?_ ?_ ?_
      · intro h
        have h1 := congrArg (fun x => x ⬝ᵥ U.col i) h
        simp only [sub_dotProduct, smul_dotProduct, zero_dotProduct] at h1
        rw [hdot, hdot, if_pos rfl, if_neg (Ne.symm hne'), smul_zero, sub_zero, smul_eq_mul, mul_one] at h1
        exact hall _ _ (hne j) (hcol j) h1
      · rw [Matrix.mulVec_sub, Matrix.mulVec_smul, Matrix.mulVec_smul, hcol, hcol, ← hij, smul_sub, smul_comm (lam i) (U.col j ⬝ᵥ v0), smul_comm (lam i) (U.col i ⬝ᵥ v0)]
      · rw [sub_dotProduct, smul_dotProduct, smul_dotProduct, smul_eq_mul, smul_eq_mul]
        ring
    rw [Fintype.linearIndependent_iff]
    intro g hg
    have hz := Matrix.eq_zero_of_forall_index_sum_mul_pow_eq_zero (v := g) hinj fun i => by
      have h := congrArg (fun y => U.col i ⬝ᵥ y) hg
      simp only [dotProduct_sum, dotProduct_smul, dotProduct_zero, smul_eq_mul] at h
      have h' : (U.col i ⬝ᵥ v0) * ∑ k : Fin n, g k * lam i ^ (k : ℕ) = 0 := by
        rw [← h, Finset.mul_sum]
        refine Finset.sum_congr rfl fun k _ => ?_
        rw [eig_pow a ha (hcol i)]
        ring
      exact (mul_eq_zero.1 h').resolve_left (hall _ _ (hne i) (hcol i))
    intro i
    exact congrFun hz i

/-- C204. For a matrix with a repeated eigenvalue the full decomposition divides by zero whatever the start vector. -/
theorem C204_repeated (a : Matrix (Fin n) (Fin n) ℝ) (ha : a.IsSymm) (c : ℝ) (x y : Fin n → ℝ) (hx : a *ᵥ x = c • x) (hy : a *ᵥ y = c • y)
    (hxy : LinearIndependent ℝ ![x, y]) (v0 : Fin n → ℝ) (hv : ∑ i, v0 i ^ 2 = 1) : (0 : ℝ) ∈ (lanczos a v0 n).2.2 := by
  have hn : 1 ≤ n := by
    rcases n with _ | n
    · simp at hv
    · omega
  rw [LinearIndependent.pair_iff] at hxy
  by_contra h
  have hall := (C204_full a ha v0 hv hn).1 fun β hβ h0 => h (h0 ▸ hβ)
  refine hall ((y ⬝ᵥ v0) • x - (x ⬝ᵥ v0) • y) c ?_ ?_ ?_
  · intro h0
    have h1 := hxy (y ⬝ᵥ v0) (-(x ⬝ᵥ v0)) (by rw [neg_smul, ← sub_eq_add_neg, h0])
    refine hall x c ?_ hx (neg_eq_zero.1 h1.2)
    rintro rfl
    have := hxy 1 0 (by simp)
    exact one_ne_zero this.1
  · rw [Matrix.mulVec_sub, Matrix.mulVec_smul, Matrix.mulVec_smul, hx, hy, smul_sub, smul_comm c (y ⬝ᵥ v0), smul_comm c (x ⬝ᵥ v0)]
  · rw [sub_dotProduct, smul_dotProduct, smul_dotProduct, smul_eq_mul, smul_eq_mul]
    ring

/-- C204. So the docstring of `lanczos` is wrong when it allows an arbitrary unit vector and calls the factorisation precise for `m = n`: for the
identity of order two and the vector `[1, 0]` proposed there, the second iteration computes `0 / 0`. -/
theorem C204_docstring_refuted : (1 : Matrix (Fin 2) (Fin 2) ℝ).IsSymm ∧ ∑ i, (![1, 0] : Fin 2 → ℝ) i ^ 2 = 1 ∧
    (lanczos (1 : Matrix (Fin 2) (Fin 2) ℝ) ![1, 0] 2).2.2 = [0] ∧
    ∀ v0 : Fin 2 → ℝ, ∑ i, v0 i ^ 2 = 1 → (0 : ℝ) ∈ (lanczos (1 : Matrix (Fin 2) (Fin 2) ℝ) v0 2).2.2 := by
  refine ⟨Matrix.isSymm_one, by simp, ?_, fun v0 hv => ?_⟩
  · simp [lanczos, scan, lanczosBody, dotProduct, Fin.sum_univ_two]
  · refine C204_repeated 1 Matrix.isSymm_one 1 ![1, 0] ![0, 1] (by simp) (by simp) ?_ v0 hv
    rw [LinearIndependent.pair_iff]
    intro s t h
    have h0 := congrFun h 0
    have h1 := congrFun h 1
    simp at h0 h1
    exact ⟨h0, h1⟩

private theorem tridiag_of (al be : List ℝ) (m : ℕ) (i j : Fin m) :
    tridiag al be m i j = if i = j then al.getD i 0 else if (i : ℕ) = j + 1 then be.getD j 0 else if (j : ℕ) = i + 1 then be.getD i 0 else 0 := by
  simp only [tridiag, Matrix.of_apply, Fin.ext_iff]
  split_ifs <;> first | omega | simp

/-- C204. If there is no breakdown, the Ritz vectors are orthogonal with respect to the Euclidean and to the form of the matrix, the Ritz values
are their Rayleigh quotients and lie between all bounds of the spectrum of the matrix, and the squared lengths of the Ritz vectors are the
weights of a Gauss rule for `v0ᵀ aᵏ v0`: exact for all `k < 2 m`. -/
theorem C204_ritz (B : Backend) (hB : B.Valid) (a : Matrix (Fin n) (Fin n) ℝ) (ha : a.IsSymm) (v0 : Fin n → ℝ) (hv : v0 ≠ 0)
    (m : ℕ) [NeZero m] (hb : LinearIndependent ℝ fun k : Fin m => a ^ (k : ℕ) *ᵥ v0) (sort : Bool) (lo hi : ℝ)
    (hlo : ∀ x, lo * (x ⬝ᵥ x) ≤ x ⬝ᵥ a *ᵥ x) (hhi : ∀ x, x ⬝ᵥ a *ᵥ x ≤ hi * (x ⬝ᵥ x)) :
    ∃ (ritz : Matrix (Fin n) (Fin m) ℝ) (lam : Fin m → ℝ), lanczosRitz B a v0 m false sort = some (ritz, lam) ∧
      (∀ j, lo ≤ lam j ∧ lam j ≤ hi) ∧
      (∀ p q, p ≠ q → ritz.col p ⬝ᵥ ritz.col q = 0 ∧ ritz.col p ⬝ᵥ a *ᵥ ritz.col q = 0) ∧
      (∀ p, ritz.col p ⬝ᵥ a *ᵥ ritz.col p = lam p * (ritz.col p ⬝ᵥ ritz.col p)) ∧
      ∀ k < 2 * m, ∑ p, (ritz.col p ⬝ᵥ ritz.col p) * lam p ^ k = v0 ⬝ᵥ a ^ k *ᵥ v0 := by
  have hm : 1 ≤ m := NeZero.one_le
  set N := Real.sqrt (∑ i, v0 i ^ 2) with hN
  have hss : 0 < ∑ i, v0 i ^ 2 := by
    obtain ⟨i, hi⟩ := Function.ne_iff.1 hv
    exact Finset.sum_pos' (fun i _ => sq_nonneg _) ⟨i, Finset.mem_univ i, by have : v0 i ≠ 0 := hi; positivity⟩
  have hN0 : N ≠ 0 := (Real.sqrt_pos.2 hss).ne'
  have hN2 : N ^ 2 = ∑ i, v0 i ^ 2 := Real.sq_sqrt hss.le
  set u : Fin n → ℝ := fun i => v0 i / N with hu
  have hu1 : ∑ i, u i ^ 2 = 1 := by
    simp only [hu, div_pow]
    rw [← Finset.sum_div, ← hN2, div_self (pow_ne_zero 2 hN0)]
  have hv0 : v0 = N • u := by
    ext i; simp only [hu, Pi.smul_apply, smul_eq_mul]; field_simp
  have hbu : ∀ β ∈ (lanczos a u m).2.2, β ≠ 0 := by
    rw [C204_breakdown_iff a ha u hu1 m hm]
    have h := hb.units_smul fun _ => (Units.mk0 N hN0)⁻¹
    convert h using 1
    ext k i
    rw [hv0, Pi.smul_apply', Matrix.mulVec_smul]
    simp [Units.smul_def, hN0]
  obtain ⟨hn, ritz, lam, hr, -, hpow⟩ := C58_ritz B hB a ha v0 hv m hbu sort
  obtain ⟨V, T, hV, -, -, hT, hV0, hVV, hproj, -⟩ := C57_lanczos a ha u hu1 m hm hbu
  have hTt : tridiag (lanczos a u m).2.1 (lanczos a u m).2.2 m = T := by
    ext i j
    rw [tridiag_of, hT]
  have hTs : T.IsSymm := by
    rw [← hproj, Matrix.IsSymm, Matrix.transpose_mul, Matrix.transpose_mul, Matrix.transpose_transpose, ha.eq, Matrix.mul_assoc]
  have hsy : symmetrize T = T := by
    rw [symmetrize, hTs.eq, ← two_smul ℝ T, smul_smul]; norm_num
  have he := hB.eigh sort T hTs
  set U := (B.eigh sort T).1 with hUdef
  have hform : lanczosRitz B a v0 m false sort =
      some (Matrix.of fun i j => ∑ k : Fin m, V i k * U k j * (U 0 j * N), (B.eigh sort T).2) := by
    rw [lanczosRitz, if_neg (by simp)]
    simp only [← hN, ← hu, hTt, hsy, ← hUdef]
    congr 2
    ext i j
    simp only [Matrix.of_apply]
    refine Finset.sum_congr rfl fun k _ => ?_
    rw [hV, List.getD_eq_getElem?_getD, List.getElem?_ofFn]
    simp
  rw [hform, Option.some.injEq, Prod.mk.injEq] at hr
  obtain ⟨hr1, hr2⟩ := hr
  rw [hr2] at he
  have hcol : ∀ j, ritz.col j = (U 0 j * N) • (V *ᵥ U.col j) := by
    intro j
    ext i
    rw [← hr1]
    simp only [Matrix.col_apply, Matrix.of_apply, Pi.smul_apply, smul_eq_mul, Matrix.mulVec, dotProduct, Finset.mul_sum]
    exact Finset.sum_congr rfl fun k _ => by ring
  have hzz : ∀ p q, (V *ᵥ U.col p) ⬝ᵥ (V *ᵥ U.col q) = if p = q then 1 else 0 := by
    intro p q
    rw [Matrix.dotProduct_mulVec, ← Matrix.mulVec_transpose, Matrix.mulVec_mulVec, hVV, Matrix.one_mulVec]
    have := congrFun (congrFun he.orth' p) q
    rw [Matrix.mul_apply, Matrix.one_apply] at this
    exact this
  have hza : ∀ p q, (V *ᵥ U.col p) ⬝ᵥ a *ᵥ (V *ᵥ U.col q) = if p = q then lam p else 0 := by
    intro p q
    rw [Matrix.mulVec_mulVec, Matrix.dotProduct_mulVec, ← Matrix.mulVec_transpose, Matrix.mulVec_mulVec, Matrix.transpose_mul, ha.eq, hproj]
    have h : T * U = U * Matrix.diagonal lam := by
      rw [he.spec, Matrix.mul_assoc, he.orth', Matrix.mul_one]
    have hTU : T *ᵥ U.col p = lam p • U.col p := by
      ext j
      have := congrFun (congrFun h j) p
      rw [Matrix.mul_apply, Matrix.mul_diagonal] at this
      rw [Pi.smul_apply, smul_eq_mul, mul_comm]
      exact this
    rw [hTU, smul_dotProduct]
    have := congrFun (congrFun he.orth' p) q
    rw [Matrix.mul_apply, Matrix.one_apply] at this
    have h2 : U.col p ⬝ᵥ U.col q = if p = q then 1 else 0 := this
    rw [h2]
    split_ifs <;> simp
  have hpp : ∀ p q, ritz.col p ⬝ᵥ ritz.col q = if p = q then (U 0 p * N) ^ 2 else 0 := by
    intro p q
    rw [hcol, hcol, smul_dotProduct, dotProduct_smul, hzz]
    split_ifs with h
    · subst h
      simp only [smul_eq_mul]
      ring
    · simp
  have hpa : ∀ p q, ritz.col p ⬝ᵥ a *ᵥ ritz.col q = if p = q then lam p * (U 0 p * N) ^ 2 else 0 := by
    intro p q
    rw [hcol, hcol, Matrix.mulVec_smul, smul_dotProduct, dotProduct_smul, hza]
    split_ifs with h
    · subst h
      simp only [smul_eq_mul]
      ring
    · simp
  have hsum : ∀ k < m, a ^ k *ᵥ v0 = ∑ p, lam p ^ k • ritz.col p := by
    intro k hk
    rw [← hpow k (Or.inl hk)]
    ext i
    simp [Finset.sum_apply]
  refine ⟨ritz, lam, by rw [hform, hr1, hr2], fun j => ?_, fun p q h => ?_, fun p => ?_, fun k hk => ?_⟩
  · have h1 := hlo (V *ᵥ U.col j)
    have h2 := hhi (V *ᵥ U.col j)
    rw [hzz, hza, if_pos rfl, if_pos rfl, mul_one] at h1 h2
    exact ⟨h1, h2⟩
  · rw [hpp, hpa, if_neg h, if_neg h]
    exact ⟨rfl, rfl⟩
  · rw [hpp, hpa, if_pos rfl, if_pos rfl]
  · have hsymm : ∀ i (x y : Fin n → ℝ), x ⬝ᵥ a ^ i *ᵥ y = (a ^ i *ᵥ x) ⬝ᵥ y := by
      intro i x y
      rw [lz_symm (ha.pow i)]
    by_cases hk' : k < 2 * m - 1
    · -- `k = i + j` with `i, j < m`
      obtain ⟨i, j, hi', hj', rfl⟩ : ∃ i j, i < m ∧ j < m ∧ k = i + j := ⟨min k (m - 1), k - min k (m - 1), by omega, by omega, by omega⟩
      rw [pow_add, ← Matrix.mulVec_mulVec, hsymm, hsum i hi', hsum j hj']
      simp only [sum_dotProduct, dotProduct_sum, smul_dotProduct, dotProduct_smul, hpp, smul_eq_mul]
      refine Finset.sum_congr rfl fun p _ => ?_
      rw [Finset.sum_eq_single p]
      · simp only [if_true]; ring
      · intro q _ hq; simp [hq]
      · simp
    · obtain rfl : k = (m - 1) + ((m - 1) + 1) := by omega
      rw [pow_add, pow_succ', ← Matrix.mulVec_mulVec, ← Matrix.mulVec_mulVec, hsymm, hsum (m - 1) (by omega)]
      rw [Matrix.mulVec_sum]
      simp only [Matrix.mulVec_smul, sum_dotProduct, dotProduct_sum, smul_dotProduct, dotProduct_smul, hpp, hpa, smul_eq_mul]
      refine Finset.sum_congr rfl fun p _ => ?_
      rw [Finset.sum_eq_single p]
      · simp only [if_true]; ring
      · intro q _ hq; simp [hq]
      · simp

/-- a matrix and a vector that meet the hypotheses of `C204_ritz` with two iterations, and the bounds of the spectrum. -/
example : ∃ (a : Matrix (Fin 2) (Fin 2) ℝ) (v0 : Fin 2 → ℝ), a.IsSymm ∧ v0 ≠ 0 ∧ LinearIndependent ℝ (fun k : Fin 2 => a ^ (k : ℕ) *ᵥ v0) ∧
    (∀ x, 1 * (x ⬝ᵥ x) ≤ x ⬝ᵥ a *ᵥ x) ∧ ∀ x, x ⬝ᵥ a *ᵥ x ≤ 3 * (x ⬝ᵥ x) := by
  refine ⟨!![1, 0; 0, 3], ![2, 1], by ext i j; fin_cases i <;> fin_cases j <;> rfl, fun h => by simpa using congrFun h 0, ?_, fun x => ?_, fun x => ?_⟩
  · rw [Fintype.linearIndependent_iff]
    intro g hg
    have h0 := congrFun hg 0
    have h1 := congrFun hg 1
    simp [Fin.sum_univ_two] at h0 h1
    intro i
    fin_cases i <;> simp <;> linarith
  · simp [dotProduct, Matrix.mulVec, Fin.sum_univ_two]
    nlinarith [sq_nonneg (x 1)]
  · simp [dotProduct, Matrix.mulVec, Fin.sum_univ_two]
    nlinarith [sq_nonneg (x 0)]

end Mfs.Props

import Verif.Lemmas.Words
import Verif.Lemmas.Quad1
import Verif.Model.QuadND
import Verif.Spec.MomentsND
import Verif.Props.MultiIndex

/-!
# Lemmas for the multidimensional quadrature
-/

namespace Mfs.QuadND

open Matrix Mfs.Spec Mfs.Quad1 Mfs.MultiIndex

/-! ### Cartesian products -/

theorem mem_cartesianProd_replicate {α : Type} (l : List α) (d : ℕ) (v : List α) :
    v ∈ cartesianProd (List.replicate d l) ↔ v.length = d ∧ ∀ a ∈ v, a ∈ l := by
  induction d generalizing v with
  | zero =>
    simp only [List.replicate_zero, cartesianProd, List.mem_singleton, List.length_eq_zero_iff]
    constructor
    · rintro rfl; simp
    · rintro ⟨h, _⟩; exact h
  | succ d ih =>
    simp only [List.replicate_succ, cartesianProd, List.mem_flatMap, List.mem_map, ih]
    constructor
    · rintro ⟨a, ha, w, ⟨h1, h2⟩, rfl⟩
      refine ⟨by simp [h1], ?_⟩
      intro b hb
      rcases List.mem_cons.1 hb with rfl | hb
      · exact ha
      · exact h2 b hb
    · rintro ⟨h1, h2⟩
      cases v with
      | nil => simp at h1
      | cons a w =>
        exact ⟨a, h2 a (by simp), w, ⟨by simpa using h1, fun b hb => h2 b (by simp [hb])⟩, rfl⟩

theorem nodup_cartesianProd {α : Type} (ls : List (List α)) (h : ∀ l ∈ ls, l.Nodup) : (cartesianProd ls).Nodup := by
  induction ls with
  | nil => simp [cartesianProd]
  | cons l ls ih =>
    rw [cartesianProd, List.nodup_flatMap]
    constructor
    · intro a _
      exact (ih (fun l hl => h l (by simp [hl]))).map (fun x y hxy => by simpa using hxy)
    · refine (h l (by simp)).imp ?_
      intro a b hab
      rw [Function.onFun, List.disjoint_left]
      intro v hv hv'
      rw [List.mem_map] at hv hv'
      obtain ⟨x, _, rfl⟩ := hv
      obtain ⟨y, _, hy⟩ := hv'
      exact hab (by simpa using (List.cons.inj hy).1.symm)

theorem length_cartesianProd_replicate {α : Type} (l : List α) (d : ℕ) :
    (cartesianProd (List.replicate d l)).length = l.length ^ d := by
  induction d with
  | zero => simp [cartesianProd]
  | succ d ih =>
    simp only [List.replicate_succ, cartesianProd, List.length_flatMap, List.length_map, ih]
    simp [pow_succ, mul_comm]

/-! ### Transfer matrices -/

section

variable {z : ℕ}

/-- chain of inner products, started at `u` and closed by the first entry. -/
def chainFrom (z0 : Fin z) : (Fin z → ℝ) → List (Fin z → ℝ) → ℝ
  | u, [] => u z0
  | u, v :: vs => (u ⬝ᵥ v) * chainFrom z0 v vs

theorem chainFrom_eq (z0 : Fin z) (u v : Fin z → ℝ) (vs : List (Fin z → ℝ)) :
    chainFrom z0 u (v :: vs) = (u ⬝ᵥ v) * chain (v :: vs) * ((v :: vs).getLastD 0) z0 := by
  induction vs generalizing u v with
  | nil => simp [chainFrom, chain]
  | cons w ws ih =>
    rw [chainFrom, ih]
    simp [chain]
    ring

theorem weight_eq (h : 0 < z) (v : Fin z → ℝ) (vs : List (Fin z → ℝ)) :
    weight h (v :: vs) = chainFrom ⟨0, h⟩ (Pi.single ⟨0, h⟩ 1) (v :: vs) := by
  rw [chainFrom_eq, weight, single_one_dotProduct]
  simp only [List.headD_cons]
  ring

theorem sum_finRange (f : Fin z → ℝ) : ((List.finRange z).map f).sum = ∑ i, f i := by
  rw [← List.ofFn_eq_map, List.sum_ofFn]

theorem sum_flatMap_map {α β : Type} (l : List α) (g : α → List β) (f : β → ℝ) :
    ((l.flatMap g).map f).sum = (l.map fun a => ((g a).map f).sum).sum := by
  induction l with
  | nil => simp
  | cons a l ih => simp [ih]

theorem transfer (z0 : Fin z) (es : List (Matrix (Fin z) (Fin z) ℝ × (Fin z → ℝ))) (fs : List (ℝ → ℝ))
    (hl : fs.length = es.length) (u : Fin z → ℝ) :
    ((cartesianProd (List.replicate es.length (List.finRange z))).map fun idx =>
        chainFrom z0 u (List.zipWith (fun row i => row i) (es.map fun e => fun i k => e.1 k i) idx)
          * prodFun fs (List.zipWith (fun row i => row i) (es.map fun e => e.2) idx)).sum
      = u ⬝ᵥ ((List.zipWith (fun e f => funMat e.1 e.2 f) es fs).prod *ᵥ Pi.single z0 1) := by
  induction es generalizing fs u with
  | nil =>
    obtain rfl := List.length_eq_zero_iff.1 (show fs.length = 0 by simpa using hl)
    simp only [List.length_nil, List.replicate_zero, cartesianProd, List.map_cons, List.map_nil, List.zipWith_nil_right,
      List.zipWith_nil_left, List.prod_nil, prodFun, chainFrom, List.sum_cons, List.sum_nil, Matrix.one_mulVec,
      dotProduct_single_one, mul_one, add_zero]
  | cons e es ih =>
    cases fs with
    | nil => simp at hl
    | cons f fs =>
      simp only [List.length_cons, List.replicate_succ, cartesianProd]
      rw [sum_flatMap_map, sum_finRange]
      simp only [List.map_map, List.map_cons, Function.comp_def, List.zipWith_cons_cons, chainFrom, prodFun,
        List.prod_cons]
      have : ∀ i : Fin z, ((cartesianProd (List.replicate es.length (List.finRange z))).map fun idx =>
          (u ⬝ᵥ fun k => e.1 k i) * chainFrom z0 (fun k => e.1 k i)
              (List.zipWith (fun row i => row i) (es.map fun e => fun i k => e.1 k i) idx)
            * (f (e.2 i) * (List.zipWith (fun f y => f y) fs
                (List.zipWith (fun row i => row i) (es.map fun e => e.2) idx)).prod)).sum
          = (u ⬝ᵥ fun k => e.1 k i) * f (e.2 i) *
            ((fun k => e.1 k i) ⬝ᵥ ((List.zipWith (fun e f => funMat e.1 e.2 f) es fs).prod *ᵥ Pi.single z0 1)) := by
        intro i
        rw [← ih fs (by simpa using hl), ← List.sum_map_mul_left]
        congr 1
        apply List.map_congr_left
        intro idx _
        rw [prodFun]; ring
      simp only [this]
      rw [← Matrix.mulVec_mulVec]
      generalize (List.zipWith (fun e f => funMat e.1 e.2 f) es fs).prod *ᵥ Pi.single z0 1 = y
      simp only [dotProduct, Matrix.mulVec, funMat_apply, Finset.mul_sum, Finset.sum_mul]
      rw [Finset.sum_congr rfl fun i _ => Finset.sum_comm, Finset.sum_comm]
      refine Finset.sum_congr rfl fun a _ => ?_
      rw [Finset.sum_comm]
      refine Finset.sum_congr rfl fun b _ => Finset.sum_congr rfl fun i _ => ?_
      ring

end

/-! ### The rule -/

/-- matrices diagonalised by the code. -/
noncomputable def codeR (B : Backend) {z : ℕ} (G : Matrix (Fin z) (Fin z) ℝ) (ldl : Bool) : Matrix (Fin z) (Fin z) ℝ :=
  if ldl then Ldl.ldlChol G else B.chol (symmetrize G)

theorem codeR_isChol {B : Backend} (hB : B.Valid) {z : ℕ} {G : Matrix (Fin z) (Fin z) ℝ} (hG : G.PosDef) (ldl : Bool) :
    IsChol G (codeR B G ldl) := by
  cases ldl
  · have hs : G.IsSymm := by
      have := hG.1
      rwa [Matrix.IsHermitian, Matrix.conjTranspose_eq_transpose_of_trivial] at this
    simp only [codeR, Bool.false_eq_true, if_false]
    rw [symmetrize_eq hs]
    exact hB.chol G hG
  · simp only [codeR, if_true]
    exact Ldl.ldlChol_isChol G hG none

theorem quadCore_map (B : Backend) {z d : ℕ} (h : 0 < z) (G : Matrix (Fin z) (Fin z) ℝ)
    (Hs : List (Matrix (Fin z) (Fin z) ℝ)) (mean scale : Option (List ℝ)) (sort ldl : Bool) :
    quadCore B z d G Hs mean scale sort ldl
      = (ndCartesianProdIndices d z).map fun idx =>
        (weight h (List.zipWith (fun row i => row i)
            ((Hs.map fun H => B.eigh sort (symmetrize (orthonormalise (codeR B G ldl) H))).map
              fun e => fun i k => e.1 k i) idx),
          affineNode mean scale (List.zipWith (fun row i => row i)
            ((Hs.map fun H => B.eigh sort (symmetrize (orthonormalise (codeR B G ldl) H))).map fun e => e.2) idx)) := by
  rw [quadCore]
  simp only [h, dif_pos, ndCartesianProd, List.zipWith_map, List.zipWith_self]
  rfl

theorem quadCore_affine (B : Backend) {z d : ℕ} (G : Matrix (Fin z) (Fin z) ℝ)
    (Hs : List (Matrix (Fin z) (Fin z) ℝ)) (mean scale : Option (List ℝ)) (sort ldl : Bool) :
    quadCore B z d G Hs mean scale sort ldl
      = (quadCore B z d G Hs none none sort ldl).map fun p => (p.1, affineNode mean scale p.2) := by
  by_cases h : 0 < z
  · rw [quadCore_map B h, quadCore_map B h, List.map_map (l := ndCartesianProdIndices d z)]
    rfl
  · simp [quadCore, h]

theorem quadCore_prod (B : Backend) {z : ℕ} (h : 0 < z) (G : Matrix (Fin z) (Fin z) ℝ)
    (Hs : List (Matrix (Fin z) (Fin z) ℝ)) (hne : Hs ≠ []) (sort ldl : Bool) (fs : List (ℝ → ℝ))
    (hl : fs.length = Hs.length) :
    integND (quadCore B z Hs.length G Hs none none sort ldl) (prodFun fs)
      = (List.zipWith (fun e f => funMat e.1 e.2 f)
          (Hs.map fun H => B.eigh sort (symmetrize (orthonormalise (codeR B G ldl) H))) fs).prod ⟨0, h⟩ ⟨0, h⟩ := by
  rw [quadCore_map B h, integND, List.map_map]
  set es := Hs.map fun H => B.eigh sort (symmetrize (orthonormalise (codeR B G ldl) H)) with hes
  have hlen : es.length = Hs.length := by simp [hes]
  have := transfer ⟨0, h⟩ es fs (by rw [hl, hlen]) (Pi.single ⟨0, h⟩ 1)
  rw [single_one_dotProduct, Matrix.mulVec_single_one] at this
  rw [Matrix.col_apply] at this
  rw [← this, ndCartesianProdIndices, hlen]
  congr 1
  apply List.map_congr_left
  intro idx hidx
  rw [← hlen, mem_cartesianProd_replicate] at hidx
  simp only [Function.comp_def, affineNode]
  congr 1
  obtain ⟨e, es', he⟩ : ∃ e es', es = e :: es' := by
    cases hq : es with
    | nil => rw [hq] at hlen; exact absurd (List.length_eq_zero_iff.1 hlen.symm) hne
    | cons e es' => exact ⟨e, es', rfl⟩
  rw [he] at hidx ⊢
  obtain ⟨hi, _⟩ := hidx
  cases idx with
  | nil => simp at hi
  | cons i idx => exact weight_eq h _ _

theorem nodes_length (B : Backend) {z : ℕ} (G : Matrix (Fin z) (Fin z) ℝ)
    (Hs : List (Matrix (Fin z) (Fin z) ℝ)) (sort ldl : Bool) :
    ∀ p ∈ quadCore B z Hs.length G Hs none none sort ldl, p.2.length = Hs.length := by
  by_cases h : 0 < z
  · rw [quadCore_map B h]
    intro p hp
    rw [List.mem_map] at hp
    obtain ⟨idx, hidx, rfl⟩ := hp
    rw [ndCartesianProdIndices, mem_cartesianProd_replicate] at hidx
    simp [affineNode, hidx.1]
  · simp [quadCore, h]

theorem quadCore_length (B : Backend) {z d : ℕ} (h : 0 < z) (G : Matrix (Fin z) (Fin z) ℝ)
    (Hs : List (Matrix (Fin z) (Fin z) ℝ)) (mean scale : Option (List ℝ)) (sort ldl : Bool) :
    (quadCore B z d G Hs mean scale sort ldl).length = z ^ d := by
  rw [quadCore_map B h, List.length_map, ndCartesianProdIndices, length_cartesianProd_replicate]
  simp

theorem funMat_one {n : ℕ} {K U : Matrix (Fin n) (Fin n) ℝ} {lam : Fin n → ℝ} (h : IsEigh K U lam) :
    funMat U lam (fun _ => 1) = 1 := by
  ext a b
  rw [funMat_apply]
  simp only [mul_one]
  rw [← h.orth, Matrix.mul_apply]
  rfl

theorem prod_funMat_one {n : ℕ} (es : List (Matrix (Fin n) (Fin n) ℝ × (Fin n → ℝ)))
    (h : ∀ e ∈ es, ∃ K, IsEigh K e.1 e.2) :
    (List.zipWith (fun e f => funMat e.1 e.2 f) es (List.replicate es.length (fun _ => 1))).prod = 1 := by
  induction es with
  | nil => simp
  | cons e es ih =>
    obtain ⟨K, hK⟩ := h e (by simp)
    simp only [List.length_cons, List.replicate_succ, List.zipWith_cons_cons, List.prod_cons]
    rw [ih (fun e he => h e (by simp [he])), funMat_one hK, one_mul]

theorem prodFun_replicate_one (d : ℕ) (x : List ℝ) : prodFun (List.replicate d fun _ => 1) x = 1 := by
  induction d generalizing x with
  | zero => simp [prodFun]
  | succ d ih =>
    cases x with
    | nil => simp [prodFun]
    | cons a x =>
      have := ih x
      simp only [prodFun] at this
      simp [prodFun, List.replicate_succ, this]

theorem quadCore_sum_one {B : Backend} (hB : B.Valid) {z : ℕ} (h : 0 < z) (G : Matrix (Fin z) (Fin z) ℝ)
    (Hs : List (Matrix (Fin z) (Fin z) ℝ)) (hne : Hs ≠ []) (sort ldl : Bool) :
    ((quadCore B z Hs.length G Hs none none sort ldl).map (·.1)).sum = 1 := by
  have := quadCore_prod B h G Hs hne sort ldl (List.replicate Hs.length fun _ => 1) (by simp)
  rw [integND] at this
  simp only [prodFun_replicate_one, mul_one] at this
  rw [this]
  set es := Hs.map fun H => B.eigh sort (symmetrize (orthonormalise (codeR B G ldl) H)) with hes
  have hlen : Hs.length = es.length := by simp [hes]
  rw [hlen, prod_funMat_one, Matrix.one_apply_eq]
  intro e he
  rw [hes, List.mem_map] at he
  obtain ⟨H, _, rfl⟩ := he
  exact ⟨_, hB.eigh sort _ (symmetrize_isSymm _)⟩

/-! ### The link with the multi-index tables -/

theorem ofFn_getD {d : ℕ} (x : List ℕ) (h : x.length = d) : List.ofFn (fun j : Fin d => x.getD j 0) = x := by
  subst h
  apply List.ext_getElem (by simp)
  intro i h1 h2
  simp [List.getD_eq_getElem?_getD]

theorem getD_getD_of_bind {mats : List (List (List ℤ))} {i a b : ℕ} {k : ℤ}
    (h : ((mats[i]?.bind (·[a]?)).bind (·[b]?)) = some k) : (((mats.getD i []).getD a []).getD b 0) = k := by
  rw [Option.bind_eq_some_iff] at h
  obtain ⟨row, h1, h2⟩ := h
  rw [Option.bind_eq_some_iff] at h1
  obtain ⟨M, h3, h4⟩ := h1
  simp [List.getD_eq_getElem?_getD, h3, h4, h2]

theorem jget_map {full : List (List ℕ)} {μ : List ℕ → ℝ} {k : ℕ} {x : List ℕ} (h : full[k]? = some x) :
    jget (full.map μ) k = μ x := by
  have hk : k < full.length := by
    by_contra hc
    rw [List.getElem?_eq_none (by omega)] at h
    simp at h
  rw [jget_eq (by simpa using hk)]
  simp [List.getD_eq_getElem?_getD, h]

theorem comps_zero (d : ℕ) : comps d 0 = [List.replicate d 0] := by
  induction d with
  | zero => rfl
  | succ d ih => simp [comps, ih, List.replicate_succ]

theorem table_zero (d u : ℕ) : (table d u 0)[0]? = some (List.replicate d 0) := by
  rw [table, show u + 1 - 0 = u + 1 by omega, List.range'_succ, List.flatMap_cons, comps_zero]
  rfl

theorem momentData {N d : ℕ} (hN : 1 ≤ N) (hd : 1 ≤ d) (μ : List ℕ → ℝ) {basis full : List (List ℕ)}
    {mats : List (List (List ℤ))} (hbasis : generateMultiIndices d (N - 1) 0 = .ok basis)
    (hfull : generateMultiIndices d (2 * N - 1) 0 = .ok full) (hmats : gramAndHankelIndices N d = .ok mats) :
    ∃ h : 0 < basis.length, mats.length = d + 1 ∧ (mats.getD 0 []).length = basis.length ∧
      gatherL (full.map μ) basis.length (mats.getD 0 []) = gramOn basis μ ∧
      ∀ R, IsChol (gramOn basis μ) R →
      MomentData N (fun α : Fin d → ℕ => μ (List.ofFn α)) (fun a j => (basis[a]).getD j 0) ⟨0, h⟩
        (gramOn basis μ) R (fun i => gatherL (full.map μ) basis.length (mats.getD (i + 1) [])) := by
  obtain ⟨basis', full', mats', h1, h2, h3, hlen, hdims, hent⟩ := Props.C05_gram_hankel_indices N d hN hd
  rw [hbasis] at h1; rw [hfull] at h2; rw [hmats] at h3
  cases h1; cases h2; cases h3
  rw [generate_eq_table d (N - 1) 0 hd (by omega)] at hbasis
  have hbasis : table d (N - 1) 0 = basis := by simpa using hbasis
  have hmem : ∀ x, x ∈ basis ↔ IsMultiIndex d (N - 1) 0 x := by
    intro x; rw [← hbasis, mem_table]
  have hblen : ∀ a : Fin basis.length, (basis[a]).length = d := fun a => ((hmem _).1 (by simp)).1
  have h0 : basis[0]? = some (List.replicate d 0) := by rw [← hbasis]; exact table_zero _ _
  have hpos : 0 < basis.length := by
    by_contra hc
    rw [List.getElem?_eq_none (by omega)] at h0
    simp at h0
  have hadd : ∀ a b : Fin basis.length, List.ofFn ((fun j : Fin d => (basis[a]).getD j 0) + fun j : Fin d => (basis[b]).getD j 0)
      = List.zipWith (· + ·) basis[a] basis[b] := by
    intro a b
    apply List.ext_getElem
    · simp only [List.length_ofFn, List.length_zipWith, hblen]; simp
    · intro i h1 h2
      have h3 : i < d := by simpa using h1
      have h4 := hblen a
      have h5 := hblen b
      simp only [Fin.getElem_fin] at h4 h5
      simp [List.getD_eq_getElem?_getD, h4, h5]
  have hget : ∀ a : Fin basis.length, basis[(a : ℕ)]? = some basis[a] := fun a => by simp
  have hG : gatherL (full.map μ) basis.length (mats.getD 0 []) = gramOn basis μ := by
    ext a b
    obtain ⟨⟨k, hk1, hk2⟩, _⟩ := hent a b _ _ (hget a) (hget b)
    simp only [gatherL, gramOn, Matrix.of_apply]
    rw [getD_getD_of_bind hk1, Int.toNat_natCast, jget_map hk2]
  refine ⟨hpos, hlen, ?_, hG, ?_⟩
  · obtain ⟨M, ms', hM⟩ : ∃ M ms', mats = M :: ms' := by
      cases mats with
      | nil => simp at hlen
      | cons M ms' => exact ⟨M, ms', rfl⟩
    subst hM
    simpa using (hdims M (by simp)).1
  intro R hR
  constructor
  · rfl
  · funext j
    have : basis[(⟨0, hpos⟩ : Fin basis.length)] = List.replicate d 0 := by
      have := hget ⟨0, hpos⟩
      rw [h0] at this
      exact (Option.some.inj this).symm
    rw [this]
    simp [List.getD_eq_getElem?_getD]
  · intro α hα
    have : List.ofFn α ∈ basis := by
      rw [hmem]
      exact ⟨by simp, by omega, by rw [List.sum_ofFn]; omega⟩
    obtain ⟨a, ha, haα⟩ := List.getElem_of_mem this
    refine ⟨⟨a, ha⟩, ?_⟩
    funext j
    simp [haα, List.getD_eq_getElem?_getD]
  · intro a b
    simp only [gramOn, Matrix.of_apply]
    rw [hadd]
  · intro i a b
    obtain ⟨_, hk⟩ := hent a b _ _ (hget a) (hget b)
    obtain ⟨k, hk1, hk2⟩ := hk i i.2
    simp only [gatherL, Matrix.of_apply]
    rw [getD_getD_of_bind hk1, Int.toNat_natCast, jget_map hk2, ← hadd]
    congr 1
    apply List.ext_getElem
    · simp
    · intro j h1 h2
      have h3 : j < d := by simpa using h2
      simp only [List.getElem_modify, List.getElem_ofFn, Pi.add_apply, Pi.single_apply]
      by_cases hij : (i : ℕ) = j
      · simp [hij, Fin.ext_iff]
      · rw [if_neg hij, if_neg (by rw [Fin.ext_iff]; exact fun h => hij h.symm), add_zero]
  · exact hR

/-! ### From product functions to all functions -/

theorem prodFun_indicator (x y : List ℝ) (h : y.length = x.length) :
    prodFun (y.map fun a => fun t => if t = a then 1 else 0) x = if y = x then 1 else 0 := by
  induction x generalizing y with
  | nil =>
    obtain rfl := List.length_eq_zero_iff.1 h
    simp [prodFun]
  | cons a x ih =>
    cases y with
    | nil => simp at h
    | cons b y =>
      have := ih y (by simpa using h)
      simp only [prodFun] at this
      simp only [prodFun, List.map_cons, List.zipWith_cons_cons, List.prod_cons, this, List.cons.injEq]
      by_cases h1 : a = b
      · simp [h1]
      · simp [h1, Ne.symm h1]

theorem sum_indicator {l : List (List ℝ)} (hl : l.Nodup) {x : List ℝ} (hx : x ∈ l) (F : List ℝ → ℝ) :
    (l.map fun y => F y * if y = x then 1 else 0).sum = F x := by
  induction l with
  | nil => simp at hx
  | cons a l ih =>
    rw [List.nodup_cons] at hl
    simp only [List.map_cons, List.sum_cons]
    by_cases h : a = x
    · subst h
      have : (l.map fun y => F y * if y = a then 1 else 0) = l.map fun _ => 0 := by
        apply List.map_congr_left
        intro y hy
        have : y ≠ a := fun h => hl.1 (h ▸ hy)
        simp [this]
      rw [this]
      simp
    · rw [ih hl.2 (by simpa [Ne.symm h] using hx)]
      simp [h]

theorem integND_swap (r : List (ℝ × List ℝ)) {β : Type} (l : List β) (c : β → ℝ) (P : β → List ℝ → ℝ) :
    integND r (fun x => (l.map fun y => c y * P y x).sum) = (l.map fun y => c y * integND r (P y)).sum := by
  induction r with
  | nil => simp [integND]
  | cons p r ih =>
    simp only [integND, List.map_cons, List.sum_cons] at ih ⊢
    rw [ih, ← List.sum_map_mul_left, ← List.sum_map_add]
    congr 1
    apply List.map_congr_left
    intro y _
    ring

theorem integND_congr {r : List (ℝ × List ℝ)} {F F' : List ℝ → ℝ} (h : ∀ p ∈ r, F p.2 = F' p.2) :
    integND r F = integND r F' := by
  rw [integND, integND]
  congr 1
  apply List.map_congr_left
  intro p hp
  rw [h p hp]

theorem integND_eq_of_prod {d : ℕ} {r r' : List (ℝ × List ℝ)} (hr : ∀ p ∈ r, p.2.length = d)
    (hr' : ∀ p ∈ r', p.2.length = d)
    (h : ∀ fs : List (ℝ → ℝ), fs.length = d → integND r (prodFun fs) = integND r' (prodFun fs)) (F : List ℝ → ℝ) :
    integND r F = integND r' F := by
  classical
  set S : List ℝ := ((r ++ r').flatMap fun p => p.2).dedup with hS
  set l := cartesianProd (List.replicate d S) with hl
  have hnd : l.Nodup := by
    apply nodup_cartesianProd
    intro m hm
    rw [List.eq_of_mem_replicate hm]
    exact List.nodup_dedup _
  have key : ∀ p ∈ r ++ r', F p.2
      = (l.map fun y => F y * prodFun (y.map fun a => fun t => if t = a then 1 else 0) p.2).sum := by
    intro p hp
    have hlen : p.2.length = d := by
      rcases List.mem_append.1 hp with h | h
      · exact hr p h
      · exact hr' p h
    have hmem : p.2 ∈ l := by
      rw [hl, mem_cartesianProd_replicate]
      refine ⟨hlen, fun a ha => ?_⟩
      rw [hS, List.mem_dedup, List.mem_flatMap]
      exact ⟨p, hp, ha⟩
    rw [← sum_indicator hnd hmem F]
    congr 1
    apply List.map_congr_left
    intro y hy
    rw [prodFun_indicator]
    rw [hl, mem_cartesianProd_replicate] at hy
    rw [hy.1, hlen]
  set F' : List ℝ → ℝ := fun x =>
    (l.map fun y => F y * prodFun (y.map fun a => fun t => if t = a then 1 else 0) x).sum with hF'
  rw [integND_congr (F' := F') (fun p hp => key p (List.mem_append_left _ hp)),
    integND_congr (r := r') (F' := F') (fun p hp => key p (List.mem_append_right _ hp)), hF', integND_swap,
    integND_swap]
  congr 1
  apply List.map_congr_left
  intro y hy
  rw [hl, mem_cartesianProd_replicate] at hy
  rw [h _ (by simp [hy.1])]

theorem quadCore_unique {B B' : Backend} (hB : B.Valid) (hB' : B'.Valid) {z : ℕ} (h : 0 < z)
    {G : Matrix (Fin z) (Fin z) ℝ} (hG : G.PosDef) (Hs : List (Matrix (Fin z) (Fin z) ℝ))
    (hne : Hs ≠ []) (sort sort' ldl ldl' : Bool) (F : List ℝ → ℝ) :
    integND (quadCore B z Hs.length G Hs none none sort ldl) F
      = integND (quadCore B' z Hs.length G Hs none none sort' ldl') F := by
  refine integND_eq_of_prod (nodes_length B G Hs sort ldl) (nodes_length B' G Hs sort' ldl') ?_ F
  intro fs hfs
  rw [quadCore_prod B h G Hs hne sort ldl fs hfs, quadCore_prod B' h G Hs hne sort' ldl' fs hfs]
  have hR := codeR_isChol hB hG ldl
  have hR' := codeR_isChol hB' hG ldl'
  rw [← hR.unique hR']
  suffices hL : (List.zipWith (fun e f => funMat e.1 e.2 f)
          (Hs.map fun H => B.eigh sort (symmetrize (orthonormalise (codeR B G ldl) H))) fs)
      = (List.zipWith (fun e f => funMat e.1 e.2 f)
          (Hs.map fun H => B'.eigh sort' (symmetrize (orthonormalise (codeR B G ldl) H))) fs) by rw [hL]
  clear hne
  induction Hs generalizing fs with
  | nil => simp
  | cons H Hs ih =>
    cases fs with
    | nil => simp
    | cons f fs =>
      simp only [List.map_cons, List.zipWith_cons_cons]
      have hS : (symmetrize (orthonormalise (codeR B G ldl) H)).IsSymm := symmetrize_isSymm _
      rw [ih fs (by simpa using hfs)]
      congr 1
      exact (hB.eigh sort _ hS).funMat_eq (hB'.eigh sort' _ hS) f

/-! ### Exactness -/

theorem funMat_pow {n : ℕ} {K U : Matrix (Fin n) (Fin n) ℝ} {lam : Fin n → ℝ} (h : IsEigh K U lam) (k : ℕ) :
    funMat U lam (fun y => y ^ k) = K ^ k := by
  rw [h.pow]; rfl

theorem monomial_eq_prodFun (x : List ℝ) (α : List ℕ) :
    monomial x α = prodFun (α.map fun k => fun y => y ^ k) x := by
  rw [monomial, prodFun]
  congr 1
  rw [List.zipWith_map_left, List.zipWith_comm]

theorem quadCore_monomial {B : Backend} (hB : B.Valid) {z : ℕ} (h : 0 < z)
    {G : Matrix (Fin z) (Fin z) ℝ} (hG : G.PosDef) (Hs : List (Matrix (Fin z) (Fin z) ℝ)) (hHs : ∀ H ∈ Hs, H.IsSymm)
    (hne : Hs ≠ []) (sort ldl : Bool) (α : List ℕ) (hα : α.length = Hs.length) :
    integND (quadCore B z Hs.length G Hs none none sort ldl) (fun x => monomial x α)
      = (List.zipWith (fun H k => multMat (codeR B G ldl) H ^ k) Hs α).prod ⟨0, h⟩ ⟨0, h⟩ := by
  rw [integND_congr (F' := prodFun (α.map fun k => fun y => y ^ k)) (fun p _ => monomial_eq_prodFun _ _),
    quadCore_prod B h G Hs hne sort ldl _ (by simp [hα])]
  suffices hL : (List.zipWith (fun e f => funMat e.1 e.2 f)
          (Hs.map fun H => B.eigh sort (symmetrize (orthonormalise (codeR B G ldl) H))) (α.map fun k => fun y => y ^ k))
      = (List.zipWith (fun H k => multMat (codeR B G ldl) H ^ k) Hs α) by rw [hL]
  have hR := codeR_isChol hB hG ldl
  clear hne hα
  induction Hs generalizing α with
  | nil => simp
  | cons H Hs ih =>
    cases α with
    | nil => simp
    | cons k α =>
      simp only [List.map_cons, List.zipWith_cons_cons]
      rw [ih (fun H hH => hHs H (by simp [hH]))]
      congr 1
      have hK : (multMat (codeR B G ldl) H).IsSymm := multMat_isSymm (hHs H (by simp))
      rw [orthonormalise_eq (G := G) hR.lower, symmetrize_eq hK]
      exact funMat_pow (hB.eigh sort _ hK) k

end Mfs.QuadND

import Verif.Props.MarginalsND
import Verif.Props.PolyProcessND
import Mathlib.Topology.ContinuousMap.Weierstrass
import Mathlib.Analysis.Normed.Group.Tannery
import Mathlib.MeasureTheory.Integral.DominatedConvergence
import Mathlib.Algebra.MvPolynomial.Funext
import Mathlib.MeasureTheory.Measure.Lebesgue.Basic

/-!
# C143: the multidimensional rule on products, and its convergence
-/

namespace Mfs.Props

open Matrix Mfs.Spec Mfs.QuadND Mfs.MultiIndex Mfs.FilterND

variable {d N : ℕ} {basis full : List (List ℕ)} {mats : List (List (List ℤ))}

/-! ### the rule is bounded on products -/

theorem funMat_norm {n : ℕ} {K U : Matrix (Fin n) (Fin n) ℝ} {lam : Fin n → ℝ} (h : IsEigh K U lam) (f : ℝ → ℝ) (c : ℝ)
    (hf : ∀ t, |f t| ≤ c) (v : Fin n → ℝ) :
    (funMat U lam f *ᵥ v) ⬝ᵥ (funMat U lam f *ᵥ v) ≤ c ^ 2 * (v ⬝ᵥ v) := by
  have horth' : Uᵀ * U = 1 := mul_eq_one_comm.1 h.1
  have hiso : ∀ w, (U *ᵥ w) ⬝ᵥ (U *ᵥ w) = w ⬝ᵥ w := by
    intro w
    rw [Matrix.dotProduct_mulVec, ← Matrix.mulVec_transpose, Matrix.mulVec_mulVec, horth', Matrix.one_mulVec]
  have hiso' : ∀ w, (Uᵀ *ᵥ w) ⬝ᵥ (Uᵀ *ᵥ w) = w ⬝ᵥ w := by
    intro w
    rw [Matrix.dotProduct_mulVec, ← Matrix.mulVec_transpose, Matrix.mulVec_mulVec, Matrix.transpose_transpose, h.1, Matrix.one_mulVec]
  rw [funMat, ← Matrix.mulVec_mulVec, ← Matrix.mulVec_mulVec, hiso, ← hiso' v]
  generalize Uᵀ *ᵥ v = w
  simp only [dotProduct, Matrix.mulVec_diagonal, Finset.mul_sum]
  refine Finset.sum_le_sum fun i _ => ?_
  have h1 : f (lam i) ^ 2 ≤ c ^ 2 := by
    rw [← sq_abs]
    exact pow_le_pow_left₀ (abs_nonneg _) (hf _) 2
  nlinarith [mul_self_nonneg (w i)]

theorem prod_funMat_norm {n : ℕ} (es : List (Matrix (Fin n) (Fin n) ℝ × (Fin n → ℝ))) (hE : ∀ e ∈ es, ∃ K, IsEigh K e.1 e.2)
    (fs : List (ℝ → ℝ)) (cs : List ℝ) (hl : fs.length = es.length) (hl' : cs.length = es.length)
    (hf : ∀ j (h1 : j < fs.length) (h2 : j < cs.length), ∀ t, |fs[j] t| ≤ cs[j]) (v : Fin n → ℝ) :
    ((List.zipWith (fun e f => funMat e.1 e.2 f) es fs).prod *ᵥ v) ⬝ᵥ ((List.zipWith (fun e f => funMat e.1 e.2 f) es fs).prod *ᵥ v)
      ≤ cs.prod ^ 2 * (v ⬝ᵥ v) := by
  induction es generalizing fs cs with
  | nil =>
    have : cs = [] := List.length_eq_zero_iff.1 hl'
    subst this
    simp
  | cons e es ih =>
    cases fs with
    | nil => simp at hl
    | cons f fs =>
      cases cs with
      | nil => simp at hl'
      | cons c cs =>
        rw [List.zipWith_cons_cons, List.prod_cons, List.prod_cons, ← Matrix.mulVec_mulVec]
        obtain ⟨K, hK⟩ := hE e (by simp)
        have h1 := funMat_norm hK f c (hf 0 (by simp) (by simp)) ((List.zipWith (fun e f => funMat e.1 e.2 f) es fs).prod *ᵥ v)
        have h2 := ih (fun e he => hE e (by simp [he])) fs cs (by simpa using hl) (by simpa using hl')
          (fun j h1 h2 => hf (j + 1) (by simpa using h1) (by simpa using h2))
        refine h1.trans ?_
        rw [mul_pow, mul_assoc]
        exact mul_le_mul_of_nonneg_left h2 (sq_nonneg c)

theorem prodFun_ofFn (h : Fin d → ℝ → ℝ) (x : List ℝ) (hx : x.length = d) :
    prodFun (List.ofFn h) x = ∏ j : Fin d, h j (x.getD j 0) := by
  rw [prodFun, ← List.prod_ofFn]
  congr 1
  apply List.ext_getElem
  · simp [hx]
  · intro i h1 h2
    simp at h1 h2
    simp [List.getD_eq_getElem?_getD, h1]

/-- **C143, bound.** The weights of the multidimensional rule can be negative, and the sum of their absolute values need not stay
bounded; but on products of functions of single coordinates the rule is bounded as a probability law would be, for all moments. -/
theorem C143_nd_product_bound (B : Backend) (hB : B.Valid) (ms : List ℝ) (inds : List (List (List ℤ))) (hd1 : 1 ≤ d)
    (hd : inds.length = d + 1) (hz : 0 < (inds.getD 0 []).length) (mean scale : Option (List ℝ)) (hm : ∀ m ∈ mean, m.length = d)
    (hs : ∀ s ∈ scale, s.length = d) (sort ldl : Bool) (h : Fin d → ℝ → ℝ) (c : Fin d → ℝ) (hc : ∀ j t, |h j t| ≤ c j) :
    |integND (momentQuadratureND B ms inds mean scale sort ldl) (fun x => ∏ j : Fin d, h j (x.getD j 0))| ≤ ∏ j, c j := by
  set z := (inds.getD 0 []).length with hzd
  set Hs := inds.tail.map fun M => gatherL ms z M with hHs
  have hHl : Hs.length = d := by simp [hHs, hd]
  have hne : Hs ≠ [] := by
    intro hc
    rw [hc] at hHl
    simp at hHl; omega
  set G := gatherL ms z (inds.getD 0 []) with hG
  set es := Hs.map fun H => B.eigh sort (symmetrize (Quad1.orthonormalise (codeR B G ldl) H)) with hes
  have hel : es.length = d := by simp [hes, hHl]
  have hE : ∀ e ∈ es, ∃ K, IsEigh K e.1 e.2 := by
    intro e he
    rw [hes, List.mem_map] at he
    obtain ⟨H, _, rfl⟩ := he
    exact ⟨_, hB.eigh sort _ (symmetrize_isSymm _)⟩
  have hc0 : ∀ j, 0 ≤ c j := fun j => (abs_nonneg _).trans (hc j 0)
  have key : ∀ h : Fin d → ℝ → ℝ, (∀ j t, |h j t| ≤ c j) →
      |integND (quadCore B z Hs.length G Hs none none sort ldl) (fun x => ∏ j : Fin d, h j (x.getD j 0))| ≤ ∏ j, c j := by
    intro h hc
    have h1 := quadCore_prod B hz G Hs hne sort ldl (List.ofFn h) (by simp [hHl])
    rw [integND_congr (F' := fun x => ∏ j : Fin d, h j (x.getD j 0)) fun p hp => prodFun_ofFn h p.2
      ((nodes_length B G Hs sort ldl p hp).trans hHl)] at h1
    rw [h1]
    have h2 := prod_funMat_norm es hE (List.ofFn h) (List.ofFn c) (by simp [hel]) (by simp [hel])
      (fun j h1 h2 t => by simpa using hc _ t) (Pi.single ⟨0, hz⟩ 1)
    set M := (List.zipWith (fun e f => funMat e.1 e.2 f) es (List.ofFn h)).prod with hM
    rw [single_one_dotProduct, Pi.single_eq_same, mul_one, List.prod_ofFn] at h2
    have h3 : M ⟨0, hz⟩ ⟨0, hz⟩ ^ 2 ≤ (M *ᵥ Pi.single ⟨0, hz⟩ 1) ⬝ᵥ (M *ᵥ Pi.single ⟨0, hz⟩ 1) := by
      rw [dotProduct]
      refine le_trans (le_of_eq ?_) (Finset.single_le_sum (f := fun i => (M *ᵥ Pi.single ⟨0, hz⟩ 1) i * (M *ᵥ Pi.single ⟨0, hz⟩ 1) i)
        (fun i _ => mul_self_nonneg _) (Finset.mem_univ (⟨0, hz⟩ : Fin z)))
      rw [Matrix.mulVec_single_one, Matrix.col_apply, sq]
    exact abs_le_of_sq_le_sq (h3.trans h2) (Finset.prod_nonneg fun j _ => hc0 j)
  have hq : momentQuadratureND B ms inds mean scale sort ldl
      = (quadCore B z Hs.length G Hs none none sort ldl).map fun p => (p.1, affineNode mean scale p.2) := by
    rw [momentQuadratureND, quadCore_affine]
    have : inds.length - 1 = Hs.length := by omega
    rw [this]
  obtain ⟨a, b, hab⟩ : ∃ a b : Fin d → ℝ, ∀ (x : List ℝ) (j : Fin d), x.length = d →
      (affineNode mean scale x).getD j 0 = x.getD j 0 * a j + b j := by
    cases mean with
    | none => exact ⟨fun _ => 1, fun _ => 0, fun x j _ => by simp [affineNode]⟩
    | some m =>
      have hm := hm m rfl
      cases scale with
      | none =>
        refine ⟨fun _ => 1, fun j => m.getD j 0, fun x j hx => ?_⟩
        simp [affineNode, List.getD_eq_getElem?_getD, hx, hm]
      | some s =>
        have hs := hs s rfl
        refine ⟨fun j => s.getD j 0, fun j => m.getD j 0, fun x j hx => ?_⟩
        simp [affineNode, List.getD_eq_getElem?_getD, hx, hm, hs]
  have h1 := key (fun j t => h j (t * a j + b j)) (fun j t => hc j _)
  refine le_trans (le_of_eq ?_) h1
  rw [hq, integND, List.map_map, integND]
  congr 2
  refine List.map_congr_left fun p hp => ?_
  simp only [Function.comp_apply]
  congr 1
  refine Finset.prod_congr rfl fun j _ => ?_
  rw [hab p.2 j ((nodes_length B G Hs sort ldl p hp).trans hHl)]

/-! ### replacing the factors one by one -/

theorem telescope (Λ : (Fin d → ℝ → ℝ) → ℝ) (Good : (ℝ → ℝ) → Prop) (hsub : ∀ u v, Good u → Good v → Good (u - v))
    (hΛ : ∀ h k u v, (∀ j, Good (h j)) → Good u → Good v →
      Λ (Function.update h k u) - Λ (Function.update h k v) = Λ (Function.update h k (u - v)))
    (hb : ∀ h (c : Fin d → ℝ), (∀ j, Good (h j)) → (∀ j t, |h j t| ≤ c j) → |Λ h| ≤ ∏ j, c j)
    (g q : Fin d → ℝ → ℝ) (hg : ∀ j, Good (g j)) (hq : ∀ j, Good (q j)) (C δ : ℝ) (hC : 1 ≤ C) (hδ : 0 ≤ δ) (hgC : ∀ j t, |g j t| ≤ C)
    (hqC : ∀ j t, |q j t| ≤ C) (hgq : ∀ j t, |q j t - g j t| ≤ δ) : |Λ q - Λ g| ≤ d * (δ * C ^ d) := by
  classical
  have key : ∀ S : Finset (Fin d), |Λ (fun j => if j ∈ S then q j else g j) - Λ g| ≤ S.card * (δ * C ^ d) := by
    intro S
    induction S using Finset.induction_on with
    | empty => simp
    | insert k S hk ih =>
      set h : Fin d → ℝ → ℝ := fun j => if j ∈ S then q j else g j with hh
      have hG : ∀ j, Good (h j) := fun j => by
        simp only [hh]; split_ifs
        · exact hq j
        · exact hg j
      have e1 : (fun j => if j ∈ insert k S then q j else g j) = Function.update h k (q k) := by
        funext j
        by_cases hj : j = k
        · subst hj; simp
        · simp [hj, hh]
      have e2 : h = Function.update h k (g k) := by
        funext j
        by_cases hj : j = k
        · subst hj; simp [hh, hk]
        · simp [hj]
      have e3 := hΛ h k (q k) (g k) hG (hq k) (hg k)
      rw [← e2] at e3
      have e4 : |Λ (Function.update h k (q k - g k))| ≤ ∏ j, Function.update (fun _ => C) k δ j := by
        refine hb _ _ (fun j => ?_) fun j t => ?_
        · by_cases hj : j = k
          · subst hj; simpa using hsub _ _ (hq j) (hg j)
          · simpa [hj] using hG j
        · by_cases hj : j = k
          · subst hj; simpa using hgq j t
          · simp only [Function.update_of_ne hj, hh]
            split_ifs
            · exact hqC j t
            · exact hgC j t
      have e5 : ∏ j, Function.update (fun _ => C) k δ j ≤ δ * C ^ d := by
        rw [Finset.prod_update_of_mem (Finset.mem_univ k)]
        refine mul_le_mul_of_nonneg_left ?_ hδ
        rw [Finset.prod_const]
        exact pow_le_pow_right₀ hC (by simpa using Finset.card_le_univ (Finset.univ \ {k}))
      rw [e1, Finset.card_insert_of_notMem hk]
      have e6 : Λ (Function.update h k (q k)) - Λ g = Λ (Function.update h k (q k - g k)) + (Λ h - Λ g) := by
        rw [← e3]; ring
      rw [e6]
      refine (abs_add_le _ _).trans ?_
      push_cast
      linarith [e4.trans e5]
  have := key Finset.univ
  simpa using this

/-! ### convergence -/

theorem evalAt_eq (x : List ℝ) (p : MvPolynomial (Fin d) ℝ) : evalAt x p = MvPolynomial.eval (fun j : Fin d => x.getD j 0) p := by
  rw [evalAt, AlgHom.toLinearMap_apply, MvPolynomial.aeval_eq_eval]

theorem prod_update (h : Fin d → ℝ → ℝ) (k : Fin d) (u : ℝ → ℝ) (x : Fin d → ℝ) :
    ∏ j, Function.update h k u j (x j) = u (x k) * ∏ j ∈ Finset.univ \ {k}, h j (x j) := by
  rw [← Finset.prod_update_of_mem (Finset.mem_univ k) (fun j => h j (x j)) (u (x k))]
  refine Finset.prod_congr rfl fun j _ => ?_
  by_cases hj : j = k
  · subst hj; simp
  · simp [hj]

theorem eval_aeval_X (p : Polynomial ℝ) (j : Fin d) (x : Fin d → ℝ) :
    MvPolynomial.eval x (Polynomial.aeval (MvPolynomial.X j) p) = p.eval (x j) := by
  rw [Polynomial.aeval_eq_sum_range, map_sum, Polynomial.eval_eq_sum_range]
  simp

theorem totalDegree_aeval_X (p : Polynomial ℝ) (j : Fin d) :
    (Polynomial.aeval (MvPolynomial.X j : MvPolynomial (Fin d) ℝ) p).totalDegree ≤ p.natDegree := by
  rw [Polynomial.aeval_eq_sum_range]
  refine MvPolynomial.totalDegree_finsetSum_le fun i hi => ?_
  refine (MvPolynomial.totalDegree_smul_le _ _).trans ?_
  rw [MvPolynomial.totalDegree_X_pow]
  have := Finset.mem_range.1 hi
  omega

/-- projection of the line onto `[a, b]`. -/
noncomputable def clamp (a b t : ℝ) : ℝ := max a (min b t)

theorem clamp_mem {a b : ℝ} (h : a ≤ b) (t : ℝ) : clamp a b t ∈ Set.Icc a b := ⟨le_max_left _ _, max_le h (min_le_left _ _)⟩

theorem clamp_eq {a b t : ℝ} (h : t ∈ Set.Icc a b) : clamp a b t = t := by rw [clamp, min_eq_right h.2, max_eq_right h.1]

theorem continuous_clamp (a b : ℝ) : Continuous (clamp a b) := continuous_const.max (continuous_const.min continuous_id)

open MeasureTheory Filter Topology

/-- the integral of polynomials as a functional. -/
noncomputable def lawL (μ : Measure (Fin d → ℝ)) (hint : ∀ p : MvPolynomial (Fin d) ℝ, Integrable (fun x => MvPolynomial.eval x p) μ) :
    MvPolynomial (Fin d) ℝ →ₗ[ℝ] ℝ where
  toFun := fun p => ∫ x, MvPolynomial.eval x p ∂μ
  map_add' := fun p q => by
    simp only [map_add]
    exact integral_add (hint p) (hint q)
  map_smul' := fun c p => by
    simp only [MvPolynomial.smul_eval, RingHom.id_apply, smul_eq_mul]
    exact integral_const_mul c _

theorem integrable_box {μ : Measure (Fin d → ℝ)} [IsFiniteMeasure μ] {lo hi : Fin d → ℝ} (hsupp : μ (Set.Icc lo hi)ᶜ = 0)
    {F : (Fin d → ℝ) → ℝ} (hF : ContinuousOn F (Set.Icc lo hi)) : Integrable F μ := by
  have hae : ∀ᵐ x ∂μ, x ∈ Set.Icc lo hi := by rw [ae_iff]; exact hsupp
  have := hF.integrableOn_compact (μ := μ) isCompact_Icc
  rwa [IntegrableOn, Measure.restrict_eq_self_of_ae_mem hae] at this

theorem continuousOn_prod_box {lo hi : Fin d → ℝ} {f : Fin d → ℝ → ℝ} (hf : ∀ j, ContinuousOn (f j) (Set.Icc (lo j) (hi j))) :
    ContinuousOn (fun x : Fin d → ℝ => ∏ j, f j (x j)) (Set.Icc lo hi) :=
  continuousOn_finsetProd _ fun j _ => (hf j).comp (continuous_apply j).continuousOn fun _ hx => ⟨hx.1 j, hx.2 j⟩

/-- one product. -/
theorem cvg_product (B : Backend) (hB : B.Valid) (ldl : Bool) (hd : 1 ≤ d) (μ : Measure (Fin d → ℝ)) [IsProbabilityMeasure μ]
    (lo hi : Fin d → ℝ) (hsupp : μ (Set.Icc lo hi)ᶜ = 0) (m : List ℕ → ℝ) (hm : ∀ α, m α = ∫ x, ∏ j, x j ^ α.getD j 0 ∂μ)
    (basis full : ℕ → List (List ℕ)) (mats : ℕ → List (List (List ℤ))) (T : ∀ N, 2 ≤ N → Tables N d (basis N) (full N) (mats N))
    (hpd : ∀ N, 2 ≤ N → (gramOn (basis N) m).PosDef)
    (f : Fin d → ℝ → ℝ) (hf : ∀ j, ContinuousOn (f j) (Set.Icc (lo j) (hi j))) :
    Tendsto (fun N => integND (momentQuadratureND B ((full N).map m) (mats N) none none false ldl) fun x => ∏ j : Fin d, f j (x.getD j 0))
      atTop (𝓝 (∫ x, ∏ j, f j (x j) ∂μ)) := by
  have hae : ∀ᵐ x ∂μ, x ∈ Set.Icc lo hi := by rw [ae_iff]; exact hsupp
  have hle : ∀ j, lo j ≤ hi j := by
    obtain ⟨x, hx⟩ := hae.exists
    exact fun j => (hx.1 j).trans (hx.2 j)
  have hint : ∀ p : MvPolynomial (Fin d) ℝ, Integrable (fun x => MvPolynomial.eval x p) μ := fun p =>
    integrable_box hsupp (MvPolynomial.continuous_eval p).continuousOn
  have hmL : m = polyMoment (lawL μ hint) rawCoord := by
    funext α
    rw [hm, polyMoment, lawL]
    simp [rawCoord]
  -- bounds
  have hbd : ∀ j, ∃ M, ∀ t ∈ Set.Icc (lo j) (hi j), |f j t| ≤ M := fun j => isCompact_Icc.exists_bound_of_continuousOn (hf j)
  choose M hM using hbd
  have hM0 : ∀ j, 0 ≤ M j := fun j => (abs_nonneg _).trans (hM j (lo j) ⟨le_rfl, hle j⟩)
  set C : ℝ := 2 + ∑ j, M j with hCdef
  have hMC : ∀ j, M j + 1 ≤ C := fun j => by
    have := Finset.single_le_sum (f := M) (fun i _ => hM0 i) (Finset.mem_univ j)
    simp only [hCdef]; linarith
  have hC1 : 1 ≤ C := by
    have := Finset.sum_nonneg fun j (_ : j ∈ Finset.univ) => hM0 j
    simp only [hCdef]; linarith
  rw [Metric.tendsto_atTop]
  intro ε hε
  set δ : ℝ := min 1 (ε / (4 * (d * C ^ d))) with hδdef
  have hd' : (0 : ℝ) < d := by exact_mod_cast hd
  have hδ0 : 0 < δ := by positivity
  have hδε : d * (δ * C ^ d) ≤ ε / 4 := by
    have h1 : δ ≤ ε / (4 * (d * C ^ d)) := min_le_right _ _
    calc d * (δ * C ^ d) ≤ d * (ε / (4 * (d * C ^ d)) * C ^ d) := by gcongr
      _ = ε / 4 := by field_simp
  have hp : ∀ j, ∃ p : Polynomial ℝ, ∀ t ∈ Set.Icc (lo j) (hi j), |p.eval t - f j t| < δ := fun j =>
    exists_polynomial_near_of_continuousOn _ _ _ (hf j) δ hδ0
  choose p hp using hp
  set g : Fin d → ℝ → ℝ := fun j t => f j (clamp (lo j) (hi j) t) with hgdef
  set q : Fin d → ℝ → ℝ := fun j t => (p j).eval (clamp (lo j) (hi j) t) with hqdef
  have hgc : ∀ j, Continuous (g j) := fun j => (hf j).comp_continuous (continuous_clamp _ _) fun t => clamp_mem (hle j) t
  have hqc : ∀ j, Continuous (q j) := fun j => (p j).continuous.comp (continuous_clamp _ _)
  have hgC : ∀ j t, |g j t| ≤ C := fun j t => (hM j _ (clamp_mem (hle j) t)).trans (by linarith [hMC j])
  have hgq : ∀ j t, |q j t - g j t| ≤ δ := fun j t => (hp j _ (clamp_mem (hle j) t)).le
  have hqC : ∀ j t, |q j t| ≤ C := fun j t => by
    have h1 : |q j t| ≤ |q j t - g j t| + |g j t| := by
      have := abs_add_le (q j t - g j t) (g j t); simpa using this
    have h2 : δ ≤ 1 := min_le_left _ _
    linarith [hgq j t, hM j _ (clamp_mem (hle j) t), hMC j]
  refine ⟨max 2 (∑ j, (p j).natDegree + 1), fun N hN => ?_⟩
  have hN2 : 2 ≤ N := (le_max_left _ _).trans hN
  have hNd : ∑ j, (p j).natDegree ≤ 2 * N - 1 := by have := (le_max_right _ _).trans hN; omega
  have TN := T N hN2
  have hbox := C140_nd_nodes_in_box B hB TN μ lo hi hsupp m (fun α _ => hm α) (hpd N hN2) false ldl
  set r := momentQuadratureND B ((full N).map m) (mats N) none none false ldl with hr
  -- clamping does not change anything
  have hrf : integND r (fun x => ∏ j : Fin d, f j (x.getD j 0)) = integND r (fun x => ∏ j : Fin d, g j (x.getD j 0)) := by
    refine integND_congr fun n hn => Finset.prod_congr rfl fun j _ => ?_
    rw [hgdef]; simp only
    rw [clamp_eq ((hbox n hn).2 j)]
  have hif : ∫ x, ∏ j, f j (x j) ∂μ = ∫ x, ∏ j, g j (x j) ∂μ := by
    refine integral_congr_ae ?_
    filter_upwards [hae] with x hx
    refine Finset.prod_congr rfl fun j _ => ?_
    rw [hgdef]; simp only
    rw [clamp_eq ⟨hx.1 j, hx.2 j⟩]
  have hexact : integND r (fun x => ∏ j : Fin d, q j (x.getD j 0)) = ∫ x, ∏ j, q j (x j) ∂μ := by
    have h1 : integND r (fun x => ∏ j : Fin d, q j (x.getD j 0))
        = integND r (fun x => evalAt x (∏ j : Fin d, Polynomial.aeval (MvPolynomial.X j) (p j))) := by
      refine integND_congr fun n hn => ?_
      rw [evalAt_eq, map_prod]
      refine Finset.prod_congr rfl fun j _ => ?_
      rw [eval_aeval_X, hqdef]; simp only
      rw [clamp_eq ((hbox n hn).2 j)]
    have h2 : ∫ x, ∏ j, q j (x j) ∂μ = lawL μ hint (∏ j : Fin d, Polynomial.aeval (MvPolynomial.X j) (p j)) := by
      refine integral_congr_ae ?_
      filter_upwards [hae] with x hx
      rw [map_prod]
      refine Finset.prod_congr rfl fun j _ => ?_
      rw [eval_aeval_X, hqdef]; simp only
      rw [clamp_eq ⟨hx.1 j, hx.2 j⟩]
    rw [h1, h2, hr, hmL]
    refine nd_rule_poly hB TN (lawL μ hint) ?_ (hmL ▸ hpd N hN2) ldl _ ?_
    · rw [lawL]; simp
    · refine (MvPolynomial.totalDegree_finsetProd _ _).trans (le_trans (Finset.sum_le_sum fun j _ => totalDegree_aeval_X _ _) hNd)
  have t1 := telescope (fun h => integND r (fun x => ∏ j : Fin d, h j (x.getD j 0))) Continuous (fun u v hu hv => hu.sub hv)
    (fun h k u v _ _ _ => by
      have e : ∀ u, (fun x : List ℝ => ∏ j : Fin d, Function.update h k u j (x.getD j 0))
          = fun x => u (x.getD k 0) * ∏ j ∈ Finset.univ \ {k}, h j (x.getD j 0) := fun u => by
        funext x
        exact prod_update h k u fun j => x.getD j 0
      simp only [e]
      rw [← integND_sub]
      refine integND_congr fun n _ => ?_
      simp only [Pi.sub_apply]
      ring)
    (fun h c _ hc => C143_nd_product_bound B hB _ _ hd TN.mats_len (C22_applies N d (by omega) TN.hd _ TN.mats_eq).2 none none (by simp)
      (by simp) false ldl h c hc)
    g q hgc hqc C δ hC1 hδ0.le hgC hqC hgq
  have hi : ∀ h : Fin d → ℝ → ℝ, (∀ j, Continuous (h j)) → Integrable (fun x : Fin d → ℝ => ∏ j, h j (x j)) μ := fun h hh =>
    integrable_box hsupp (continuousOn_prod_box fun j => (hh j).continuousOn)
  have hupd : ∀ (h : Fin d → ℝ → ℝ) k u, (∀ j, Continuous (h j)) → Continuous u → ∀ j, Continuous (Function.update h k u j) := by
    intro h k u hh hu j
    by_cases hj : j = k
    · subst hj; simpa using hu
    · simpa [hj] using hh j
  have t2 := telescope (fun h => ∫ x, ∏ j, h j (x j) ∂μ) Continuous (fun u v hu hv => hu.sub hv)
    (fun h k u v hh hu hv => by
      rw [← integral_sub (hi _ (hupd h k u hh hu)) (hi _ (hupd h k v hh hv))]
      refine integral_congr_ae (Eventually.of_forall fun x => ?_)
      simp only [prod_update, Pi.sub_apply]
      ring)
    (fun h c _ hc => by
      have := norm_integral_le_of_norm_le_const (μ := μ) (f := fun x => ∏ j, h j (x j)) (C := ∏ j, c j) (Eventually.of_forall fun x => by
        rw [Real.norm_eq_abs, Finset.abs_prod]
        exact Finset.prod_le_prod (fun j _ => abs_nonneg _) fun j _ => hc j _)
      simpa using this)
    g q hgc hqc C δ hC1 hδ0.le hgC hqC hgq
  rw [Real.dist_eq, hrf, hif]
  rw [hexact] at t1
  rw [abs_le] at t1 t2
  rw [abs_lt]
  constructor <;> linarith [t1.1, t1.2, t2.1, t2.2]

/-- **C143.** Let `μ` be a probability law on a box, not concentrated on the zeros of a polynomial (the Gram matrices are positive
definite). For every integrand that is a sum of products of continuous functions of single coordinates, `F(x) = ∑ₖ ∏ⱼ fₖⱼ(xⱼ)` (finitely
many terms, or infinitely many with summable bounds), the results of the multidimensional rule converge to the integral, as `N` grows,
in each of the three representations of the moments. -/
theorem C143_nd_rule_converges (B : Backend) (hB : B.Valid) (sort ldl : Bool) (hd : 1 ≤ d) (μ : Measure (Fin d → ℝ)) [IsProbabilityMeasure μ]
    (lo hi : Fin d → ℝ) (hsupp : μ (Set.Icc lo hi)ᶜ = 0)
    (basis full : ℕ → List (List ℕ)) (mats : ℕ → List (List (List ℤ))) (T : ∀ N, 2 ≤ N → Tables N d (basis N) (full N) (mats N))
    (hpd : ∀ N, 2 ≤ N → (gramOn (basis N) fun α => ∫ x, ∏ j, x j ^ α.getD j 0 ∂μ).PosDef)
    (mean scale : List ℝ) (hml : mean.length = d) (hsl : scale.length = d) (hs0 : ∀ t ∈ scale, 0 < t)
    {ι : Type} [Countable ι] (f : ι → Fin d → ℝ → ℝ) (hf : ∀ k j, ContinuousOn (f k j) (Set.Icc (lo j) (hi j)))
    (c : ι → Fin d → ℝ) (hc : ∀ k j, ∀ t ∈ Set.Icc (lo j) (hi j), |f k j t| ≤ c k j) (hsum : Summable fun k => ∏ j, c k j)
    (F : (Fin d → ℝ) → ℝ) (hF : ∀ x ∈ Set.Icc lo hi, F x = ∑' k, ∏ j, f k j (x j)) :
    Tendsto (fun N => integND (momentQuadratureND B ((full N).map fun α => ∫ x, ∏ j, x j ^ α.getD j 0 ∂μ) (mats N) none none sort ldl)
      fun x => F fun j => x.getD j 0) atTop (𝓝 (∫ x, F x ∂μ)) ∧
    Tendsto (fun N => integND (momentQuadratureND B ((full N).map fun α => ∫ x, ∏ j : Fin d, (x j - mean.getD j 0) ^ α.getD j 0 ∂μ) (mats N)
      (some mean) none sort ldl) fun x => F fun j => x.getD j 0) atTop (𝓝 (∫ x, F x ∂μ)) ∧
    Tendsto (fun N => integND (momentQuadratureND B
      ((full N).map fun α => ∫ x, ∏ j : Fin d, ((x j - mean.getD j 0) / scale.getD j 0) ^ α.getD j 0 ∂μ) (mats N)
      (some mean) (some scale) sort ldl) fun x => F fun j => x.getD j 0) atTop (𝓝 (∫ x, F x ∂μ)) := by
  have hae : ∀ᵐ x ∂μ, x ∈ Set.Icc lo hi := by rw [ae_iff]; exact hsupp
  have hle : ∀ j, lo j ≤ hi j := by
    obtain ⟨x, hx⟩ := hae.exists
    exact fun j => (hx.1 j).trans (hx.2 j)
  have hint : ∀ p : MvPolynomial (Fin d) ℝ, Integrable (fun x => MvPolynomial.eval x p) μ := fun p =>
    integrable_box hsupp (MvPolynomial.continuous_eval p).continuousOn
  have hmL : (fun α : List ℕ => ∫ x, ∏ j : Fin d, x j ^ α.getD j 0 ∂μ) = polyMoment (lawL μ hint) rawCoord := by
    funext α
    rw [polyMoment, lawL]
    simp [rawCoord]
  have hmC : (fun α : List ℕ => ∫ x, ∏ j : Fin d, (x j - mean.getD j 0) ^ α.getD j 0 ∂μ)
      = polyMoment (lawL μ hint) (centralCoord mean) := by
    funext α
    rw [polyMoment, lawL]
    simp [centralCoord]
  have hmS : (fun α : List ℕ => ∫ x, ∏ j : Fin d, ((x j - mean.getD j 0) / scale.getD j 0) ^ α.getD j 0 ∂μ)
      = polyMoment (lawL μ hint) (scaledCoord mean scale) := by
    funext α
    rw [polyMoment, lawL]
    simp [scaledCoord, div_eq_inv_mul]
  have h0 : Tendsto (fun N => integND (momentQuadratureND B ((full N).map fun α => ∫ x, ∏ j, x j ^ α.getD j 0 ∂μ) (mats N) none none
      false ldl) fun x => F fun j => x.getD j 0) atTop (𝓝 (∫ x, F x ∂μ)) := by
    have hcont : ∀ k, ContinuousOn (fun x : Fin d → ℝ => ∏ j, f k j (x j)) (Set.Icc lo hi) := fun k => continuousOn_prod_box (hf k)
    have hbd : ∀ k, ∀ x ∈ Set.Icc lo hi, ‖∏ j, f k j (x j)‖ ≤ ∏ j, c k j := fun k x hx => by
      rw [Real.norm_eq_abs, Finset.abs_prod]
      exact Finset.prod_le_prod (fun j _ => abs_nonneg _) fun j _ => hc k j _ ⟨hx.1 j, hx.2 j⟩
    have hI : ∫ x, F x ∂μ = ∑' k, ∫ x, ∏ j, f k j (x j) ∂μ := by
      rw [integral_congr_ae (g := fun x => ∑' k, ∏ j, f k j (x j)) (by filter_upwards [hae] with x hx using hF x hx)]
      refine (hasSum_integral_of_summable_integral_norm (fun k => integrable_box hsupp (hcont k)) ?_).tsum_eq.symm
      refine Summable.of_nonneg_of_le (fun k => integral_nonneg fun _ => norm_nonneg _) (fun k => ?_) hsum
      have := integral_mono_ae (μ := μ) (integrable_box hsupp (hcont k)).norm (integrable_const (∏ j, c k j))
        (by filter_upwards [hae] with x hx using hbd k x hx)
      simpa using this
    rw [hI]
    have hR : ∀ᶠ N in atTop, (∑' k, integND (momentQuadratureND B ((full N).map fun α => ∫ x, ∏ j, x j ^ α.getD j 0 ∂μ) (mats N) none none
        false ldl) fun x => ∏ j : Fin d, f k j (x.getD j 0))
        = integND (momentQuadratureND B ((full N).map fun α => ∫ x, ∏ j, x j ^ α.getD j 0 ∂μ) (mats N) none none false ldl)
          fun x => F fun j => x.getD j 0 := by
      filter_upwards [eventually_ge_atTop 2] with N hN
      have hbox := C140_nd_nodes_in_box B hB (T N hN) μ lo hi hsupp (fun α => ∫ x, ∏ j, x j ^ α.getD j 0 ∂μ) (fun α _ => rfl) (hpd N hN)
        false ldl
      generalize momentQuadratureND B ((full N).map fun α => ∫ x, ∏ j, x j ^ α.getD j 0 ∂μ) (mats N) none none false ldl = r at hbox ⊢
      refine HasSum.tsum_eq ?_
      induction r with
      | nil => simp [integND]
      | cons p r ih =>
        have h1 := ih fun q hq => hbox q (List.mem_cons_of_mem _ hq)
        simp only [integND, List.map_cons, List.sum_cons] at h1 ⊢
        refine HasSum.add (HasSum.mul_left _ ?_) h1
        have hp : (fun j : Fin d => p.2.getD j 0) ∈ Set.Icc lo hi :=
          ⟨fun j => ((hbox p (by simp)).2 j).1, fun j => ((hbox p (by simp)).2 j).2⟩
        rw [hF _ hp]
        exact (Summable.of_norm_bounded hsum fun k => hbd k _ hp).hasSum
    refine Tendsto.congr' hR (tendsto_tsum_of_dominated_convergence hsum (fun k => ?_) ?_)
    · exact cvg_product B hB ldl hd μ lo hi hsupp _ (fun α => rfl) basis full mats T hpd (f k) (hf k)
    · filter_upwards [eventually_ge_atTop 2] with N hN k
      have hbox := C140_nd_nodes_in_box B hB (T N hN) μ lo hi hsupp (fun α => ∫ x, ∏ j, x j ^ α.getD j 0 ∂μ) (fun α _ => rfl) (hpd N hN)
        false ldl
      rw [integND_congr (F' := fun x => ∏ j : Fin d, f k j (clamp (lo j) (hi j) (x.getD j 0))) fun p hp =>
        Finset.prod_congr rfl fun j _ => by rw [clamp_eq ((hbox p hp).2 j)], Real.norm_eq_abs]
      have TN := T N hN
      exact C143_nd_product_bound B hB _ _ hd TN.mats_len (C22_applies N d (by omega) TN.hd _ TN.mats_eq).2 none none (by simp)
        (by simp) false ldl (fun j t => f k j (clamp (lo j) (hi j) t)) (c k) fun j t => hc k j _ (clamp_mem (hle j) t)
  have hrep := fun N (hN : 2 ≤ N) s₁ l₁ => C85_nd_raw_central_scaled B hB N (by omega) hd (lawL μ hint) mean scale hml hsl hs0 (basis N)
    (full N) (mats N) (T N hN).basis_eq (T N hN).full_eq (T N hN).mats_eq (by rw [← hmL]; exact hpd N hN) s₁ sort sort l₁ ldl ldl
    (fun x => F fun j => x.getD j 0)
  rw [hmL, hmC, hmS]
  rw [hmL] at h0
  refine ⟨h0.congr' ?_, h0.congr' ?_, h0.congr' ?_⟩
  · filter_upwards [eventually_ge_atTop 2] with N hN
    rw [← (hrep N hN false ldl).1, ← (hrep N hN sort ldl).1]
  · filter_upwards [eventually_ge_atTop 2] with N hN
    rw [← (hrep N hN false ldl).1]
  · filter_upwards [eventually_ge_atTop 2] with N hN
    rw [← (hrep N hN false ldl).2]

/-- the Gram matrices are positive definite if no polynomial but zero vanishes almost everywhere. -/
theorem C143_gram_posDef (T : Tables N d basis full mats) (μ : Measure (Fin d → ℝ)) [IsFiniteMeasure μ] (lo hi : Fin d → ℝ)
    (hsupp : μ (Set.Icc lo hi)ᶜ = 0)
    (hne : ∀ q : MvPolynomial (Fin d) ℝ, (∀ᵐ x ∂μ, MvPolynomial.eval x q = 0) → q = 0) :
    (gramOn basis fun α => ∫ x, ∏ j, x j ^ α.getD j 0 ∂μ).PosDef := by
  have hint : ∀ p : MvPolynomial (Fin d) ℝ, Integrable (fun x => MvPolynomial.eval x p) μ := fun p =>
    integrable_box hsupp (MvPolynomial.continuous_eval p).continuousOn
  have hbl : ∀ c : Fin basis.length, (basis[c]).length = d := fun c => (T.mem_basis.1 (List.getElem_mem c.2)).1
  have hnd : basis.Nodup := by
    obtain ⟨t, ht, hn, _⟩ := C01_generate_complete d (N - 1) 0 T.hd (by omega)
    rw [T.basis_eq] at ht
    cases ht
    exact hn
  set e : Fin basis.length → Fin d →₀ ℕ := fun c => Finsupp.equivFunOnFinite.symm fun k => (basis[c]).getD k 0 with he
  have hinj : Function.Injective e := by
    intro a b hab
    have h1 : ∀ k : Fin d, (basis[a]).getD k 0 = (basis[b]).getD k 0 := fun k => by
      have := DFunLike.congr_fun hab k
      simpa [he] using this
    have h2 : basis[a] = basis[b] := by
      apply List.ext_getElem ((hbl a).trans (hbl b).symm)
      intro i hi1 hi2
      have := h1 ⟨i, by rw [hbl a] at hi1; exact hi1⟩
      simp only at this
      rwa [List.getD_eq_getElem _ _ hi1, List.getD_eq_getElem _ _ hi2] at this
    exact Fin.ext (hnd.getElem_inj_iff.1 h2)
  set mon : Fin basis.length → MvPolynomial (Fin d) ℝ := fun c => MvPolynomial.monomial (e c) 1 with hmon
  have hev : ∀ c x, MvPolynomial.eval x (mon c) = ∏ k, x k ^ (basis[c]).getD k 0 := by
    intro c x
    rw [hmon]
    simp only [MvPolynomial.eval_monomial, one_mul]
    rw [Finsupp.prod_fintype _ _ (fun _ => pow_zero _)]
    simp [he]
  have hentry : ∀ a b, (gramOn basis fun α => ∫ x, ∏ j : Fin d, x j ^ α.getD j 0 ∂μ) a b
      = ∫ x, MvPolynomial.eval x (mon a * mon b) ∂μ := by
    intro a b
    rw [gramOn, Matrix.of_apply]
    refine integral_congr_ae (Eventually.of_forall fun x => ?_)
    simp only
    rw [map_mul, hev, hev, ← Finset.prod_mul_distrib]
    refine Finset.prod_congr rfl fun k _ => ?_
    rw [← pow_add]
    congr 1
    have h1 := hbl a
    have h2 := hbl b
    have h3 : (k : ℕ) < (basis[a]).length := by rw [h1]; exact k.2
    have h4 : (k : ℕ) < (basis[b]).length := by rw [h2]; exact k.2
    rw [List.getD_eq_getElem _ _ h3, List.getD_eq_getElem _ _ h4, List.getD_eq_getElem _ _ (by
      rw [List.length_zipWith]; exact lt_min h3 h4), List.getElem_zipWith]
  rw [Matrix.posDef_iff_dotProduct_mulVec]
  refine ⟨?_, fun {w} hw => ?_⟩
  · ext a b
    rw [Matrix.conjTranspose_apply, star_trivial, hentry, hentry, mul_comm]
  · set q : MvPolynomial (Fin d) ℝ := ∑ c, w c • mon c with hq
    have hform : star w ⬝ᵥ ((gramOn basis fun α => ∫ x, ∏ j : Fin d, x j ^ α.getD j 0 ∂μ) *ᵥ w)
        = ∫ x, MvPolynomial.eval x q ^ 2 ∂μ := by
      have h1 : ∀ x, MvPolynomial.eval x q ^ 2 = ∑ a, ∑ b, w a * w b * MvPolynomial.eval x (mon a * mon b) := by
        intro x
        rw [hq, map_sum, sq, Finset.sum_mul_sum]
        refine Finset.sum_congr rfl fun a _ => Finset.sum_congr rfl fun b _ => ?_
        rw [MvPolynomial.smul_eval, MvPolynomial.smul_eval, map_mul]
        ring
      simp only [h1]
      rw [integral_finsetSum _ fun a _ => integrable_finsetSum _ fun b _ => (hint _).const_mul _, dotProduct]
      refine Finset.sum_congr rfl fun a _ => ?_
      rw [integral_finsetSum _ fun b _ => (hint _).const_mul _, mulVec, dotProduct, Finset.mul_sum]
      refine Finset.sum_congr rfl fun b _ => ?_
      rw [integral_const_mul, hentry, star_trivial]
      ring
    rw [hform]
    have h0 : 0 ≤ ∫ x, MvPolynomial.eval x q ^ 2 ∂μ := integral_nonneg fun x => sq_nonneg _
    refine lt_of_le_of_ne h0 fun h => hw ?_
    have hi2 : Integrable (fun x => MvPolynomial.eval x q ^ 2) μ := by
      have := hint (q ^ 2)
      simpa using this
    have h2 := (integral_eq_zero_iff_of_nonneg (fun x => sq_nonneg _) hi2).1 h.symm
    have h3 : q = 0 := hne q (by
      filter_upwards [h2] with x hx
      simpa using hx)
    funext c
    have h4 : MvPolynomial.coeff (e c) q = w c := by
      rw [hq, MvPolynomial.coeff_sum, Finset.sum_eq_single c]
      · simp [hmon]
      · intro b _ hb
        simp [hmon, MvPolynomial.coeff_monomial, hinj.ne hb]
      · simp
    rw [← h4, h3]
    simp

/-- hypotheses of C143: the uniform law on the unit square, and the real part of the characteristic function at `(1, 2)`. -/
example (B : Backend) (hB : B.Valid) (basis full : ℕ → List (List ℕ)) (mats : ℕ → List (List (List ℤ)))
    (T : ∀ N, 2 ≤ N → Tables N 2 (basis N) (full N) (mats N)) :
    Tendsto (fun N => integND (momentQuadratureND B
      ((full N).map fun α => ∫ x in Set.Icc (0 : Fin 2 → ℝ) 1, ∏ j, x j ^ α.getD j 0) (mats N) none none false true)
      fun x => Real.cos (x.getD 0 0 + 2 * x.getD 1 0)) atTop (𝓝 (∫ x in Set.Icc (0 : Fin 2 → ℝ) 1, Real.cos (x 0 + 2 * x 1))) := by
  have hvol : volume (Set.Icc (0 : Fin 2 → ℝ) 1) = 1 := by
    rw [Real.volume_Icc_pi]; simp
  have : IsProbabilityMeasure (volume.restrict (Set.Icc (0 : Fin 2 → ℝ) 1)) := ⟨by simp [hvol]⟩
  have hsupp : volume.restrict (Set.Icc (0 : Fin 2 → ℝ) 1) (Set.Icc 0 1)ᶜ = 0 := by
    rw [Measure.restrict_apply measurableSet_Icc.compl]; simp
  have h := C143_nd_rule_converges B hB false true (by norm_num) (volume.restrict (Set.Icc (0 : Fin 2 → ℝ) 1)) 0 1 hsupp basis full mats T
    (fun N hN => C143_gram_posDef (T N hN) _ 0 1 hsupp fun q hq => ?_) [0, 0] [1, 1] rfl rfl (by simp) (ι := Bool)
    (fun k j t => if k then (if j = 0 then Real.cos t else Real.cos (2 * t)) else (if j = 0 then -Real.sin t else Real.sin (2 * t)))
    (fun k j => ?_) (fun _ _ => 1) (fun k j t _ => ?_) (hasSum_fintype _).summable (fun x => Real.cos (x 0 + 2 * x 1)) (fun x _ => ?_)
  · exact h.1
  · have hopen : ∀ᵐ x ∂volume.restrict (Set.pi Set.univ fun _ : Fin 2 => Set.Ioo (0 : ℝ) 1), MvPolynomial.eval x q = 0 := by
      refine ae_mono (Measure.restrict_mono ?_ le_rfl) hq
      intro x hx
      exact ⟨fun j => (hx j trivial).1.le, fun j => (hx j trivial).2.le⟩
    have ho : IsOpen (Set.pi Set.univ fun _ : Fin 2 => Set.Ioo (0 : ℝ) 1) := isOpen_set_pi Set.finite_univ fun _ _ => isOpen_Ioo
    have heq := Measure.eqOn_open_of_ae_eq (μ := volume) (f := fun x => MvPolynomial.eval x q) (g := fun _ => 0) hopen ho
      (MvPolynomial.continuous_eval q).continuousOn continuousOn_const
    refine MvPolynomial.funext_set (fun _ => Set.Ioo (0 : ℝ) 1) (fun _ => Set.Ioo_infinite one_pos) fun x hx => ?_
    simpa using heq hx
  · cases k
    · simp only [Bool.false_eq_true, if_false]
      split_ifs
      · exact Real.continuous_sin.neg.continuousOn
      · exact (Real.continuous_sin.comp (continuous_const.mul continuous_id)).continuousOn
    · simp only [if_true]
      split_ifs
      · exact Real.continuous_cos.continuousOn
      · exact (Real.continuous_cos.comp (continuous_const.mul continuous_id)).continuousOn
  · split_ifs
    · exact Real.abs_cos_le_one _
    · exact Real.abs_cos_le_one _
    · rw [abs_neg]; exact Real.abs_sin_le_one _
    · exact Real.abs_sin_le_one _
  · rw [tsum_fintype]
    simp [Fin.prod_univ_two, Real.cos_add]
    ring

end Mfs.Props

import Verif.Lemmas.SpectralSmooth
import Verif.Lemmas.RuleSmooth
import Verif.Props.ContinuityND
import Mathlib.Analysis.Calculus.BumpFunction.FiniteDimension
import Mathlib.Analysis.SpecialFunctions.Sqrt

/-!
# Smoothness of the multidimensional rule
-/

namespace Mfs.Spectral

open Matrix Mfs.Spec Filter Topology Mfs.Cont Mfs.Smooth Mfs.Quad1 Mfs.QuadND Set Mfs.Props

/-! ### functions of several non-commuting matrices -/

/-- an entry of the function of several matrices, one after the other. -/
noncomputable def mcalc {z : ℕ} : List (Matrix (Fin z) (Fin z) ℝ × (Fin z → ℝ)) → (List ℝ → ℝ) → Fin z → Fin z → ℝ
  | [], F, a, b => (1 : Matrix (Fin z) (Fin z) ℝ) a b * F []
  | e :: es, F, a, b => ∑ c, spec e.1 e.2 (fun x => mcalc es (fun v => F (x :: v)) c b) a c

theorem mcalc_transfer {z : ℕ} (z0 : Fin z) (es : List (Matrix (Fin z) (Fin z) ℝ × (Fin z → ℝ))) (F : List ℝ → ℝ) (u : Fin z → ℝ) :
    ((cartesianProd (List.replicate es.length (List.finRange z))).map fun idx =>
        chainFrom z0 u (List.zipWith (fun row i => row i) (es.map fun e => fun i k => e.1 k i) idx)
          * F (List.zipWith (fun row i => row i) (es.map fun e => e.2) idx)).sum
      = ∑ a, u a * mcalc es F a z0 := by
  induction es generalizing F u with
  | nil =>
    simp [cartesianProd, chainFrom, mcalc, Matrix.one_apply]
  | cons e es ih =>
    simp only [List.length_cons, List.replicate_succ, cartesianProd]
    rw [sum_flatMap_map, sum_finRange]
    simp only [List.map_map, List.map_cons, Function.comp_def, List.zipWith_cons_cons, chainFrom, mul_assoc, List.sum_map_mul_left]
    simp only [fun i => ih (fun v => F (e.2 i :: v)) (fun k => e.1 k i)]
    simp only [mcalc, spec, dotProduct, smul_eq_mul, Finset.sum_mul, Finset.mul_sum]
    rw [Finset.sum_comm]
    conv_rhs => rw [Finset.sum_comm]
    refine Finset.sum_congr rfl fun a _ => ?_
    rw [Finset.sum_comm]
    exact Finset.sum_congr rfl fun c _ => Finset.sum_congr rfl fun i _ => by ring

theorem coreRule_mcalc {z d : ℕ} (h : 0 < z) (hd : 1 ≤ d) (e : Fin d → Matrix (Fin z) (Fin z) ℝ × (Fin z → ℝ)) (F : List ℝ → ℝ) :
    integND (coreRule h e) F = mcalc (List.ofFn e) F ⟨0, h⟩ ⟨0, h⟩ := by
  rw [coreRule, integND, List.map_map]
  have hlen : (List.ofFn e).length = d := by simp
  have := mcalc_transfer ⟨0, h⟩ (List.ofFn e) F (Pi.single ⟨0, h⟩ 1)
  simp only [Pi.single_apply, ite_mul, one_mul, zero_mul, Finset.sum_ite_eq', Finset.mem_univ, if_true] at this
  rw [← this, ndCartesianProdIndices, hlen]
  congr 1
  apply List.map_congr_left
  intro idx hidx
  rw [mem_cartesianProd_replicate] at hidx
  simp only [Function.comp_def]
  congr 1
  obtain ⟨d, rfl⟩ : ∃ d', d = d' + 1 := ⟨d - 1, by omega⟩
  obtain ⟨hi, _⟩ := hidx
  cases idx with
  | nil => simp at hi
  | cons i idx =>
    rw [List.ofFn_succ]
    exact weight_eq h _ _

/-- a function of several matrices is smooth. -/
theorem mcalc_smooth (r : ℕ) {z : ℕ} (d : ℕ) : ∀ {E : Type} [NormedAddCommGroup E] [NormedSpace ℝ E] {O : Set E} (_ : IsOpen O)
    {K : E → Fin d → Matrix (Fin z) (Fin z) ℝ} {e : E → Fin d → Matrix (Fin z) (Fin z) ℝ × (Fin z → ℝ)} (_ : ∀ j a b, ContDiffOn ℝ r (fun t => K t j a b) O)
    (_ : ∀ t ∈ O, ∀ j, IsEigh (K t j) (e t j).1 (e t j).2) {F : E → List ℝ → ℝ} (_ : ContDiffOn ℝ r (fun p : E × (Fin d → ℝ) => F p.1 (List.ofFn p.2)) (O ×ˢ univ))
    (a b : Fin z), ContDiffOn ℝ r (fun t => mcalc (List.ofFn (e t)) (F t) a b) O := by
  induction d with
  | zero =>
    intro E _ _ O hO K e hK hE F hF a b
    simp only [List.ofFn_zero, mcalc] at hF ⊢
    refine contDiffOn_const.mul ?_
    have h1 : ContDiffOn ℝ r (fun t : E => (t, (fun _ => 0 : Fin 0 → ℝ))) O := contDiffOn_id.prodMk contDiffOn_const
    exact hF.comp h1 fun t ht => ⟨ht, mem_univ _⟩
  | succ d ih =>
    intro E _ _ O hO K e hK hE F hF a b
    simp only [List.ofFn_succ, mcalc]
    refine ContDiffOn.sum fun c _ => ?_
    refine spec_smooth r hO (K := fun t => K t 0) (U := fun t => (e t 0).1) (lam := fun t => (e t 0).2) (fun a b => hK 0 a b) (fun t ht => hE t ht 0)
      (f := fun q : E × ℝ => mcalc (List.ofFn fun j : Fin d => e q.1 j.succ) (fun v => F q.1 (q.2 :: v)) c b) ?_ a c
    have hOu : IsOpen (O ×ˢ (univ : Set ℝ)) := hO.prod isOpen_univ
    refine ih hOu (K := fun (q : E × ℝ) j => K q.1 j.succ) (e := fun (q : E × ℝ) j => e q.1 j.succ)
      (fun j a b => ContDiffOn.comp (g := fun t => K t j.succ a b) (f := fun q : E × ℝ => q.1) (hK j.succ a b) contDiffOn_fst fun q hq => hq.1)
      (fun q hq j => hE q.1 hq.1 j.succ) (F := fun (q : E × ℝ) v => F q.1 (q.2 :: v)) ?_ c b
    have h1 : ContDiff ℝ r (fun p : (E × ℝ) × (Fin d → ℝ) => (p.1.1, (Fin.cons p.1.2 p.2 : Fin (d + 1) → ℝ))) := by
      refine (contDiff_fst.comp contDiff_fst).prodMk (contDiff_pi.2 fun j => ?_)
      refine Fin.cases ?_ (fun j => ?_) j
      · simp only [Fin.cons_zero]
        exact contDiff_snd.comp contDiff_fst
      · simp only [Fin.cons_succ]
        exact (contDiff_apply ℝ ℝ j).comp contDiff_snd
    have h2 := hF.comp h1.contDiffOn (s := (O ×ˢ univ) ×ˢ univ) fun p hp => ⟨hp.1.1, mem_univ _⟩
    refine h2.congr fun p hp => ?_
    simp [List.ofFn_succ]

/-! ### the Cholesky factor -/

section Chol

variable {E : Type*} [NormedAddCommGroup E] [NormedSpace ℝ E] {r : WithTop ℕ∞} {θ : E} {z : ℕ}

theorem chol_smooth {G R : E → Matrix (Fin z) (Fin z) ℝ} (hG : ∀ a b, ContDiffAt ℝ r (fun t => G t a b) θ) (hR : ∀ᶠ t in 𝓝 θ, IsChol (G t) (R t)) (i j : Fin z) :
    ContDiffAt ℝ r (fun t => R t i j) θ := by
  have h0 : IsChol (G θ) (R θ) := hR.self_of_nhds
  have key : ∀ n, ∀ i j : Fin z, (j : ℕ) = n → ContDiffAt ℝ r (fun t => R t i j) θ := by
    intro n
    induction n using Nat.strong_induction_on with
    | _ n ih =>
      have hent : ∀ᶠ t in 𝓝 θ, ∀ i j : Fin z, R t i j * R t j j = G t i j - ∑ k ∈ Finset.univ.filter (· < j), R t i k * R t j k := by
        filter_upwards [hR] with t ht i j
        rw [← ht.mul_transpose, Matrix.mul_apply, eq_sub_iff_add_eq, add_comm, ← Finset.sum_filter_add_sum_filter_not Finset.univ (· < j) fun k => R t i k * (R t)ᵀ k j]
        congr 1
        rw [Finset.sum_eq_single j]
        · rfl
        · intro k hk hkj
          simp only [Finset.mem_filter, Finset.mem_univ, true_and, not_lt] at hk
          rw [Matrix.transpose_apply, ht.lower j k (lt_of_le_of_ne hk (Ne.symm hkj)), mul_zero]
        · simp
      have hrest : ∀ i j : Fin z, (j : ℕ) = n → ContDiffAt ℝ r (fun t => G t i j - ∑ k ∈ Finset.univ.filter (· < j), R t i k * R t j k) θ := by
        intro i j hj
        refine (hG i j).sub (ContDiffAt.sum fun k hk => ?_)
        have hk' : k < j := by simpa using hk
        have : (k : ℕ) < n := by rw [← hj]; exact hk'
        exact (ih k this i k rfl).mul (ih k this j k rfl)
      have hdiag : ∀ j : Fin z, (j : ℕ) = n → ContDiffAt ℝ r (fun t => R t j j) θ := by
        intro j hj
        have hp : G θ j j - ∑ k ∈ Finset.univ.filter (· < j), R θ j k * R θ j k ≠ 0 := by
          rw [← hent.self_of_nhds j j]
          exact (mul_pos (h0.diag_pos j) (h0.diag_pos j)).ne'
        refine ((hrest j j hj).sqrt hp).congr_of_eventuallyEq ?_
        filter_upwards [hent, hR] with t ht hRt
        rw [← ht j j, Real.sqrt_mul_self (hRt.diag_pos j).le]
      intro i j hj
      refine ((hrest i j hj).div (hdiag j hj) (h0.diag_pos j).ne').congr_of_eventuallyEq ?_
      filter_upwards [hent, hR] with t ht hRt
      rw [Pi.div_apply, ← ht i j, mul_div_cancel_right₀ _ (hRt.diag_pos j).ne']
  exact key j i j rfl

theorem det_smooth {A : E → Matrix (Fin z) (Fin z) ℝ} (hA : ∀ a b, ContDiffAt ℝ r (fun t => A t a b) θ) : ContDiffAt ℝ r (fun t => (A t).det) θ := by
  simp only [Matrix.det_apply]
  refine ContDiffAt.sum fun σ _ => ?_
  exact (contDiffAt_prod fun i _ => hA _ _).const_smul _

theorem inv_smooth {A : E → Matrix (Fin z) (Fin z) ℝ} (hA : ∀ a b, ContDiffAt ℝ r (fun t => A t a b) θ) (h0 : (A θ).det ≠ 0) (a b : Fin z) :
    ContDiffAt ℝ r (fun t => (A t)⁻¹ a b) θ := by
  have h1 : (fun t => (A t)⁻¹ a b) = fun t => (A t).det⁻¹ * (A t).adjugate a b := funext fun t => by
    rw [Matrix.inv_def, Ring.inverse_eq_inv', Matrix.smul_apply, smul_eq_mul]
  rw [h1]
  refine ((det_smooth hA).inv h0).mul ?_
  simp only [Matrix.adjugate_apply]
  refine det_smooth fun i j => ?_
  by_cases hi : i = b
  · subst hi
    simpa using contDiffAt_const
  · simpa [Matrix.updateRow_ne hi] using hA i j

theorem multMat_smooth {R H : E → Matrix (Fin z) (Fin z) ℝ} (hR : ∀ a b, ContDiffAt ℝ r (fun t => R t a b) θ) (hH : ∀ a b, ContDiffAt ℝ r (fun t => H t a b) θ)
    (h0 : (R θ).det ≠ 0) (a b : Fin z) : ContDiffAt ℝ r (fun t => multMat (R t) (H t) a b) θ := by
  simp only [multMat, Matrix.mul_apply]
  refine ContDiffAt.sum fun c _ => (ContDiffAt.sum fun e _ => (inv_smooth hR h0 a e).mul (hH e c)).mul ?_
  refine inv_smooth (A := fun t => (R t)ᵀ) (fun a b => hR b a) (by rwa [Matrix.det_transpose]) c b

end Chol

/-! ### the rule -/

section Rule

variable {E : Type} [NormedAddCommGroup E] [NormedSpace ℝ E] {θ : E} {z d : ℕ}

/-- integrands on vectors of length `d` that are smooth jointly with the argument. -/
def JointND (r : WithTop ℕ∞) (θ : E) (d : ℕ) (F : E → List ℝ → ℝ) : Prop :=
  ∀ v : Fin d → ℝ, ContDiffAt ℝ r (fun p : E × (Fin d → ℝ) => F p.1 (List.ofFn p.2)) (θ, v)

/-- eigenvalues are bounded by the entries. -/
theorem eigh_bound {K U : Matrix (Fin z) (Fin z) ℝ} {lam : Fin z → ℝ} (h : IsEigh K U lam) (i : Fin z) : |lam i| ≤ ∑ a, ∑ b, |K a b| := by
  have ho : Uᵀ * U = 1 := mul_eq_one_comm.1 h.orth
  have h1 : lam i = (Uᵀ * K * U) i i := by
    rw [h.spec, ← Matrix.mul_assoc, ← Matrix.mul_assoc, ho, Matrix.one_mul, Matrix.mul_assoc, ho, Matrix.mul_one, Matrix.diagonal_apply_eq]
  have hU : ∀ a, |U a i| ≤ 1 := by
    intro a
    rw [← sq_le_one_iff_abs_le_one]
    have h2 : ∑ k, U k i ^ 2 = 1 := by
      have := congrFun (congrFun ho i) i
      rw [Matrix.mul_apply, Matrix.one_apply_eq] at this
      rw [← this]
      exact Finset.sum_congr rfl fun k _ => by rw [Matrix.transpose_apply, sq]
    rw [← h2]
    exact Finset.single_le_sum (f := fun k => U k i ^ 2) (fun k _ => sq_nonneg _) (Finset.mem_univ a)
  rw [h1, Matrix.mul_apply]
  simp only [Matrix.mul_apply, Matrix.transpose_apply, Finset.sum_mul]
  rw [Finset.sum_comm]
  refine (Finset.abs_sum_le_sum_abs _ _).trans (Finset.sum_le_sum fun a _ => (Finset.abs_sum_le_sum_abs _ _).trans (Finset.sum_le_sum fun b _ => ?_))
  rw [abs_mul, abs_mul]
  calc |U a i| * |K a b| * |U b i| ≤ 1 * |K a b| * 1 := by gcongr <;> exact hU _
    _ = |K a b| := by ring

/-- on a compact set, pointwise smoothness holds on a common neighbourhood. -/
theorem tube {d : ℕ} {r : ℕ} {F : E → List ℝ → ℝ} (hF : JointND r θ d F) {S : Set (Fin d → ℝ)} (hS : IsCompact S) :
    ∀ᶠ t in 𝓝 θ, ∀ v ∈ S, ContDiffAt ℝ r (fun p : E × (Fin d → ℝ) => F p.1 (List.ofFn p.2)) (t, v) := by
  exact hS.eventually_forall_of_forall_eventually fun v _ => (hF v).eventually (by simp)

theorem smooth_core {r : ℕ} (h : 0 < z) (hd : 1 ≤ d) {K : E → Fin d → Matrix (Fin z) (Fin z) ℝ} {e : E → Fin d → Matrix (Fin z) (Fin z) ℝ × (Fin z → ℝ)}
    (hK : ∀ j a b, ContDiffAt ℝ r (fun t => K t j a b) θ) (hE : ∀ᶠ t in 𝓝 θ, ∀ j, IsEigh (K t j) (e t j).1 (e t j).2) {F : E → List ℝ → ℝ}
    (hF : JointND r θ d F) : ContDiffAt ℝ r (fun t => integND (coreRule h (e t)) (F t)) θ := by
  -- a bound of the nodes
  set M : E → ℝ := fun t => ∑ j, ∑ a, ∑ b, |K t j a b| with hM
  have hMc : ContinuousAt M θ := by
    refine tendsto_finsetSum _ fun j _ => tendsto_finsetSum _ fun a _ => tendsto_finsetSum _ fun b _ => ?_
    exact (hK j a b).continuousAt.abs
  have hMev : ∀ᶠ t in 𝓝 θ, M t < M θ + 1 := hMc.eventually (eventually_lt_nhds (lt_add_one _))
  have hM0 : 0 ≤ M θ := Finset.sum_nonneg fun j _ => Finset.sum_nonneg fun a _ => Finset.sum_nonneg fun b _ => abs_nonneg _
  let χ : ContDiffBump (0 : Fin d → ℝ) := ⟨M θ + 1, M θ + 2, by linarith, by linarith⟩
  have hKev : ∀ᶠ t in 𝓝 θ, ∀ j a b, ContDiffAt ℝ r (fun t => K t j a b) t :=
    eventually_all.2 fun j => eventually_all.2 fun a => eventually_all.2 fun b => (hK j a b).eventually (by simp)
  have htube := tube hF (isCompact_closedBall (0 : Fin d → ℝ) (M θ + 2))
  obtain ⟨O, hOsub, hO, hθ⟩ := mem_nhds_iff.1 (hMev.and (hKev.and (hE.and htube)))
  have hsm := mcalc_smooth r d hO (K := K) (e := e) (fun j a b t ht => ((hOsub ht).2.1 j a b).contDiffWithinAt) (fun t ht => (hOsub ht).2.2.1)
    (F := fun t x => χ (fun j => x.getD j 0) * F t x) (by
      rintro ⟨t, v⟩ ⟨ht, -⟩
      have e1 : ∀ v : Fin d → ℝ, (fun j : Fin d => (List.ofFn v).getD j 0) = v := fun v => by
        funext j
        rw [List.getD_eq_getElem _ _ (by simp), List.getElem_ofFn]
      simp only [e1]
      by_cases hv : v ∈ Metric.closedBall (0 : Fin d → ℝ) (M θ + 2)
      · refine ContDiffAt.contDiffWithinAt (ContDiffAt.mul ?_ ((hOsub ht).2.2.2 v hv))
        exact (χ.contDiff.comp contDiff_snd).contDiffAt
      · refine ContDiffAt.contDiffWithinAt ?_
        refine (contDiffAt_const (c := (0 : ℝ))).congr_of_eventuallyEq ?_
        have : ∀ᶠ p : E × (Fin d → ℝ) in 𝓝 (t, v), p.2 ∉ Metric.closedBall (0 : Fin d → ℝ) (M θ + 2) :=
          (continuous_snd.tendsto (t, v)).eventually (Metric.isClosed_closedBall.isOpen_compl.mem_nhds hv)
        filter_upwards [this] with p hp
        have : χ p.2 = 0 := χ.zero_of_le_dist (by
          rw [Metric.mem_closedBall, not_le] at hp
          exact hp.le)
        rw [this, zero_mul]) ⟨0, h⟩ ⟨0, h⟩
  refine (hsm.contDiffAt (hO.mem_nhds hθ)).congr_of_eventuallyEq ?_
  filter_upwards [hO.mem_nhds hθ] with t ht
  rw [← coreRule_mcalc h hd]
  simp only [integND]
  congr 1
  refine List.map_congr_left fun p hp => ?_
  have hχ : χ (fun j : Fin d => p.2.getD j 0) = 1 := by
    refine χ.one_of_mem_closedBall ?_
    rw [mem_closedBall_zero_iff, pi_norm_le_iff_of_nonneg χ.rIn_pos.le]
    intro j
    rw [coreRule, List.mem_map] at hp
    obtain ⟨idx, hidx, rfl⟩ := hp
    rw [ndCartesianProdIndices, mem_cartesianProd_replicate] at hidx
    have hj : (List.zipWith (fun (row : Fin z → ℝ) i => row i) ((List.ofFn (e t)).map fun e => e.2) idx).getD j 0 = (e t j).2 (idx[j]'(by rw [hidx.1]; exact j.2)) := by
      rw [List.getD_eq_getElem _ _ (by simp [hidx.1]), List.getElem_zipWith]
      simp
    dsimp only
    rw [hj, Real.norm_eq_abs]
    have h1 := eigh_bound ((hOsub ht).2.2.1 j) (idx[j]'(by rw [hidx.1]; exact j.2))
    have h2 : ∑ a, ∑ b, |K t j a b| ≤ M t :=
      Finset.single_le_sum (f := fun j => ∑ a, ∑ b, |K t j a b|) (fun j _ => Finset.sum_nonneg fun a _ => Finset.sum_nonneg fun b _ => abs_nonneg _) (Finset.mem_univ j)
    have h3 : M t < M θ + 1 := (hOsub ht).1
    show _ ≤ M θ + 1
    linarith
  rw [hχ, one_mul]

variable {r : ℕ∞}

theorem smooth_core' (h : 0 < z) (hd : 1 ≤ d) {K : E → Fin d → Matrix (Fin z) (Fin z) ℝ} {e : E → Fin d → Matrix (Fin z) (Fin z) ℝ × (Fin z → ℝ)}
    (hK : ∀ j a b, ContDiffAt ℝ r (fun t => K t j a b) θ) (hE : ∀ᶠ t in 𝓝 θ, ∀ j, IsEigh (K t j) (e t j).1 (e t j).2) {F : E → List ℝ → ℝ}
    (hF : JointND r θ d F) : ContDiffAt ℝ r (fun t => integND (coreRule h (e t)) (F t)) θ := by
  rw [← contDiffWithinAt_univ, contDiffWithinAt_iff_forall_nat_le]
  intro m hm
  rw [contDiffWithinAt_univ]
  have hm' : ((m : ℕ) : WithTop ℕ∞) ≤ r := by exact_mod_cast hm
  exact smooth_core h hd (fun j a b => (hK j a b).of_le hm') hE fun v => (hF v).of_le hm'

variable {N : ℕ} {basis full : List (List ℕ)} {mats : List (List (List ℤ))}

theorem smooth_gather {s : E → List ℝ} {n : ℕ} (h : Sm r θ n s) (M : List (List ℤ)) (a b : Fin z) : ContDiffAt ℝ r (fun t => gatherL (s t) z M a b) θ := by
  simp only [gatherL, Matrix.of_apply, jget, h.len]
  exact h.smooth' _

/-- the value of the rule without a change of variable is smooth. -/
theorem smooth_rule_raw (T : Tables N d basis full mats) (B : Backend) (hB : B.Valid) {s : E → List ℝ} (h : Sm r θ full.length s)
    (hpd : (gramOn basis (momentAt full (s θ))).PosDef) (sort ldl : Bool) {F : E → List ℝ → ℝ} (hF : JointND r θ d F) :
    ContDiffAt ℝ r (fun t => integND (momentQuadratureND B (s t) mats none none sort ldl) (F t)) θ := by
  simp only [rule_core T, quadCore_core B (mats_zero_len T).2]
  have hR : ∀ᶠ t in 𝓝 θ, IsChol (gatherL (s t) basis.length (mats.getD 0 [])) (codeR B (gatherL (s t) basis.length (mats.getD 0 [])) ldl) := by
    filter_upwards [eventually_gramND h.lconv hpd] with t ht
    refine codeR_isChol hB ?_ ldl
    rw [gather_gram T _ (h.len t)]
    exact ht
  have hRs := chol_smooth (fun a b => smooth_gather h _ a b) hR
  have hdet : (codeR B (gatherL (s θ) basis.length (mats.getD 0 [])) ldl).det ≠ 0 := by
    have h0 := hR.self_of_nhds
    rw [det_of_isLowerTriangular _ fun a b hab => h0.lower a b hab]
    exact Finset.prod_ne_zero_iff.2 fun a _ => (h0.diag_pos a).ne'
  refine smooth_core' (mats_zero_len T).2 T.hd (K := fun t (j : Fin d) => symmetrize (orthonormalise (codeR B (gatherL (s t) basis.length (mats.getD 0 [])) ldl)
    (gatherL (s t) basis.length (mats.getD (j + 1) [])))) (fun j a b => ?_) (Eventually.of_forall fun t j => hB.eigh sort _ (symmetrize_isSymm _)) hF
  have hmm := multMat_smooth hRs (fun a b => smooth_gather h (mats.getD (j + 1) []) a b) hdet
  have h1 : ContDiffAt ℝ r (fun t => symmetrize (multMat (codeR B (gatherL (s t) basis.length (mats.getD 0 [])) ldl) (gatherL (s t) basis.length (mats.getD (j + 1) []))) a b) θ := by
    simp only [symmetrize, Matrix.smul_apply, Matrix.add_apply, Matrix.transpose_apply, smul_eq_mul]
    exact contDiffAt_const.mul ((hmm a b).add (hmm b a))
  refine h1.congr_of_eventuallyEq ?_
  filter_upwards [hR] with t ht
  rw [orthonormalise_eq (G := gatherL (s t) basis.length (mats.getD 0 [])) ht.lower]

theorem JointND.comp {F : E → List ℝ → ℝ} (hF : JointND r θ d F) {w : E → List ℝ → List ℝ} {u : E → (Fin d → ℝ) → Fin d → ℝ}
    (hw : ∀ t x, w t (List.ofFn x) = List.ofFn (u t x)) (hu : ∀ x j, ContDiffAt ℝ r (fun p : E × (Fin d → ℝ) => u p.1 p.2 j) (θ, x)) :
    JointND r θ d fun t x => F t (w t x) := fun v => by
  simp only [hw]
  have h1 : ContDiffAt ℝ r (fun p : E × (Fin d → ℝ) => (p.1, u p.1 p.2)) (θ, v) := contDiffAt_fst.prodMk (contDiffAt_pi.2 fun j => hu v j)
  exact ContDiffAt.comp (g := fun p : E × (Fin d → ℝ) => F p.1 (List.ofFn p.2)) (θ, v) (hF _) h1

theorem JointND.mul {F G : E → List ℝ → ℝ} (hF : JointND r θ d F) (hG : JointND r θ d G) : JointND r θ d fun t x => F t x * G t x :=
  fun v => (hF v).mul (hG v)

theorem JointND.const {F : List ℝ → ℝ} (hF : ContDiff ℝ r fun v : Fin d → ℝ => F (List.ofFn v)) : JointND (E := E) r θ d fun _ => F :=
  fun v => ContDiffAt.comp (g := fun v : Fin d → ℝ => F (List.ofFn v)) (θ, v) hF.contDiffAt contDiffAt_snd

theorem smooth_par {m : E → List ℝ} {n : ℕ} (hm : Sm r θ n m) (x : Fin d → ℝ) (k : ℕ) : ContDiffAt ℝ r (fun p : E × (Fin d → ℝ) => (m p.1).getD k 0) (θ, x) :=
  ContDiffAt.comp (g := fun t => (m t).getD k 0) (θ, x) (hm.smooth' k) contDiffAt_fst

theorem smooth_coord (x : Fin d → ℝ) (j : Fin d) : ContDiffAt ℝ r (fun p : E × (Fin d → ℝ) => p.2 j) (θ, x) :=
  ((contDiff_apply ℝ ℝ j).comp contDiff_snd).contDiffAt

theorem smooth_rule_central (T : Tables N d basis full mats) (B : Backend) (hB : B.Valid) {s : E → List ℝ} (h : Sm r θ full.length s)
    (hpd : (gramOn basis (momentAt full (s θ))).PosDef) {m : E → List ℝ} (hm : Sm r θ d m) (sort ldl : Bool) {F : E → List ℝ → ℝ} (hF : JointND r θ d F) :
    ContDiffAt ℝ r (fun t => integND (momentQuadratureND B (s t) mats (some (m t)) none sort ldl) (F t)) θ := by
  simp only [rule_affine T B _ (some _)]
  have key : ∀ (m : List ℝ), m.length = d → ∀ v : Fin d → ℝ, affineNode (some m) none (List.ofFn v) = List.ofFn fun j : Fin d => v j + m.getD j 0 := by
    intro m hm v
    conv_lhs => rw [list_eq_ofFn m hm]
    simp only [affineNode, zip_ofFn]
  exact smooth_rule_raw T B hB h hpd sort ldl (hF.comp (fun t x => key _ (hm.len t) x) fun x j => (smooth_coord x j).add (smooth_par hm x j))

theorem smooth_rule_scaled (T : Tables N d basis full mats) (B : Backend) (hB : B.Valid) {s : E → List ℝ} (h : Sm r θ full.length s)
    (hpd : (gramOn basis (momentAt full (s θ))).PosDef) {m c : E → List ℝ} (hm : Sm r θ d m) (hc : Sm r θ d c) (sort ldl : Bool) {F : E → List ℝ → ℝ}
    (hF : JointND r θ d F) : ContDiffAt ℝ r (fun t => integND (momentQuadratureND B (s t) mats (some (m t)) (some (c t)) sort ldl) (F t)) θ := by
  simp only [rule_affine T B _ (some _)]
  have key : ∀ (m c : List ℝ), m.length = d → c.length = d → ∀ v : Fin d → ℝ, affineNode (some m) (some c) (List.ofFn v)
      = List.ofFn fun j : Fin d => v j * c.getD j 0 + m.getD j 0 := by
    intro m c hm hc v
    conv_lhs => rw [list_eq_ofFn m hm, list_eq_ofFn c hc]
    simp only [affineNode, zip_ofFn]
  exact smooth_rule_raw T B hB h hpd sort ldl
    (hF.comp (fun t x => key _ _ (hm.len t) (hc.len t) x) fun x j => ((smooth_coord x j).mul (smooth_par hc x j)).add (smooth_par hm x j))

theorem smooth_monomial {α : List ℕ} (hα : α.length = d) : ContDiff ℝ r fun w : Fin d → ℝ => monomial (List.ofFn w) α := by
  obtain ⟨a, rfl⟩ : ∃ a : Fin d → ℕ, α = List.ofFn a := ⟨fun j => α[j]'(by rw [hα]; exact j.2), by apply List.ext_getElem <;> simp [hα]⟩
  simp only [monomial, zip_ofFn, List.prod_ofFn]
  exact contDiff_prod fun j _ => (contDiff_apply ℝ ℝ j).pow _

theorem joint_central {m : E → List ℝ} (hm : Sm r θ d m) {α : List ℕ} (hα : α.length = d) :
    JointND r θ d fun t x => monomial (List.zipWith (· - ·) x (m t)) α := by
  have key : ∀ (m : List ℝ), m.length = d → ∀ v : Fin d → ℝ, List.zipWith (· - ·) (List.ofFn v) m = List.ofFn fun j : Fin d => v j - m.getD j 0 := by
    intro m hm v
    conv_lhs => rw [list_eq_ofFn m hm]
    rw [zip_ofFn]
  exact (JointND.const (F := fun x => monomial x α) (smooth_monomial hα)).comp (w := fun t x => List.zipWith (· - ·) x (m t)) (fun t x => key _ (hm.len t) x)
    fun x j => (smooth_coord x j).sub (smooth_par hm x j)

theorem joint_scaled {m c : E → List ℝ} (hm : Sm r θ d m) (hc : Sm r θ d c) (h0 : ∀ j < d, (c θ).getD j 0 ≠ 0) {α : List ℕ} (hα : α.length = d) :
    JointND r θ d fun t x => monomial (List.zipWith (· / ·) (List.zipWith (· - ·) x (m t)) (c t)) α := by
  have key : ∀ (m c : List ℝ), m.length = d → c.length = d → ∀ v : Fin d → ℝ, List.zipWith (· / ·) (List.zipWith (· - ·) (List.ofFn v) m) c
      = List.ofFn fun j : Fin d => (v j - m.getD j 0) / c.getD j 0 := by
    intro m c hm hc v
    conv_lhs => rw [list_eq_ofFn m hm, list_eq_ofFn c hc]
    rw [zip_ofFn, zip_ofFn]
  exact (JointND.const (F := fun x => monomial x α) (smooth_monomial hα)).comp (w := fun t x => List.zipWith (· / ·) (List.zipWith (· - ·) x (m t)) (c t)) (fun t x => key _ _ (hm.len t) (hc.len t) x)
    fun x j => ((smooth_coord x j).sub (smooth_par hm x j)).div (smooth_par hc x j) (h0 j j.2)

theorem Sm.map_list {α : Type} (L : List α) {F : E → α → ℝ} (h : ∀ a ∈ L, ContDiffAt ℝ r (fun t => F t a) θ) : Sm r θ L.length (fun t => L.map (F t)) where
  len i := by simp
  smooth k hk := by
    have h1 : ∀ G : α → ℝ, (L.map G).getD k 0 = G L[k] := fun G => by
      rw [List.getD_eq_getElem _ _ (by simpa using hk), List.getElem_map]
    simp only [h1]
    exact h _ (List.getElem_mem hk)

theorem getD_map_sqrt (L : List ℝ) (k : ℕ) : (L.map Real.sqrt).getD k 0 = Real.sqrt (L.getD k 0) := by
  rw [List.getD_eq_getElem?_getD, List.getElem?_map, List.getD_eq_getElem?_getD]
  cases L[k]? <;> simp

theorem Sm.sqrt {c : E → List ℝ} {n : ℕ} (h : Sm r θ n c) (h0 : ∀ k < n, 0 < ((c θ).map Real.sqrt).getD k 0) : Sm r θ n (fun t => (c t).map Real.sqrt) where
  len t := by simp [h.len t]
  smooth k hk := by
    simp only [getD_map_sqrt]
    have := h0 k hk
    rw [getD_map_sqrt] at this
    exact (h.smooth k hk).sqrt (Real.sqrt_pos.1 this).ne'

theorem Sm.vec {m : E → List ℝ} (h : Sm r θ d m) : ContDiffAt ℝ r (fun t => fun j : Fin d => (m t).getD j 0) θ := contDiffAt_pi.2 fun j => h.smooth' j

end Rule

end Mfs.Spectral

import Verif.Props.Continuity
import Mathlib.Analysis.Calculus.InverseFunctionTheorem.ContDiff
import Mathlib.Analysis.Calculus.ContDiff.Operations
import Mathlib.Analysis.Calculus.FDeriv.Pow
import Mathlib.Topology.Algebra.Module.FiniteDimension

/-!
# Nodes and weights are analytic functions of the moments
-/

namespace Mfs.Smooth

open Matrix Mfs.Spec Filter Topology Mfs.Quad1 Mfs.Filter1 Mfs.Props Mfs.Cont Polynomial
open scoped ContDiff

variable {N : ℕ}

/-- the moments of a discrete measure as a function of weights and nodes. -/
def momMap (N : ℕ) (p : (Fin N → ℝ) × (Fin N → ℝ)) : Fin (2 * N) → ℝ := fun k => ∑ i, p.1 i * p.2 i ^ (k : ℕ)

/-- its derivative. -/
noncomputable def momDeriv (p : (Fin N → ℝ) × (Fin N → ℝ)) : ((Fin N → ℝ) × (Fin N → ℝ)) →L[ℝ] (Fin (2 * N) → ℝ) :=
  ContinuousLinearMap.pi fun k => ∑ i, (p.1 i • (((k : ℕ) : ℝ) * p.2 i ^ ((k : ℕ) - 1)) • (ContinuousLinearMap.proj i).comp (ContinuousLinearMap.snd ℝ (Fin N → ℝ) (Fin N → ℝ))
    + p.2 i ^ (k : ℕ) • (ContinuousLinearMap.proj i).comp (ContinuousLinearMap.fst ℝ (Fin N → ℝ) (Fin N → ℝ)))

theorem momDeriv_apply (p q : (Fin N → ℝ) × (Fin N → ℝ)) (k : Fin (2 * N)) :
    momDeriv p q k = ∑ i, (p.1 i * (((k : ℕ) : ℝ) * p.2 i ^ ((k : ℕ) - 1) * q.2 i) + p.2 i ^ (k : ℕ) * q.1 i) := by
  simp [momDeriv]

theorem hasFDerivAt_momMap (p : (Fin N → ℝ) × (Fin N → ℝ)) : HasFDerivAt (momMap N) (momDeriv p) p := by
  refine hasFDerivAt_pi.2 fun k => HasFDerivAt.fun_sum fun i _ => ?_
  have h1 : HasFDerivAt (fun p : (Fin N → ℝ) × (Fin N → ℝ) => p.1 i) ((ContinuousLinearMap.proj i).comp (ContinuousLinearMap.fst ℝ (Fin N → ℝ) (Fin N → ℝ))) p :=
    ((ContinuousLinearMap.proj i).comp (ContinuousLinearMap.fst ℝ (Fin N → ℝ) (Fin N → ℝ))).hasFDerivAt
  have h2 : HasFDerivAt (fun p : (Fin N → ℝ) × (Fin N → ℝ) => p.2 i) ((ContinuousLinearMap.proj i).comp (ContinuousLinearMap.snd ℝ (Fin N → ℝ) (Fin N → ℝ))) p :=
    ((ContinuousLinearMap.proj i).comp (ContinuousLinearMap.snd ℝ (Fin N → ℝ) (Fin N → ℝ))).hasFDerivAt
  have h3 := h1.mul (h2.pow (k : ℕ))
  rw [nsmul_eq_mul] at h3
  exact h3

theorem contDiff_momMap {r : WithTop ℕ∞} : ContDiff ℝ r (momMap N) := by
  rw [contDiff_pi]
  intro k
  refine ContDiff.sum fun i _ => ?_
  have h1 : ContDiff ℝ r fun p : (Fin N → ℝ) × (Fin N → ℝ) => p.1 i := (contDiff_apply ℝ ℝ i).comp contDiff_fst
  have h2 : ContDiff ℝ r fun p : (Fin N → ℝ) × (Fin N → ℝ) => p.2 i := (contDiff_apply ℝ ℝ i).comp contDiff_snd
  exact h1.mul (h2.pow _)

/-- the derivative of the moments, tested against a polynomial of low degree. -/
theorem momDeriv_poly_eq (p q : (Fin N → ℝ) × (Fin N → ℝ)) (f : ℝ[X]) (hf : f.natDegree < 2 * N) :
    ∑ i, (p.1 i * (f.derivative.eval (p.2 i) * q.2 i) + f.eval (p.2 i) * q.1 i) = ∑ k : Fin (2 * N), f.coeff k * momDeriv p q k := by
  have h1 : ∀ x, f.eval x = ∑ k ∈ Finset.range (2 * N), f.coeff k * x ^ k := fun x => eval_eq_sum_range' hf x
  have h2 : ∀ x, f.derivative.eval x = ∑ k ∈ Finset.range (2 * N), f.coeff k * ((k : ℝ) * x ^ (k - 1)) := by
    intro x
    rw [derivative_eval, sum_over_range' f (by simp) (2 * N) hf]
    exact Finset.sum_congr rfl fun k _ => by ring
  simp only [momDeriv_apply]
  rw [Fin.sum_univ_eq_sum_range (fun k => f.coeff k * ∑ i, (p.1 i * ((k : ℝ) * p.2 i ^ (k - 1) * q.2 i) + p.2 i ^ k * q.1 i))]
  simp only [h1, h2, Finset.mul_sum, Finset.sum_mul]
  rw [Finset.sum_comm]
  refine Finset.sum_congr rfl fun i _ => ?_
  rw [← Finset.sum_add_distrib]
  exact Finset.sum_congr rfl fun k _ => by ring

/-- vectors in the kernel of the derivative annihilate all polynomials of low degree. -/
theorem momDeriv_poly {p q : (Fin N → ℝ) × (Fin N → ℝ)} (h : momDeriv p q = 0) (f : ℝ[X]) (hf : f.natDegree < 2 * N) :
    ∑ i, (p.1 i * (f.derivative.eval (p.2 i) * q.2 i) + f.eval (p.2 i) * q.1 i) = 0 := by
  rw [momDeriv_poly_eq p q f hf, h]
  simp

/-- the derivative is injective at distinct nodes with non-zero weights. -/
theorem momDeriv_injective {p : (Fin N → ℝ) × (Fin N → ℝ)} (hw : ∀ i, p.1 i ≠ 0) (hx : Function.Injective p.2) :
    Function.Injective (momDeriv p) := by
  rw [injective_iff_map_eq_zero]
  intro q hq
  have hnode : ∀ i, q.2 i = 0 := by
    intro i
    set g : ℝ[X] := ∏ j ∈ Finset.univ.erase i, (X - C (p.2 j)) with hg
    have hgd : g.natDegree = N - 1 := by
      rw [hg, natDegree_prod_of_monic _ _ fun j _ => monic_X_sub_C _]
      simp
    have hg0 : ∀ j ≠ i, g.eval (p.2 j) = 0 := fun j hj => by
      rw [hg, eval_prod]
      exact Finset.prod_eq_zero (Finset.mem_erase.2 ⟨hj, Finset.mem_univ j⟩) (by simp)
    have hgi : g.eval (p.2 i) ≠ 0 := by
      rw [hg, eval_prod]
      refine Finset.prod_ne_zero_iff.2 fun j hj => ?_
      have := (Finset.mem_erase.1 hj).1
      simpa [sub_eq_zero] using fun h => this (hx h).symm
    have hN : 0 < N := i.pos
    have := momDeriv_poly hq ((X - C (p.2 i)) * g ^ 2) (by
      refine lt_of_le_of_lt natDegree_mul_le ?_
      rw [natDegree_X_sub_C, natDegree_pow, hgd]
      omega)
    rw [Finset.sum_eq_single i] at this
    · simp only [derivative_mul, derivative_sub, derivative_X, derivative_C, derivative_pow, eval_add, eval_mul, eval_sub, eval_X, eval_C, eval_pow,
        sub_self, zero_mul, sub_zero, one_mul, add_zero] at this
      exact (mul_eq_zero.1 ((mul_eq_zero.1 this).resolve_left (hw i))).resolve_left (pow_ne_zero _ hgi)
    · intro j _ hj
      simp [hg0 j hj, derivative_pow]
    · simp
  have hweight : ∀ i, q.1 i = 0 := by
    intro i
    set g : ℝ[X] := ∏ j ∈ Finset.univ.erase i, (X - C (p.2 j)) with hg
    have hgd : g.natDegree = N - 1 := by
      rw [hg, natDegree_prod_of_monic _ _ fun j _ => monic_X_sub_C _]
      simp
    have hN : 0 < N := i.pos
    have := momDeriv_poly hq g (by omega)
    rw [Finset.sum_eq_single i] at this
    · rw [hnode i, mul_zero, mul_zero, zero_add] at this
      refine (mul_eq_zero.1 this).resolve_left ?_
      rw [hg, eval_prod]
      refine Finset.prod_ne_zero_iff.2 fun j hj => ?_
      have := (Finset.mem_erase.1 hj).1
      simpa [sub_eq_zero] using fun h => this (hx h).symm
    · intro j _ hj
      have : g.eval (p.2 j) = 0 := by
        rw [hg, eval_prod]
        exact Finset.prod_eq_zero (Finset.mem_erase.2 ⟨hj, Finset.mem_univ j⟩) (by simp)
      rw [this, hnode j]
      simp
    · simp
  exact Prod.ext (funext hweight) (funext hnode)

/-- weights and nodes depend analytically on the moments, as soon as they depend continuously on them. -/
theorem contDiffAt_of_momMap {E : Type*} [NormedAddCommGroup E] [NormedSpace ℝ E] {r : WithTop ℕ∞} {a : E → (Fin N → ℝ) × (Fin N → ℝ)} {θ : E}
    (ha : ContinuousAt a θ) (hw : ∀ i, (a θ).1 i ≠ 0) (hx : Function.Injective (a θ).2) (hm : ContDiffAt ℝ r (fun t => momMap N (a t)) θ) :
    ContDiffAt ℝ r a θ := by
  have hinj : Function.Injective (momDeriv (a θ)).toLinearMap := momDeriv_injective hw hx
  have hfr : Module.finrank ℝ ((Fin N → ℝ) × (Fin N → ℝ)) = Module.finrank ℝ (Fin (2 * N) → ℝ) := by
    simp [Module.finrank_prod, two_mul]
  let e : ((Fin N → ℝ) × (Fin N → ℝ)) ≃L[ℝ] (Fin (2 * N) → ℝ) := (LinearEquiv.ofInjectiveOfFinrankEq (momDeriv (a θ)).toLinearMap hinj hfr).toContinuousLinearEquiv
  have he : (e : ((Fin N → ℝ) × (Fin N → ℝ)) →L[ℝ] (Fin (2 * N) → ℝ)) = momDeriv (a θ) := by
    ext v <;> rfl
  have hd : HasFDerivAt (momMap N) (e : ((Fin N → ℝ) × (Fin N → ℝ)) →L[ℝ] (Fin (2 * N) → ℝ)) (a θ) := by
    rw [he]
    exact hasFDerivAt_momMap _
  have hc : ContDiffAt ℝ ω (momMap N) (a θ) := contDiff_momMap.contDiffAt
  have hl : ContDiffAt ℝ ω (hc.localInverse hd (by simp)) (momMap N (a θ)) := hc.to_localInverse hd (by simp)
  have hev : ∀ᶠ t in 𝓝 θ, hc.localInverse hd (by simp) (momMap N (a t)) = a t :=
    ha.eventually (hc.hasStrictFDerivAt' hd (by simp)).eventually_left_inverse
  refine ((hl.of_le (m := r) le_top).comp θ hm).congr_of_eventuallyEq ?_
  filter_upwards [hev] with t ht using ht.symm

variable {n : ℕ}

/-- weights and sorted nodes, with the length made a parameter. -/
noncomputable def nw (B : Backend) (ldl : Bool) (ms : List ℝ) (hl : ms.length = n) : (Fin (n / 2) → ℝ) × (Fin (n / 2) → ℝ) :=
  (fun i => (momentQuadrature B ms 0 1 true ldl).1 (Fin.cast (by rw [hl]) i), fun i => (momentQuadrature B ms 0 1 true ldl).2 (Fin.cast (by rw [hl]) i))

theorem nw_spec (B : Backend) (hB : B.Valid) (ldl : Bool) (ms : List ℝ) (hl : ms.length = n) (hpd : (hankelMat (n / 2) (fun k => ms.getD k 0)).PosDef) :
    (∀ k, momMap (n / 2) (nw B ldl ms hl) k = ms.getD k 0 / ms.getD 0 0) ∧ (∀ i, 0 < (nw B ldl ms hl).1 i) ∧ StrictMono (nw B ldl ms hl).2 ∧
    ∀ m c sort f, integ (momentQuadrature B ms m c sort ldl) f = ∑ i, (nw B ldl ms hl).1 i * f (c * (nw B ldl ms hl).2 i + m) := by
  subst hl
  have hr := momentQuadrature_reproduces B hB ms hpd true ldl
  refine ⟨fun k => hr k k.2, fun i => hr.weight_pos (posDef_normalised _ hpd) i, ?_, fun m c sort f => ?_⟩
  · exact ((C12_backend_independent B B hB hB ms hpd 0 1 true true ldl (fun _ => 0)).2 zero_le_one).strictMono_of_injective
      (hr.injective (posDef_normalised _ hpd))
  · rw [(C12_backend_independent B B hB hB ms hpd m c sort true ldl f).1, integ]
    have ha := momentQuadrature_affine B ms m c true ldl
    rw [ha.1, ha.2]
    rfl

/-- every sorted node is a node in the order of the backend. -/
theorem nw_mem (B : Backend) (hB : B.Valid) (sort ldl : Bool) (ms : List ℝ) (hl : ms.length = n) (hpd : (gramOf ms).PosDef) (i : Fin (n / 2)) :
    ∃ j, (momentQuadrature B ms 0 1 sort ldl).2 j = (nw B ldl ms hl).2 i := by
  classical
  by_contra hno
  push Not at hno
  obtain ⟨-, hw, hx, hi⟩ := nw_spec B hB ldl ms hl ((gram_posDef_iff hl).1 hpd)
  have h1 := hi 0 1 sort fun x => if x = (nw B ldl ms hl).2 i then 1 else 0
  have h2 : integ (momentQuadrature B ms 0 1 sort ldl) (fun x => if x = (nw B ldl ms hl).2 i then 1 else 0) = 0 := by
    rw [integ]
    exact Finset.sum_eq_zero fun j _ => by rw [if_neg (hno j), mul_zero]
  rw [h2] at h1
  simp only [one_mul, add_zero, hx.injective.eq_iff, mul_ite, mul_one, mul_zero, Finset.sum_ite_eq', Finset.mem_univ, if_true] at h1
  exact (hw i).ne h1

theorem tendsto_nw {ι : Type*} {l : Filter ι} (B : Backend) (hB : B.Valid) {s : ι → List ℝ} {s0 : List ℝ} (h : LConv l n s s0) (hpd : (gramOf s0).PosDef) (ldl : Bool) :
    Tendsto (fun i => nw B ldl (s i) (h.len i)) l (𝓝 (nw B ldl s0 h.len0)) := by
  obtain ⟨K, U, lam, K0, U0, lam0, hK, h0, hd0, hd⟩ := rules_data B hB h hpd true ldl
  have e0 : (nw B ldl s0 h.len0).2 = lam0 := funext fun i => by simpa [nw] using (hd0 0 1 i).2
  have hs0 : StrictMono lam0 := e0 ▸ (nw_spec B hB ldl s0 h.len0 ((gram_posDef_iff h.len0).1 hpd)).2.2.1
  have hev : ∀ᶠ i in l, IsEigh (K i) (U i) (lam i) ∧ Monotone (lam i) := by
    filter_upwards [hd, eventually_gram h hpd] with i hi hpi
    have e : (nw B ldl (s i) (h.len i)).2 = lam i := funext fun j => by simpa [nw] using (hi.2 0 1 j).2
    exact ⟨hi.1, (e ▸ (nw_spec B hB ldl (s i) (h.len i) hpi).2.2.1).monotone⟩
  refine Tendsto.prodMk_nhds (tendsto_pi_nhds.2 fun j => ?_) (tendsto_pi_nhds.2 fun j => ?_)
  · obtain ⟨-, t2⟩ := tendsto_sorted hK hev h0 hs0 j
    rw [(hd0 0 1 j).1]
    refine (t2 _).congr' ?_
    filter_upwards [hd] with i hi
    exact ((hi.2 0 1 j).1).symm
  · obtain ⟨t1, -⟩ := tendsto_sorted hK hev h0 hs0 j
    rw [(hd0 0 1 j).2, one_mul, add_zero]
    refine t1.congr' ?_
    filter_upwards [hd] with i hi
    rw [(hi.2 0 1 j).2, one_mul, add_zero]

variable {E : Type*} [NormedAddCommGroup E] [NormedSpace ℝ E] {r : WithTop ℕ∞} {θ : E}

/-- moment vectors of a common length that depend smoothly on a parameter. -/
structure Sm (r : WithTop ℕ∞) (θ : E) (n : ℕ) (s : E → List ℝ) : Prop where
  len : ∀ t, (s t).length = n
  smooth : ∀ k < n, ContDiffAt ℝ r (fun t => (s t).getD k 0) θ

theorem Sm.smooth' {s : E → List ℝ} (h : Sm r θ n s) (k : ℕ) : ContDiffAt ℝ r (fun t => (s t).getD k 0) θ := by
  by_cases hk : k < n
  · exact h.smooth k hk
  · have : (fun t => (s t).getD k 0) = fun _ => (0 : ℝ) := funext fun t => List.getD_eq_default _ _ (by rw [h.len]; omega)
    rw [this]
    exact contDiffAt_const

theorem Sm.lconv {s : E → List ℝ} (h : Sm r θ n s) : LConv (𝓝 θ) n s (s θ) where
  len := h.len
  len0 := h.len θ
  lim k hk := (h.smooth k hk).continuousAt

theorem Sm.map_range {F : E → ℕ → ℝ} (h : ∀ k < n, ContDiffAt ℝ r (fun t => F t k) θ) : Sm r θ n (fun t => (List.range n).map (F t)) where
  len i := by simp
  smooth k hk := by
    simp only [getD_map_range _ hk]
    exact h k hk

theorem Sm.ofFn {m : E → Fin n → ℝ} (h : ContDiffAt ℝ r m θ) : Sm r θ n (fun t => List.ofFn (m t)) where
  len i := List.length_ofFn
  smooth k hk := by
    have h1 : ∀ v : Fin n → ℝ, (List.ofFn v).getD k 0 = v ⟨k, hk⟩ := fun v => by
      rw [List.getD_eq_getElem _ _ (by simpa using hk), List.getElem_ofFn]
    simp only [h1]
    exact contDiffAt_pi.1 h _

/-- a function of a parameter and a state, smooth jointly at the given parameter. -/
def Joint (r : WithTop ℕ∞) (θ : E) (f : E → ℝ → ℝ) : Prop := ∀ x, ContDiffAt ℝ r (fun p : E × ℝ => f p.1 p.2) (θ, x)

/-- weights and nodes are smooth. -/
theorem contDiffAt_nw (B : Backend) (hB : B.Valid) {s : E → List ℝ} (h : Sm r θ n s) (hpd : (gramOf (s θ)).PosDef) (ldl : Bool) :
    ContDiffAt ℝ r (fun t => nw B ldl (s t) (h.len t)) θ := by
  have hp := (gram_posDef_iff (h.len θ)).1 hpd
  obtain ⟨-, hw, hx, -⟩ := nw_spec B hB ldl (s θ) (h.len θ) hp
  refine contDiffAt_of_momMap (tendsto_nw B hB h.lconv hpd ldl) (fun i => (hw i).ne') hx.injective ?_
  refine contDiffAt_pi.2 fun k => ?_
  have hk : 0 < n / 2 := by have := k.2; omega
  have h0 : (s θ).getD 0 0 ≠ 0 := (moment_zero_pos (fun k => (s θ).getD k 0) hk hp).ne'
  refine ((h.smooth' k).div (h.smooth' 0) h0).congr_of_eventuallyEq ?_
  filter_upwards [eventually_gram h.lconv hpd] with t ht
  exact (nw_spec B hB ldl (s t) (h.len t) ht).1 k

/-- the value of the rule is smooth in all of its arguments. -/
theorem contDiffAt_rule (B : Backend) (hB : B.Valid) {s : E → List ℝ} (h : Sm r θ n s) (hpd : (gramOf (s θ)).PosDef) (sort ldl : Bool) {m c : E → ℝ}
    (hm : ContDiffAt ℝ r m θ) (hc : ContDiffAt ℝ r c θ) {f : E → ℝ → ℝ} (hf : Joint r θ f) :
    ContDiffAt ℝ r (fun t => integ (momentQuadrature B (s t) (m t) (c t) sort ldl) (f t)) θ := by
  have ha := contDiffAt_nw B hB h hpd ldl
  have h1 : ContDiffAt ℝ r (fun t => ∑ i, (nw B ldl (s t) (h.len t)).1 i * f t (c t * (nw B ldl (s t) (h.len t)).2 i + m t)) θ := by
    refine ContDiffAt.sum fun i _ => ?_
    have hw : ContDiffAt ℝ r (fun t => (nw B ldl (s t) (h.len t)).1 i) θ := contDiffAt_pi.1 (contDiffAt_fst.comp θ ha) i
    have hx : ContDiffAt ℝ r (fun t => (nw B ldl (s t) (h.len t)).2 i) θ := contDiffAt_pi.1 (contDiffAt_snd.comp θ ha) i
    have h2 : ContDiffAt ℝ r (fun t => (t, c t * (nw B ldl (s t) (h.len t)).2 i + m t)) θ := contDiffAt_id.prodMk ((hc.mul hx).add hm)
    exact hw.mul (ContDiffAt.comp (g := fun p : E × ℝ => f p.1 p.2) θ (hf _) h2)
  refine h1.congr_of_eventuallyEq ?_
  filter_upwards [eventually_gram h.lconv hpd] with t ht
  exact (nw_spec B hB ldl (s t) (h.len t) ht).2.2.2 _ _ _ _

/-- a run of a recursion whose step is smooth is smooth. -/
theorem traj_smooth {S Y : Type} (Sms : (E → S) → Prop) (Ok : S → Y → Prop) {g : E → S → Y → S} {lik : E → S → Y → ℝ} (T : ℕ) (ys : E → Fin T → Y)
    (hstep : ∀ j s, Sms s → Ok (s θ) (ys θ j) → Sms (fun t => g t (s t) (ys t j)) ∧ 0 < lik θ (s θ) (ys θ j) ∧
      ContDiffAt ℝ r (fun t => lik t (s t) (ys t j)) θ) (d : S) (s : E → S) (hs : Sms s) (hok : RunOK Ok (g θ) (s θ) (List.ofFn (ys θ))) :
    ContDiffAt ℝ r (fun t => ((liks (g t) (lik t) (s t) (List.ofFn (ys t))).map Real.log).sum) θ ∧
    ∀ j < T, Sms (fun t => (traj (g t) (s t) (List.ofFn (ys t))).getD j d) := by
  induction T generalizing s with
  | zero => exact ⟨by simpa [liks] using contDiffAt_const, by simp⟩
  | succ T ih =>
    simp only [List.ofFn_succ, RunOK] at hok
    obtain ⟨h1, h3, h4⟩ := hstep 0 s hs hok.1
    obtain ⟨e1, e2⟩ := ih (fun t j => ys t j.succ) (fun j => hstep j.succ) _ h1 hok.2
    simp only [List.ofFn_succ, liks, traj, List.map_cons, List.sum_cons]
    refine ⟨(h4.log h3.ne').add e1, fun j hj => ?_⟩
    cases j with
    | zero => simpa using h1
    | succ j => simpa using e2 j (by omega)

end Mfs.Smooth

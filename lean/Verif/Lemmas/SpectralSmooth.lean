import Verif.Lemmas.CholCont
import Mathlib.Analysis.Calculus.ParametricIntervalIntegral
import Mathlib.Analysis.Calculus.ContDiff.Operations
import Mathlib.Analysis.Calculus.ContDiff.RCLike
import Mathlib.MeasureTheory.Integral.IntervalIntegral.FundThmCalculus
import Mathlib.Analysis.Calculus.MeanValue

/-!
# Functions of symmetric matrices are smooth
-/

namespace Mfs.Spectral

open Matrix Mfs.Spec Filter Topology Mfs.Cont MeasureTheory Set

section Integral

theorem par_bound {E F : Type*} [NormedAddCommGroup E] [NormedAddCommGroup F] {O : Set E} (hO : IsOpen O) {h : E × ℝ → F}
    (hc : ContinuousOn h (O ×ˢ univ)) {p : E} (hp : p ∈ O) : ∃ C, ∀ᶠ q in 𝓝 p, ∀ s ∈ Icc (0 : ℝ) 1, ‖h (q, s)‖ ≤ C := by
  have hcs : ContinuousOn (fun s : ℝ => h (p, s)) (Icc 0 1) :=
    hc.comp (by fun_prop) fun s _ => ⟨hp, mem_univ _⟩
  obtain ⟨C, hC⟩ := (isCompact_Icc (a := (0 : ℝ)) (b := 1)).exists_bound_of_continuousOn hcs
  refine ⟨C + 1, isCompact_Icc.eventually_forall_of_forall_eventually fun s hs => ?_⟩
  have h1 : ContinuousAt h (p, s) := hc.continuousAt ((hO.prod isOpen_univ).mem_nhds ⟨hp, mem_univ _⟩)
  have h2 : ∀ᶠ z in 𝓝 (p, s), ‖h z‖ < C + 1 := h1.norm.eventually_lt_const (by have := hC s hs; linarith)
  exact h2.mono fun z hz => hz.le

theorem slice_cont {E F : Type*} [NormedAddCommGroup E] [NormedAddCommGroup F] {O : Set E} {h : E × ℝ → F} (hc : ContinuousOn h (O ×ˢ univ)) {p : E} (hp : p ∈ O) :
    Continuous fun s : ℝ => h (p, s) :=
  continuousOn_univ.1 (hc.comp (s := univ) (f := fun s : ℝ => (p, s)) (by fun_prop) fun _ _ => ⟨hp, mem_univ _⟩)

theorem par_cont {E F : Type*} [NormedAddCommGroup E] [NormedAddCommGroup F] [NormedSpace ℝ F] {O : Set E} (hO : IsOpen O) {h : E × ℝ → F}
    (hc : ContinuousOn h (O ×ˢ univ)) : ContinuousOn (fun p => ∫ s in (0 : ℝ)..1, h (p, s)) O := by
  intro p hp
  refine ContinuousAt.continuousWithinAt ?_
  obtain ⟨C, hC⟩ := par_bound hO hc hp
  refine intervalIntegral.continuousAt_of_dominated_interval (bound := fun _ => C) ?_ ?_ (by simp) ?_
  · filter_upwards [hO.mem_nhds hp] with q hq
    exact (slice_cont hc hq).aestronglyMeasurable
  · filter_upwards [hC] with q hq
    refine Eventually.of_forall fun s hs => hq s ?_
    rw [uIoc_of_le zero_le_one] at hs
    exact ⟨hs.1.le, hs.2⟩
  · refine Eventually.of_forall fun s _ => ?_
    have h1 : ContinuousAt h (p, s) := hc.continuousAt ((hO.prod isOpen_univ).mem_nhds ⟨hp, mem_univ _⟩)
    exact h1.comp (f := fun q : E => (q, s)) (by fun_prop)

/-- integrals over the unit interval of smooth functions with parameters are smooth. -/
theorem par_int (r : ℕ) : ∀ {E F : Type} [NormedAddCommGroup E] [NormedSpace ℝ E] [NormedAddCommGroup F] [NormedSpace ℝ F] {O : Set E} (_ : IsOpen O)
    {h : E × ℝ → F} (_ : ContDiffOn ℝ r h (O ×ˢ univ)), ContDiffOn ℝ r (fun p => ∫ s in (0 : ℝ)..1, h (p, s)) O := by
  induction r with
  | zero =>
    intro E F _ _ _ _ O hO h hh
    simp only [Nat.cast_zero, contDiffOn_zero] at hh ⊢
    exact par_cont hO hh
  | succ r ih =>
    intro E F _ _ _ _ O hO h hh
    have hOu := hO.prod (isOpen_univ (X := ℝ))
    push_cast at hh ⊢
    obtain ⟨hd, -, hd'⟩ := (contDiffOn_succ_iff_fderiv_of_isOpen hOu).1 hh
    have hd1 : ContDiffOn ℝ r (fun z : E × ℝ => (fderiv ℝ h z).comp (ContinuousLinearMap.inl ℝ E ℝ)) (O ×ˢ univ) := by
      exact hd'.clm_comp contDiffOn_const
    have hcont := hd1.continuousOn
    rw [contDiffOn_succ_iff_hasFDerivWithinAt_of_uniqueDiffOn hO.uniqueDiffOn]
    refine ⟨fun h0 => absurd h0 (by exact_mod_cast WithTop.coe_ne_top), fun p => ∫ s in (0 : ℝ)..1, (fderiv ℝ h (p, s)).comp (ContinuousLinearMap.inl ℝ E ℝ), ih hO hd1, fun p hp => ?_⟩
    refine HasFDerivAt.hasFDerivWithinAt ?_
    obtain ⟨C, hC⟩ := par_bound hO hcont hp
    obtain ⟨V, hV, hVC⟩ := Filter.eventually_iff_exists_mem.1 (hC.and (hO.mem_nhds hp))
    have hint : IntervalIntegrable (fun _ : ℝ => C) volume 0 1 := _root_.intervalIntegrable_const
    refine intervalIntegral.hasFDerivAt_integral_of_dominated_of_fderiv_le (𝕜 := ℝ) (F := fun p s => h (p, s)) (F' := fun p s => (fderiv ℝ h (p, s)).comp (ContinuousLinearMap.inl ℝ E ℝ)) (bound := fun _ => C) hV ?_ ?_ ?_ ?_ (by exact hint) ?_
    · filter_upwards [hO.mem_nhds hp] with q hq
      exact (slice_cont hh.continuousOn hq).aestronglyMeasurable
    · exact (slice_cont hh.continuousOn hp).intervalIntegrable _ _
    · exact (slice_cont hcont hp).aestronglyMeasurable
    · refine Eventually.of_forall fun s hs q hq => (hVC q hq).1 s ?_
      rw [uIoc_of_le zero_le_one] at hs
      exact ⟨hs.1.le, hs.2⟩
    · refine Eventually.of_forall fun s hs q hq => ?_
      have h1 : HasFDerivAt h (fderiv ℝ h (q, s)) (q, s) := ((hd (q, s) ⟨(hVC q hq).2, mem_univ _⟩).differentiableAt
        (hOu.mem_nhds ⟨(hVC q hq).2, mem_univ _⟩)).hasFDerivAt
      have h2 : HasFDerivAt (fun q : E => (q, s)) (ContinuousLinearMap.inl ℝ E ℝ) q := hasFDerivAt_prodMk_left q s
      exact h1.comp q h2

end Integral

section DivDiff

variable {E F : Type} [NormedAddCommGroup E] [NormedSpace ℝ E] [NormedAddCommGroup F] [NormedSpace ℝ F]

/-- divided difference in the last variable. -/
noncomputable def dd (f : E × ℝ → F) (q : (E × ℝ) × ℝ) : F :=
  ∫ s in (0 : ℝ)..1, fderiv ℝ f (q.1.1, q.2 + s * (q.1.2 - q.2)) (0, 1)

theorem dd_smooth {r : ℕ} {O : Set E} (hO : IsOpen O) {f : E × ℝ → F} (hf : ContDiffOn ℝ (r + 1) f (O ×ˢ univ)) :
    ContDiffOn ℝ r (dd f) ((O ×ˢ univ) ×ˢ univ) := by
  have hOu := hO.prod (isOpen_univ (X := ℝ))
  obtain ⟨-, -, hd'⟩ := (contDiffOn_succ_iff_fderiv_of_isOpen hOu).1 hf
  have h1 : ContDiffOn ℝ r (fun z : ((E × ℝ) × ℝ) × ℝ => fderiv ℝ f (z.1.1.1, z.1.2 + z.2 * (z.1.1.2 - z.1.2)) (0, 1)) (((O ×ˢ univ) ×ˢ univ) ×ˢ univ) := by
    refine ContDiffOn.clm_apply (hd'.comp (f := fun z : ((E × ℝ) × ℝ) × ℝ => (z.1.1.1, z.1.2 + z.2 * (z.1.1.2 - z.1.2))) ?_ ?_) contDiffOn_const
    · fun_prop
    · rintro z ⟨⟨⟨hz, -⟩, -⟩, -⟩
      exact ⟨hz, mem_univ _⟩
  exact par_int r (hOu.prod isOpen_univ) h1

theorem dd_spec [CompleteSpace F] {O : Set E} (hO : IsOpen O) {f : E × ℝ → F} (hf : ContDiffOn ℝ 1 f (O ×ˢ univ)) {t : E} (ht : t ∈ O) (x y : ℝ) :
    f (t, x) - f (t, y) = (x - y) • dd f ((t, x), y) := by
  have hOu := hO.prod (isOpen_univ (X := ℝ))
  obtain ⟨hd, -, hd'⟩ := (contDiffOn_succ_iff_fderiv_of_isOpen (n := 0) hOu).1 (by simpa using hf)
  have hder : ∀ s : ℝ, HasDerivAt (fun s : ℝ => f (t, y + s * (x - y))) ((x - y) • fderiv ℝ f (t, y + s * (x - y)) (0, 1)) s := by
    intro s
    have h1 : HasFDerivAt f (fderiv ℝ f (t, y + s * (x - y))) (t, y + s * (x - y)) :=
      ((hd _ ⟨ht, mem_univ _⟩).differentiableAt (hOu.mem_nhds ⟨ht, mem_univ _⟩)).hasFDerivAt
    have h2 : HasDerivAt (fun s : ℝ => (t, y + s * (x - y))) ((0 : E), (x - y)) s := by
      have h4 : HasDerivAt (fun s : ℝ => y + s * (x - y)) (x - y) s := by simpa using ((hasDerivAt_id s).mul_const (x - y)).const_add y
      exact (hasDerivAt_const s t).prodMk h4
    have h3 := h1.comp_hasDerivAt s h2
    have h4 : (x - y) • fderiv ℝ f (t, y + s * (x - y)) (0, 1) = fderiv ℝ f (t, y + s * (x - y)) (0, x - y) := by
      rw [← map_smul]
      simp
    rw [h4]
    exact h3
  have hcont : Continuous fun s : ℝ => (x - y) • fderiv ℝ f (t, y + s * (x - y)) (0, 1) := by
    refine Continuous.const_smul ?_ _
    have h1 : Continuous fun s : ℝ => fderiv ℝ f (t, y + s * (x - y)) :=
      continuousOn_univ.1 (hd'.continuousOn.comp (s := univ) (f := fun s : ℝ => (t, y + s * (x - y))) (by fun_prop) fun _ _ => ⟨ht, mem_univ _⟩)
    exact h1.clm_apply continuous_const
  have := intervalIntegral.integral_eq_sub_of_hasDerivAt (a := 0) (b := 1) (fun s _ => hder s) (hcont.intervalIntegrable _ _)
  rw [intervalIntegral.integral_smul] at this
  rw [dd, this]
  simp

end DivDiff

section Calculus

variable {z : ℕ} {E F : Type*} [NormedAddCommGroup E] [NormedSpace ℝ E] [NormedAddCommGroup F] [NormedSpace ℝ F]

/-- one entry of a vector-valued function of a matrix given by its eigen-decomposition. -/
noncomputable def spec (U : Matrix (Fin z) (Fin z) ℝ) (lam : Fin z → ℝ) (f : ℝ → F) (a b : Fin z) : F := ∑ i, (U a i * U b i) • f (lam i)

/-- difference of functions of two matrices in terms of divided differences. -/
theorem spec_sub {K K' U U' : Matrix (Fin z) (Fin z) ℝ} {lam lam' : Fin z → ℝ} (h : IsEigh K U lam) (h' : IsEigh K' U' lam') (f : ℝ → F)
    (g : ℝ → ℝ → F) (hg : ∀ i j, f (lam i) - f (lam' j) = (lam i - lam' j) • g (lam i) (lam' j)) (a b : Fin z) :
    spec U lam f a b - spec U' lam' f a b
      = ∑ c, ∑ e, (K c e - K' c e) • spec U lam (fun x => spec U' lam' (fun y => g x y) e b) a c := by
  have hK : Uᵀ * K = diagonal lam * Uᵀ := by
    rw [h.spec, ← Matrix.mul_assoc, ← Matrix.mul_assoc, h.orth', Matrix.one_mul]
  have hK' : K' * U' = U' * diagonal lam' := by
    rw [h'.spec, Matrix.mul_assoc, h'.orth', Matrix.mul_one]
  have e1 : ∀ i j, ∑ c, ∑ e, U c i * (K c e - K' c e) * U' e j = (lam i - lam' j) * ∑ c, U c i * U' c j := by
    intro i j
    have h1 : ∑ c, ∑ e, U c i * K c e * U' e j = lam i * ∑ c, U c i * U' c j := by
      rw [Finset.sum_comm]
      have : ∀ e, ∑ c, U c i * K c e * U' e j = lam i * (U e i * U' e j) := by
        intro e
        rw [← Finset.sum_mul]
        have := congrFun (congrFun hK i) e
        rw [Matrix.mul_apply, diagonal_mul] at this
        simp only [transpose_apply] at this
        rw [this]
        ring
      simp only [this, ← Finset.mul_sum]
    have h2 : ∑ c, ∑ e, U c i * K' c e * U' e j = lam' j * ∑ c, U c i * U' c j := by
      have : ∀ c, ∑ e, U c i * K' c e * U' e j = lam' j * (U c i * U' c j) := by
        intro c
        have := congrFun (congrFun hK' c) j
        rw [Matrix.mul_apply, mul_diagonal] at this
        simp only [mul_assoc, ← Finset.mul_sum]
        rw [this]
        ring
      simp only [this, ← Finset.mul_sum]
    rw [sub_mul, ← h1, ← h2, ← Finset.sum_sub_distrib]
    refine Finset.sum_congr rfl fun c _ => ?_
    rw [← Finset.sum_sub_distrib]
    exact Finset.sum_congr rfl fun e _ => by ring
  have e2 : ∑ c, ∑ e, (K c e - K' c e) • spec U lam (fun x => spec U' lam' (fun y => g x y) e b) a c
      = ∑ i, ∑ j, (U a i * U' b j * ∑ c, U c i * U' c j) • (f (lam i) - f (lam' j)) := by
    have h1 : ∀ i j, (U a i * U' b j * ∑ c, U c i * U' c j) • (f (lam i) - f (lam' j))
        = ∑ c, ∑ e, ((K c e - K' c e) * (U a i * U c i) * (U' e j * U' b j)) • g (lam i) (lam' j) := by
      intro i j
      rw [hg, smul_smul, mul_assoc, mul_comm (∑ c, U c i * U' c j), ← e1, Finset.mul_sum, Finset.sum_smul]
      refine Finset.sum_congr rfl fun c _ => ?_
      rw [Finset.mul_sum, Finset.sum_smul]
      exact Finset.sum_congr rfl fun e _ => by congr 1; ring
    simp only [h1, spec, Finset.smul_sum, smul_smul]
    rw [Finset.sum_congr rfl fun c _ => Finset.sum_comm, Finset.sum_comm]
    refine Finset.sum_congr rfl fun i _ => ?_
    rw [Finset.sum_congr rfl fun c _ => Finset.sum_comm, Finset.sum_comm]
    refine Finset.sum_congr rfl fun j _ => Finset.sum_congr rfl fun c _ => Finset.sum_congr rfl fun e _ => ?_
    congr 1
    ring
  rw [e2]
  simp only [smul_sub, Finset.sum_sub_distrib]
  have o1 : ∀ (i : Fin z), ∑ j, U' b j * ∑ c, U c i * U' c j = U b i := by
    intro i
    simp only [Finset.mul_sum]
    rw [Finset.sum_comm]
    have : ∀ c, ∑ j, U' b j * (U c i * U' c j) = U c i * (1 : Matrix (Fin z) (Fin z) ℝ) b c := by
      intro c
      rw [← h'.orth, Matrix.mul_apply, Finset.mul_sum]
      exact Finset.sum_congr rfl fun j _ => by rw [transpose_apply]; ring
    simp [this, Matrix.one_apply]
  have o2 : ∀ (j : Fin z), ∑ i, U a i * ∑ c, U c i * U' c j = U' a j := by
    intro j
    simp only [Finset.mul_sum]
    rw [Finset.sum_comm]
    have : ∀ c, ∑ i, U a i * (U c i * U' c j) = U' c j * (1 : Matrix (Fin z) (Fin z) ℝ) a c := by
      intro c
      rw [← h.orth, Matrix.mul_apply, Finset.mul_sum]
      exact Finset.sum_congr rfl fun j _ => by rw [transpose_apply]; ring
    simp [this, Matrix.one_apply]
  congr 1
  · refine Finset.sum_congr rfl fun i _ => ?_
    rw [← Finset.sum_smul]
    congr 1
    rw [← o1 i, Finset.mul_sum]
    exact Finset.sum_congr rfl fun j _ => by ring
  · rw [Finset.sum_comm]
    refine Finset.sum_congr rfl fun j _ => ?_
    rw [← Finset.sum_smul]
    congr 1
    rw [mul_comm, ← o2 j, Finset.mul_sum]
    exact Finset.sum_congr rfl fun i _ => by ring

/-- the value does not depend on the decomposition. -/
theorem spec_unique {K U U' : Matrix (Fin z) (Fin z) ℝ} {lam lam' : Fin z → ℝ} (h : IsEigh K U lam) (h' : IsEigh K U' lam') (f : ℝ → F) (a b : Fin z) :
    spec U lam f a b = spec U' lam' f a b := by
  have := spec_sub h h' f (fun x y => (x - y)⁻¹ • (f x - f y)) (fun i j => by
    rcases eq_or_ne (lam i) (lam' j) with e | e
    · simp [e]
    · rw [smul_smul, mul_inv_cancel₀ (sub_ne_zero.2 e), one_smul]) a b
  rw [← sub_eq_zero, this]
  simp

/-- continuity. -/
theorem spec_cont {X : Type*} [TopologicalSpace X] {t : X} {K U : X → Matrix (Fin z) (Fin z) ℝ} {lam : X → Fin z → ℝ} (hK : ContinuousAt K t)
    (hE : ∀ᶠ u in 𝓝 t, IsEigh (K u) (U u) (lam u)) {f : X → ℝ → F} (hf : ∀ x, ContinuousAt (fun p : X × ℝ => f p.1 p.2) (t, x)) (a b : Fin z) :
    ContinuousAt (fun u => spec (U u) (lam u) (f u) a b) t := by
  rw [ContinuousAt, tendsto_iff_ultrafilter]
  intro g hg
  obtain ⟨U', v', hU', hv', hE'⟩ := exists_lim_eigh g (hK.tendsto.mono_left hg) (hE.filter_mono hg)
  rw [spec_unique hE.self_of_nhds hE' (f t)]
  refine tendsto_finsetSum _ fun j _ => ?_
  refine ((tendsto_entry hU' a j).mul (tendsto_entry hU' b j)).smul ?_
  have h1 : Tendsto (fun u => (u, lam u j)) g (𝓝 (t, v' j)) := by
    rw [nhds_prod_eq]
    exact (tendsto_id.mono_right hg).prodMk (((continuous_apply j).tendsto _).comp hv')
  exact (hf (v' j)).tendsto.comp h1

theorem hasFDerivAt_smul_cont {k : E → ℝ} {k' : E →L[ℝ] ℝ} {C : E → F} {t : E} (hk : HasFDerivAt k k' t) (hC : ContinuousAt C t) :
    HasFDerivAt (fun u => (k u - k t) • C u) (k'.smulRight (C t)) t := by
  rw [hasFDerivAt_iff_isLittleO] at hk ⊢
  have h1 : (fun u => (k u - k t - k' (u - t)) • C u) =o[𝓝 t] fun u => u - t := by
    have := (hk.norm_right).smul_isBigO (hC.norm.isBoundedUnder_le.isBigO_one ℝ)
    simpa using this
  have h2 : (fun u => k' (u - t) • (C u - C t)) =o[𝓝 t] fun u => u - t := by
    have h3 : (fun u => C u - C t) =o[𝓝 t] fun _ => (1 : ℝ) := by
      rw [Asymptotics.isLittleO_one_iff]
      simpa using hC.tendsto.sub_const (C t)
    have := ((k'.isBigO_sub (𝓝 t) t).norm_right).smul_isLittleO h3
    simpa using this
  refine (h1.add h2).congr_left fun u => ?_
  simp only [ContinuousLinearMap.smulRight_apply, sub_self, zero_smul, sub_zero]
  rw [sub_smul, smul_sub]
  abel

theorem hasFDerivAt_apply_cont {D : E → E →L[ℝ] F} {t : E} (hD : ContinuousAt D t) : HasFDerivAt (fun u => D u (u - t)) (D t) t := by
  rw [hasFDerivAt_iff_isLittleO]
  have h3 : (fun u => D u - D t) =o[𝓝 t] fun _ => (1 : ℝ) := by
    rw [Asymptotics.isLittleO_one_iff]
    simpa using hD.tendsto.sub_const (D t)
  have h1 : (fun u => (D u - D t) (u - t)) =O[𝓝 t] fun u => ‖D u - D t‖ * ‖u - t‖ :=
    Asymptotics.IsBigO.of_bound 1 (Eventually.of_forall fun u => by simpa using (D u - D t).le_opNorm (u - t))
  have h2 : (fun u => ‖D u - D t‖ * ‖u - t‖) =o[𝓝 t] fun u => u - t := by
    have := h3.norm_left.mul_isBigO (Asymptotics.isBigO_refl (fun u => ‖u - t‖) (𝓝 t))
    simp only [one_mul] at this
    exact this.of_norm_right
  refine (h1.trans_isLittleO h2).congr_left fun u => ?_
  simp

/-- the remainder in the parameter, divided by the increment. -/
theorem remainder_cont {f : E × ℝ → F} {O : Set E} (hO : IsOpen O) (hf : ContDiffOn ℝ 1 f (O ×ˢ univ)) {t : E} (ht : t ∈ O) (x : ℝ) :
    ContinuousAt (fun p : E × ℝ => ‖p.1 - t‖⁻¹ • (f (p.1, p.2) - f (t, p.2) - fderiv ℝ f (t, p.2) (p.1 - t, 0))) (t, x) := by
  have hOu := hO.prod (isOpen_univ (X := ℝ))
  have hmem : O ×ˢ (univ : Set ℝ) ∈ 𝓝 (t, x) := hOu.mem_nhds ⟨ht, mem_univ _⟩
  have hs : HasStrictFDerivAt f (fderiv ℝ f (t, x)) (t, x) := (hf.contDiffAt hmem).hasStrictFDerivAt one_ne_zero
  obtain ⟨hd, -, hd'⟩ := (contDiffOn_succ_iff_fderiv_of_isOpen (n := 0) hOu).1 (by simpa using hf)
  have hdc : ContinuousAt (fderiv ℝ f) (t, x) := hd'.continuousOn.continuousAt hmem
  rw [Metric.continuousAt_iff']
  intro ε hε
  have h1 := hs.isLittleO.def (c := ε / 4) (by positivity)
  have h2 : Tendsto (fun p : E × ℝ => ((p.1, p.2), (t, p.2))) (𝓝 (t, x)) (𝓝 ((t, x), (t, x))) := by
    have : Continuous fun p : E × ℝ => ((p.1, p.2), (t, p.2)) := by fun_prop
    exact this.tendsto' _ _ rfl
  have h3 : Tendsto (fun p : E × ℝ => fderiv ℝ f (t, p.2)) (𝓝 (t, x)) (𝓝 (fderiv ℝ f (t, x))) := by
    have : Continuous fun p : E × ℝ => (t, p.2) := by fun_prop
    exact hdc.tendsto.comp (this.tendsto' _ _ rfl)
  filter_upwards [h2.eventually h1, Metric.tendsto_nhds.1 h3 (ε / 4) (by positivity)] with p hp hq
  simp only [sub_self, norm_zero, _root_.inv_zero, zero_smul]
  have e0 : fderiv ℝ f (t, x) (p.1 - t, 0) = fderiv ℝ f (t, x) ((p.1, p.2) - (t, p.2)) := by rw [Prod.mk_sub_mk, sub_self]
  have en : ‖((p.1, p.2) - (t, p.2) : E × ℝ)‖ = ‖p.1 - t‖ := by simp [Prod.norm_def]
  rw [en, ← e0] at hp
  rw [dist_eq_norm] at hq
  have hb : ‖f (p.1, p.2) - f (t, p.2) - fderiv ℝ f (t, p.2) (p.1 - t, 0)‖ ≤ ε / 2 * ‖p.1 - t‖ := by
    have h5 : ‖(fderiv ℝ f (t, p.2) - fderiv ℝ f (t, x)) (p.1 - t, 0)‖ ≤ ε / 4 * ‖p.1 - t‖ := by
      refine ((fderiv ℝ f (t, p.2) - fderiv ℝ f (t, x)).le_opNorm _).trans ?_
      have : ‖((p.1 - t, 0) : E × ℝ)‖ = ‖p.1 - t‖ := by simp [Prod.norm_def]
      rw [this]
      gcongr
    have h6 : f (p.1, p.2) - f (t, p.2) - fderiv ℝ f (t, p.2) (p.1 - t, 0)
        = (f (p.1, p.2) - f (t, p.2) - fderiv ℝ f (t, x) (p.1 - t, 0)) - (fderiv ℝ f (t, p.2) - fderiv ℝ f (t, x)) (p.1 - t, 0) := by
      rw [_root_.sub_apply]
      abel
    rw [h6]
    refine (norm_sub_le _ _).trans ?_
    linarith
  rw [dist_zero_right, norm_smul, norm_inv, norm_norm]
  rcases eq_or_ne ‖p.1 - t‖ 0 with e | e
  · rw [e, _root_.inv_zero, zero_mul]
    exact hε
  · rw [inv_mul_lt_iff₀ (lt_of_le_of_ne (norm_nonneg _) e.symm)]
    have : 0 < ‖p.1 - t‖ := lt_of_le_of_ne (norm_nonneg _) e.symm
    nlinarith

end Calculus

/-- **functions of symmetric matrices are smooth**, with parameters, whatever decompositions are chosen. -/
theorem spec_smooth (r : ℕ) : ∀ {z : ℕ} {E F : Type} [NormedAddCommGroup E] [NormedSpace ℝ E] [NormedAddCommGroup F] [NormedSpace ℝ F] [CompleteSpace F]
    {O : Set E} (_ : IsOpen O) {K U : E → Matrix (Fin z) (Fin z) ℝ} {lam : E → Fin z → ℝ} (_ : ∀ a b, ContDiffOn ℝ r (fun t => K t a b) O)
    (_ : ∀ t ∈ O, IsEigh (K t) (U t) (lam t)) {f : E × ℝ → F} (_ : ContDiffOn ℝ r f (O ×ˢ univ)) (a b : Fin z),
    ContDiffOn ℝ r (fun t => spec (U t) (lam t) (fun x => f (t, x)) a b) O := by
  induction r with
  | zero =>
    intro z E F _ _ _ _ _ O hO K U lam hK hE f hf a b
    simp only [Nat.cast_zero, contDiffOn_zero] at hK hf ⊢
    intro t ht
    refine ContinuousAt.continuousWithinAt ?_
    refine spec_cont (K := K) (tendsto_of_entries fun a b => (hK a b).continuousAt (hO.mem_nhds ht)) ?_ (fun x => ?_) a b
    · filter_upwards [hO.mem_nhds ht] with u hu using hE u hu
    · exact hf.continuousAt ((hO.prod isOpen_univ).mem_nhds ⟨ht, mem_univ _⟩)
  | succ r ih =>
    intro z E F _ _ _ _ _ O hO K U lam hK hE f hf a b
    have hOu := hO.prod (isOpen_univ (X := ℝ))
    push_cast at hK hf ⊢
    have hf1 : ContDiffOn ℝ 1 f (O ×ˢ univ) := hf.of_le (by exact_mod_cast Nat.le_add_left 1 r)
    obtain ⟨hd, -, hd'⟩ := (contDiffOn_succ_iff_fderiv_of_isOpen hOu).1 hf
    have hKr : ∀ a b, ContDiffOn ℝ r (fun t => K t a b) O := fun a b => (hK a b).of_le (by exact_mod_cast Nat.le_succ r)
    have hdt : ContDiffOn ℝ r (fun z : E × ℝ => (fderiv ℝ f z).comp (ContinuousLinearMap.inl ℝ E ℝ)) (O ×ˢ univ) := hd'.clm_comp contDiffOn_const
    have hdd := dd_smooth hO hf
    have hG1 : ∀ e, ContDiffOn ℝ r (fun q : E × ℝ => spec (U q.1) (lam q.1) (fun y => dd f (q, y)) e b) (O ×ˢ univ) := fun e =>
      ih hOu (K := fun q => K q.1) (U := fun q => U q.1) (lam := fun q => lam q.1)
        (fun a b => (hKr a b).comp contDiffOn_fst fun q hq => hq.1) (fun q hq => hE q.1 hq.1) hdd e b
    have hG2 : ∀ c e, ContDiffOn ℝ r (fun t => spec (U t) (lam t) (fun x => spec (U t) (lam t) (fun y => dd f ((t, x), y)) e b) a c) O := fun c e =>
      ih hO hKr hE (hG1 e) a c
    rw [contDiffOn_succ_iff_hasFDerivWithinAt_of_uniqueDiffOn hO.uniqueDiffOn]
    refine ⟨fun h0 => absurd h0 (by exact_mod_cast WithTop.coe_ne_top), fun t => spec (U t) (lam t) (fun x => (fderiv ℝ f (t, x)).comp (ContinuousLinearMap.inl ℝ E ℝ)) a b
      + ∑ c, ∑ e, (fderiv ℝ (fun t => K t c e) t).smulRight (spec (U t) (lam t) (fun x => spec (U t) (lam t) (fun y => dd f ((t, x), y)) e b) a c), ?_, fun t ht => ?_⟩
    · refine (ih hO hKr hE hdt a b).add (ContDiffOn.sum fun c _ => ContDiffOn.sum fun e _ => ?_)
      exact ((contDiffOn_succ_iff_fderiv_of_isOpen hO).1 (hK c e)).2.2.smulRight (hG2 c e)
    · refine HasFDerivAt.hasFDerivWithinAt ?_
      have hev : ∀ᶠ u in 𝓝 t, IsEigh (K u) (U u) (lam u) := by
        filter_upwards [hO.mem_nhds ht] with u hu using hE u hu
      have hKc : ContinuousAt K t := tendsto_of_entries fun a b => (hKr a b).continuousOn.continuousAt (hO.mem_nhds ht)
      have hmem : ∀ x : ℝ, O ×ˢ (univ : Set ℝ) ∈ 𝓝 (t, x) := fun x => hOu.mem_nhds ⟨ht, mem_univ _⟩
      -- the three parts
      have p1 : HasFDerivAt (fun u => ‖u - t‖ • spec (U u) (lam u) (fun x => ‖u - t‖⁻¹ • (f (u, x) - f (t, x) - fderiv ℝ f (t, x) (u - t, 0))) a b) (0 : E →L[ℝ] F) t := by
        have hc := spec_cont hKc hev (f := fun u x => ‖u - t‖⁻¹ • (f (u, x) - f (t, x) - fderiv ℝ f (t, x) (u - t, 0))) (remainder_cont hO hf1 ht) a b
        rw [hasFDerivAt_iff_isLittleO]
        have h0 : spec (U t) (lam t) (fun x => ‖t - t‖⁻¹ • (f (t, x) - f (t, x) - fderiv ℝ f (t, x) (t - t, 0))) a b = 0 := by
          simp [spec]
        have h1 : (fun u => spec (U u) (lam u) (fun x => ‖u - t‖⁻¹ • (f (u, x) - f (t, x) - fderiv ℝ f (t, x) (u - t, 0))) a b) =o[𝓝 t] fun _ => (1 : ℝ) := by
          rw [Asymptotics.isLittleO_one_iff]
          rw [ContinuousAt, h0] at hc
          exact hc
        have h2 := (Asymptotics.isBigO_refl (fun u : E => ‖u - t‖) (𝓝 t)).smul_isLittleO h1
        simp only [smul_eq_mul, mul_one] at h2
        refine h2.of_norm_right.congr_left fun u => ?_
        simp
      have p2 : HasFDerivAt (fun u => spec (U u) (lam u) (fun x => (fderiv ℝ f (t, x)).comp (ContinuousLinearMap.inl ℝ E ℝ)) a b (u - t))
          (spec (U t) (lam t) (fun x => (fderiv ℝ f (t, x)).comp (ContinuousLinearMap.inl ℝ E ℝ)) a b) t := by
        refine hasFDerivAt_apply_cont (spec_cont hKc hev (f := fun _ x => (fderiv ℝ f (t, x)).comp (ContinuousLinearMap.inl ℝ E ℝ)) (fun x => ?_) a b)
        have h1 : ContinuousAt (fun z : E × ℝ => (fderiv ℝ f z).comp (ContinuousLinearMap.inl ℝ E ℝ)) (t, x) := hdt.continuousOn.continuousAt (hmem x)
        exact ContinuousAt.comp (x := (t, x)) (f := fun p : E × ℝ => (t, p.2)) h1 (by fun_prop)
      have p3 : ∀ c e, HasFDerivAt (fun u => (K u c e - K t c e) • spec (U u) (lam u) (fun x => spec (U t) (lam t) (fun y => dd f ((t, x), y)) e b) a c)
          ((fderiv ℝ (fun t => K t c e) t).smulRight (spec (U t) (lam t) (fun x => spec (U t) (lam t) (fun y => dd f ((t, x), y)) e b) a c)) t := by
        intro c e
        have hk : HasFDerivAt (fun t => K t c e) (fderiv ℝ (fun t => K t c e) t) t :=
          (((contDiffOn_succ_iff_fderiv_of_isOpen hO).1 (hK c e)).1.differentiableAt (hO.mem_nhds ht)).hasFDerivAt
        refine hasFDerivAt_smul_cont hk (spec_cont hKc hev (f := fun _ x => spec (U t) (lam t) (fun y => dd f ((t, x), y)) e b) (fun x => ?_) a c)
        have h1 : ContinuousAt (fun q : E × ℝ => spec (U q.1) (lam q.1) (fun y => dd f (q, y)) e b) (t, x) := (hG1 e).continuousOn.continuousAt (hmem x)
        exact ContinuousAt.comp (x := (t, x)) (f := fun p : E × ℝ => (t, p.2)) h1 (by fun_prop)
      have hsum := ((p1.add p2).add (HasFDerivAt.fun_sum (u := Finset.univ) fun c _ => HasFDerivAt.fun_sum (u := Finset.univ) fun e _ => p3 c e)).const_add
        (spec (U t) (lam t) (fun x => f (t, x)) a b)
      rw [zero_add] at hsum
      refine hsum.congr_of_eventuallyEq ?_
      filter_upwards [hev] with u hu
      have hsub := spec_sub hu (hE t ht) (fun x => f (t, x)) (fun x y => dd f ((t, x), y)) (fun i j => dd_spec hO hf1 ht _ _) a b
      simp only [Pi.add_apply]
      rw [← hsub]
      have h1 : ‖u - t‖ • spec (U u) (lam u) (fun x => ‖u - t‖⁻¹ • (f (u, x) - f (t, x) - fderiv ℝ f (t, x) (u - t, 0))) a b
          + spec (U u) (lam u) (fun x => (fderiv ℝ f (t, x)).comp (ContinuousLinearMap.inl ℝ E ℝ)) a b (u - t)
          = spec (U u) (lam u) (fun x => f (u, x)) a b - spec (U u) (lam u) (fun x => f (t, x)) a b := by
        simp only [spec, Finset.smul_sum, _root_.sum_apply, ← Finset.sum_add_distrib, ← Finset.sum_sub_distrib]
        refine Finset.sum_congr rfl fun i _ => ?_
        rcases eq_or_ne ‖u - t‖ 0 with e | e
        · have e' : u = t := sub_eq_zero.1 (norm_eq_zero.1 e)
          rw [e, zero_smul, e', sub_self, map_zero, sub_self, zero_add]
        · rw [smul_comm, smul_smul ‖u - t‖, mul_inv_cancel₀ e, one_smul]
          simp [smul_sub]
      rw [h1]
      abel

end Mfs.Spectral

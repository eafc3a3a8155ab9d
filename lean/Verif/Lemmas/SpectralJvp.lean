import Verif.Lemmas.RuleSmoothND
import Verif.Model.Jvp

/-!
# Derivatives of functions of matrices by the rules of forward-mode differentiation
-/

namespace Mfs.Spectral

open Matrix Mfs.Spec Filter Topology Mfs.Cont Set Mfs.Jvp

variable {z : ℕ}

/-- derivative of a matrix, entry by entry. -/
def MDeriv {m n : ℕ} (A : ℝ → Matrix (Fin m) (Fin n) ℝ) (A' : Matrix (Fin m) (Fin n) ℝ) (t : ℝ) : Prop :=
  ∀ a b, HasDerivAt (fun u => A u a b) (A' a b) t

/-- derivative of a function of a matrix, whatever decompositions are chosen. -/
theorem spec_hasDerivAt {O : Set ℝ} (hO : IsOpen O) {t : ℝ} (ht : t ∈ O) {K U : ℝ → Matrix (Fin z) (Fin z) ℝ} {K' : Matrix (Fin z) (Fin z) ℝ}
    {lam : ℝ → Fin z → ℝ} (hK : MDeriv K K' t) (hev : ∀ᶠ u in 𝓝 t, IsEigh (K u) (U u) (lam u))
    {f : ℝ × ℝ → ℝ} (hf1 : ContDiffOn ℝ 1 f (O ×ˢ univ)) (a b : Fin z) :
    HasDerivAt (fun u => spec (U u) (lam u) (fun x => f (u, x)) a b)
      (spec (U t) (lam t) (fun x => fderiv ℝ f (t, x) (1, 0)) a b
        + ∑ c, ∑ e, K' c e * spec (U t) (lam t) (fun x => spec (U t) (lam t) (fun y => dd f ((t, x), y)) e b) a c) t := by
  have hOu := hO.prod (isOpen_univ (X := ℝ))
  obtain ⟨hd, -, hd'⟩ := (contDiffOn_succ_iff_fderiv_of_isOpen (n := 0) hOu).1 (by simpa using hf1)
  have hdt : ContDiffOn ℝ 0 (fun z : ℝ × ℝ => (fderiv ℝ f z).comp (ContinuousLinearMap.inl ℝ ℝ ℝ)) (O ×ˢ univ) := hd'.clm_comp contDiffOn_const
  have hdd : ContDiffOn ℝ (0 : ℕ) (dd f) ((O ×ˢ univ) ×ˢ univ) := dd_smooth hO (r := 0) (by simpa using hf1)
  have hKc : ContinuousAt K t := tendsto_of_entries fun a b => (hK a b).continuousAt
  have hmem : ∀ x : ℝ, O ×ˢ (univ : Set ℝ) ∈ 𝓝 (t, x) := fun x => hOu.mem_nhds ⟨ht, mem_univ _⟩
  have h0E : IsEigh (K t) (U t) (lam t) := hev.self_of_nhds
  have hddc : ∀ x y, ContinuousAt (dd f) ((t, x), y) := fun x y => by
    simp only [Nat.cast_zero, contDiffOn_zero] at hdd
    exact hdd.continuousAt ((hOu.prod isOpen_univ).mem_nhds ⟨⟨ht, mem_univ _⟩, mem_univ _⟩)
  -- the three parts
  have p1 : HasFDerivAt (fun u => ‖u - t‖ • spec (U u) (lam u) (fun x => ‖u - t‖⁻¹ • (f (u, x) - f (t, x) - fderiv ℝ f (t, x) (u - t, 0))) a b) (0 : ℝ →L[ℝ] ℝ) t := by
    have hc := spec_cont hKc hev (f := fun u x => ‖u - t‖⁻¹ • (f (u, x) - f (t, x) - fderiv ℝ f (t, x) (u - t, 0))) (remainder_cont hO hf1 ht) a b
    rw [hasFDerivAt_iff_isLittleO]
    have h0 : spec (U t) (lam t) (fun x => ‖t - t‖⁻¹ • (f (t, x) - f (t, x) - fderiv ℝ f (t, x) (t - t, 0))) a b = 0 := by
      simp [spec]
    have h1 : (fun u => spec (U u) (lam u) (fun x => ‖u - t‖⁻¹ • (f (u, x) - f (t, x) - fderiv ℝ f (t, x) (u - t, 0))) a b) =o[𝓝 t] fun _ => (1 : ℝ) := by
      rw [Asymptotics.isLittleO_one_iff]
      rw [ContinuousAt, h0] at hc
      exact hc
    have h2 := (Asymptotics.isBigO_refl (fun u : ℝ => ‖u - t‖) (𝓝 t)).smul_isLittleO h1
    simp only [smul_eq_mul, mul_one] at h2
    refine h2.of_norm_right.congr_left fun u => ?_
    simp
  have p2 : HasFDerivAt (fun u => spec (U u) (lam u) (fun x => (fderiv ℝ f (t, x)).comp (ContinuousLinearMap.inl ℝ ℝ ℝ)) a b (u - t))
      (spec (U t) (lam t) (fun x => (fderiv ℝ f (t, x)).comp (ContinuousLinearMap.inl ℝ ℝ ℝ)) a b) t := by
    refine hasFDerivAt_apply_cont (spec_cont hKc hev (f := fun _ x => (fderiv ℝ f (t, x)).comp (ContinuousLinearMap.inl ℝ ℝ ℝ)) (fun x => ?_) a b)
    have h1 : ContinuousAt (fun z : ℝ × ℝ => (fderiv ℝ f z).comp (ContinuousLinearMap.inl ℝ ℝ ℝ)) (t, x) := hdt.continuousOn.continuousAt (hmem x)
    exact ContinuousAt.comp (x := (t, x)) (f := fun p : ℝ × ℝ => (t, p.2)) h1 (by fun_prop)
  have p3 : ∀ c e, HasFDerivAt (fun u => (K u c e - K t c e) • spec (U u) (lam u) (fun x => spec (U t) (lam t) (fun y => dd f ((t, x), y)) e b) a c)
      ((ContinuousLinearMap.toSpanSingleton ℝ (K' c e)).smulRight (spec (U t) (lam t) (fun x => spec (U t) (lam t) (fun y => dd f ((t, x), y)) e b) a c)) t := by
    intro c e
    refine hasFDerivAt_smul_cont (hK c e).hasFDerivAt (spec_cont hKc hev (f := fun _ x => spec (U t) (lam t) (fun y => dd f ((t, x), y)) e b) (fun x => ?_) a c)
    simp only [spec]
    refine tendsto_finsetSum _ fun i _ => Tendsto.const_smul ?_ _
    exact ContinuousAt.comp (x := (t, x)) (f := fun p : ℝ × ℝ => ((t, p.2), lam t i)) (hddc x (lam t i)) (by fun_prop)
  have hsum := ((p1.add p2).add (HasFDerivAt.fun_sum (u := Finset.univ) fun c _ => HasFDerivAt.fun_sum (u := Finset.univ) fun e _ => p3 c e)).const_add
    (spec (U t) (lam t) (fun x => f (t, x)) a b)
  rw [zero_add] at hsum
  have hfin : HasFDerivAt (fun u => spec (U u) (lam u) (fun x => f (u, x)) a b)
      (spec (U t) (lam t) (fun x => (fderiv ℝ f (t, x)).comp (ContinuousLinearMap.inl ℝ ℝ ℝ)) a b
        + ∑ c, ∑ e, (ContinuousLinearMap.toSpanSingleton ℝ (K' c e)).smulRight (spec (U t) (lam t) (fun x => spec (U t) (lam t) (fun y => dd f ((t, x), y)) e b) a c)) t := by
    refine hsum.congr_of_eventuallyEq ?_
    filter_upwards [hev] with u hu
    have hsub := spec_sub hu h0E (fun x => f (t, x)) (fun x y => dd f ((t, x), y)) (fun i j => dd_spec hO hf1 ht _ _) a b
    simp only [Pi.add_apply]
    rw [← hsub]
    have h1 : ‖u - t‖ • spec (U u) (lam u) (fun x => ‖u - t‖⁻¹ • (f (u, x) - f (t, x) - fderiv ℝ f (t, x) (u - t, 0))) a b
        + spec (U u) (lam u) (fun x => (fderiv ℝ f (t, x)).comp (ContinuousLinearMap.inl ℝ ℝ ℝ)) a b (u - t)
        = spec (U u) (lam u) (fun x => f (u, x)) a b - spec (U u) (lam u) (fun x => f (t, x)) a b := by
      simp only [spec, Finset.smul_sum, _root_.sum_apply, ← Finset.sum_add_distrib, ← Finset.sum_sub_distrib]
      refine Finset.sum_congr rfl fun i _ => ?_
      rcases eq_or_ne ‖u - t‖ 0 with e | e
      · have e' : u = t := sub_eq_zero.1 (norm_eq_zero.1 e)
        rw [e, zero_smul, e', sub_self, map_zero, sub_self, zero_add]
      · rw [smul_comm, smul_smul ‖u - t‖, mul_inv_cancel₀ e, one_smul]
        simp [mul_sub]
    rw [h1]
    abel
  have := hfin.hasDerivAt
  refine this.congr_deriv ?_
  simp [spec, _root_.sum_apply]

theorem dd_self {f : ℝ × ℝ → ℝ} (t x : ℝ) : dd f ((t, x), x) = fderiv ℝ f (t, x) (0, 1) := by
  simp [dd]

/-- tangents of eigenvectors and eigenvalues by JAX's rule. -/
noncomputable def tanU (U : Matrix (Fin z) (Fin z) ℝ) (lam : Fin z → ℝ) (K' : Matrix (Fin z) (Fin z) ℝ) : Matrix (Fin z) (Fin z) ℝ :=
  U * Matrix.of (fun i j => fmat lam i j * (Uᵀ * K' * U) i j)

noncomputable def tanL (U K' : Matrix (Fin z) (Fin z) ℝ) : Fin z → ℝ := fun i => (Uᵀ * K' * U) i i

theorem fmat_self (w : Fin z → ℝ) (i : Fin z) : fmat w i i = 0 := by simp [fmat]

theorem fmat_ne (w : Fin z → ℝ) {i j : Fin z} (h : i ≠ j) : fmat w i j = (w j - w i)⁻¹ := by simp [fmat, h]

/-- **the rule of forward-mode differentiation is right for functions of a matrix with distinct eigenvalues.** -/
theorem spec_jvp {O : Set ℝ} (hO : IsOpen O) {t : ℝ} (ht : t ∈ O) {K U : ℝ → Matrix (Fin z) (Fin z) ℝ} {K' : Matrix (Fin z) (Fin z) ℝ}
    {lam : ℝ → Fin z → ℝ} (hK : MDeriv K K' t) (hev : ∀ᶠ u in 𝓝 t, IsEigh (K u) (U u) (lam u)) (hinj : Function.Injective (lam t))
    {f : ℝ × ℝ → ℝ} (hf1 : ContDiffOn ℝ 1 f (O ×ˢ univ)) (a b : Fin z) :
    HasDerivAt (fun u => spec (U u) (lam u) (fun x => f (u, x)) a b)
      (∑ i, ((tanU (U t) (lam t) K' a i * U t b i + U t a i * tanU (U t) (lam t) K' b i) * f (t, lam t i)
        + U t a i * U t b i * fderiv ℝ f (t, lam t i) (1, tanL (U t) K' i))) t := by
  refine (spec_hasDerivAt hO ht hK hev hf1 a b).congr_deriv ?_
  have hsymm : ∀ c e, K' c e = K' e c := by
    intro c e
    refine (hK c e).unique ((hK e c).congr_of_eventuallyEq ?_)
    filter_upwards [hev] with u hu
    have : (K u)ᵀ = K u := by rw [hu.spec]; simp [Matrix.transpose_mul, Matrix.mul_assoc]
    exact (congrFun (congrFun this e) c)
  set V := U t with hV
  set l := lam t with hl
  set M := Vᵀ * K' * V with hM
  have hMs : ∀ i j, M i j = M j i := by
    intro i j
    have h1 : K'ᵀ = K' := by ext c e; exact hsymm e c
    have : Mᵀ = M := by rw [hM]; simp [Matrix.transpose_mul, Matrix.mul_assoc, h1]
    exact (congrFun (congrFun this j) i)
  have hMe : ∀ i j, M i j = ∑ c, ∑ e, V c i * K' c e * V e j := by
    intro i j
    rw [hM, Matrix.mul_apply]
    simp only [Matrix.mul_apply, Matrix.transpose_apply, Finset.sum_mul]
    rw [Finset.sum_comm]
  -- the double sum
  have e1 : ∑ c, ∑ e, K' c e * spec V l (fun x => spec V l (fun y => dd f ((t, x), y)) e b) a c
      = ∑ i, ∑ j, V a i * V b j * M i j * dd f ((t, l i), l j) := by
    simp only [hMe, spec, smul_eq_mul, Finset.mul_sum, Finset.sum_mul]
    rw [Finset.sum_congr rfl fun c _ => Finset.sum_comm, Finset.sum_comm]
    refine Finset.sum_congr rfl fun i _ => ?_
    rw [Finset.sum_congr rfl fun c _ => Finset.sum_comm, Finset.sum_comm]
    exact Finset.sum_congr rfl fun j _ => Finset.sum_congr rfl fun c _ => Finset.sum_congr rfl fun e _ => by ring
  have e2 : ∀ a i, tanU V l K' a i = ∑ j, V a j * (fmat l j i * M j i) := by
    intro a i
    rw [tanU, Matrix.mul_apply]
    rfl
  have e3 : ∀ i, fderiv ℝ f (t, l i) (1, tanL V K' i) = fderiv ℝ f (t, l i) (1, 0) + M i i * fderiv ℝ f (t, l i) (0, 1) := by
    intro i
    have : ((1 : ℝ), tanL V K' i) = (1, 0) + M i i • ((0 : ℝ), (1 : ℝ)) := by
      simp [tanL, hM]
    rw [this, map_add, map_smul, smul_eq_mul]
  have e4 : ∀ i j, M i j * dd f ((t, l i), l j) = fmat l j i * M i j * f (t, l i) + fmat l i j * M i j * f (t, l j)
      + if i = j then M i i * fderiv ℝ f (t, l i) (0, 1) else 0 := by
    intro i j
    by_cases h : i = j
    · subst h
      simp [fmat_self, dd_self]
    · have hne : l i - l j ≠ 0 := sub_ne_zero.2 fun hh => h (hinj hh)
      have hdd := dd_spec hO hf1 ht (l i) (l j)
      rw [smul_eq_mul] at hdd
      have h1 : dd f ((t, l i), l j) = (l i - l j)⁻¹ * (f (t, l i) - f (t, l j)) := by
        rw [hdd, ← mul_assoc, inv_mul_cancel₀ hne, one_mul]
      rw [fmat_ne l (Ne.symm h), fmat_ne l h, if_neg h, h1, ← neg_sub (l i) (l j), inv_neg]
      ring
  rw [e1]
  have e5 : ∑ i, ∑ j, V a i * V b j * M i j * dd f ((t, l i), l j)
      = ∑ i, (∑ j, V a i * V b j * (fmat l j i * M j i) * f (t, l i)) + ∑ i, (∑ j, V a j * V b i * (fmat l j i * M j i) * f (t, l i))
        + ∑ i, V a i * V b i * (M i i * fderiv ℝ f (t, l i) (0, 1)) := by
    rw [Finset.sum_comm (f := fun i j => V a j * V b i * (fmat l j i * M j i) * f (t, l i)), ← Finset.sum_add_distrib, ← Finset.sum_add_distrib]
    refine Finset.sum_congr rfl fun i _ => ?_
    have h1 : V a i * V b i * (M i i * fderiv ℝ f (t, l i) (0, 1)) = ∑ j, V a i * V b j * (if i = j then M i i * fderiv ℝ f (t, l i) (0, 1) else 0) := by
      simp
    rw [h1, ← Finset.sum_add_distrib, ← Finset.sum_add_distrib]
    refine Finset.sum_congr rfl fun j _ => ?_
    rw [mul_assoc (V a i * V b j), e4, hMs j i]
    ring
  rw [e5]
  simp only [spec, smul_eq_mul, e2, e3]
  rw [← Finset.sum_add_distrib, ← Finset.sum_add_distrib, ← Finset.sum_add_distrib]
  refine Finset.sum_congr rfl fun i _ => ?_
  simp only [add_mul, Finset.sum_mul, Finset.mul_sum]
  have : ∀ j, V a i * (V b j * (fmat l j i * M j i)) * f (t, l i) = V a i * V b j * (fmat l j i * M j i) * f (t, l i) := fun j => by ring
  have h2 : ∀ j, V a j * (fmat l j i * M j i) * V b i * f (t, l i) = V a j * V b i * (fmat l j i * M j i) * f (t, l i) := fun j => by ring
  simp only [this, h2]
  ring

end Mfs.Spectral

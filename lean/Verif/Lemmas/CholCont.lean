import Verif.Lemmas.Quad1
import Mathlib.Topology.Instances.Matrix
import Mathlib.Topology.Order.Compact
import Mathlib.Analysis.Normed.Group.Bounded

/-!
# Cholesky factors and matrix functions depend continuously on the matrix

Nothing is assumed about the continuity of the routines: the spectral decompositions may be chosen arbitrarily.
-/

namespace Mfs.Cont

open Matrix Mfs.Spec Filter Topology

variable {ι : Type*} {l : Filter ι} {n : ℕ}

theorem abs_le_of_sq {a b : ℝ} (hb : 0 ≤ b) (h : a ^ 2 ≤ b) : |a| ≤ b + 1 := by
  rw [abs_le]
  constructor <;> nlinarith [sq_nonneg (a + 1), sq_nonneg (a - 1)]

theorem tendsto_entry {A : ι → Matrix (Fin n) (Fin n) ℝ} {A0 : Matrix (Fin n) (Fin n) ℝ} (h : Tendsto A l (𝓝 A0)) (a b : Fin n) :
    Tendsto (fun i => A i a b) l (𝓝 (A0 a b)) :=
  ((continuous_apply b).tendsto _).comp (((continuous_apply a).tendsto _).comp h)

theorem tendsto_of_entries {A : ι → Matrix (Fin n) (Fin n) ℝ} {A0 : Matrix (Fin n) (Fin n) ℝ}
    (h : ∀ a b, Tendsto (fun i => A i a b) l (𝓝 (A0 a b))) : Tendsto A l (𝓝 A0) :=
  tendsto_pi_nhds.2 fun a => tendsto_pi_nhds.2 fun b => h a b

/-- matrices with bounded entries have limits along ultrafilters. -/
theorem exists_lim_matrix {A : ι → Matrix (Fin n) (Fin n) ℝ} (g : Ultrafilter ι) (C : ℝ) (h : ∀ᶠ i in g, ∀ a b, |A i a b| ≤ C) :
    ∃ A0, Tendsto A g (𝓝 A0) := by
  have hc : IsCompact (Set.univ.pi fun _ : Fin n => Set.univ.pi fun _ : Fin n => Set.Icc (-C) C) :=
    isCompact_univ_pi fun _ => isCompact_univ_pi fun _ => isCompact_Icc
  obtain ⟨A0, -, hA⟩ := hc.ultrafilter_le_nhds' (g.map A) (by
    refine Ultrafilter.mem_map.2 ?_
    filter_upwards [h] with i hi
    exact fun a _ b _ => abs_le.1 (hi a b))
  exact ⟨A0, hA⟩

theorem exists_lim_vec {v : ι → Fin n → ℝ} (g : Ultrafilter ι) (C : ℝ) (h : ∀ᶠ i in g, ∀ a, |v i a| ≤ C) :
    ∃ v0, Tendsto v g (𝓝 v0) := by
  have hc : IsCompact (Set.univ.pi fun _ : Fin n => Set.Icc (-C) C) := isCompact_univ_pi fun _ => isCompact_Icc
  obtain ⟨A0, -, hA⟩ := hc.ultrafilter_le_nhds' (g.map v) (by
    refine Ultrafilter.mem_map.2 ?_
    filter_upwards [h] with i hi
    exact fun a _ => abs_le.1 (hi a))
  exact ⟨A0, hA⟩

theorem eventually_abs_le {A : ι → Matrix (Fin n) (Fin n) ℝ} {A0 : Matrix (Fin n) (Fin n) ℝ} (h : Tendsto A l (𝓝 A0)) :
    ∃ C, 0 ≤ C ∧ ∀ᶠ i in l, ∀ a b, |A i a b| ≤ C := by
  refine ⟨(∑ a, ∑ b, |A0 a b|) + 1, by positivity, ?_⟩
  rw [eventually_all]
  intro a
  rw [eventually_all]
  intro b
  have h1 : |A0 a b| < (∑ a, ∑ b, |A0 a b|) + 1 := by
    have e1 : |A0 a b| ≤ ∑ b, |A0 a b| := Finset.single_le_sum (f := fun b => |A0 a b|) (fun _ _ => abs_nonneg _) (Finset.mem_univ b)
    have e2 : ∑ b, |A0 a b| ≤ ∑ a, ∑ b, |A0 a b| :=
      Finset.single_le_sum (f := fun a => ∑ b, |A0 a b|) (fun _ _ => Finset.sum_nonneg fun _ _ => abs_nonneg _) (Finset.mem_univ a)
    linarith
  exact ((tendsto_entry h a b).abs.eventually (gt_mem_nhds h1)).mono fun i hi => hi.le

/-- the Cholesky factor is continuous. -/
theorem tendsto_chol {G R : ι → Matrix (Fin n) (Fin n) ℝ} {G0 R0 : Matrix (Fin n) (Fin n) ℝ} (hG : Tendsto G l (𝓝 G0))
    (hR : ∀ᶠ i in l, IsChol (G i) (R i)) (h0 : IsChol G0 R0) : Tendsto R l (𝓝 R0) := by
  rw [tendsto_iff_ultrafilter]
  intro g hg
  have hGg := hG.mono_left hg
  have hRg := hR.filter_mono hg
  obtain ⟨C, hC0, hC⟩ := eventually_abs_le hGg
  obtain ⟨R', hR'⟩ := exists_lim_matrix (A := R) g (C + 1) (by
    filter_upwards [hC, hRg] with i h1 h2 a b
    refine abs_le_of_sq hC0 ?_
    have h3 := h1 a a
    rw [← h2.mul_transpose, Matrix.mul_apply] at h3
    have h4 : R i a b * R i a b ≤ ∑ j, R i a j * (R i)ᵀ j a :=
      Finset.single_le_sum (f := fun j => R i a j * (R i)ᵀ j a) (fun j _ => by rw [transpose_apply]; exact mul_self_nonneg _) (Finset.mem_univ b)
    rw [sq]
    exact h4.trans ((le_abs_self _).trans h3))
  have hmul : R' * R'ᵀ = G0 := by
    have h1 : Tendsto (fun i => R i * (R i)ᵀ) g (𝓝 (R' * R'ᵀ)) :=
      ((continuous_id.matrix_mul continuous_id.matrix_transpose).tendsto R').comp hR'
    refine tendsto_nhds_unique h1 (hGg.congr' ?_)
    filter_upwards [hRg] with i hi using hi.mul_transpose.symm
  have hlow : IsLower R' := fun a b hab => by
    refine tendsto_nhds_unique (tendsto_entry hR' a b) (tendsto_const_nhds.congr' ?_)
    filter_upwards [hRg] with i hi using (hi.lower a b hab).symm
  have hdiag : ∀ a, 0 ≤ R' a a := fun a => by
    refine ge_of_tendsto (tendsto_entry hR' a a) ?_
    filter_upwards [hRg] with i hi using (hi.diag_pos a).le
  have hdet : R'.det ≠ 0 := by
    intro hd
    have h1 : G0.det = 0 := by rw [← hmul, det_mul, hd, zero_mul]
    have h2 : R0.det ≠ 0 := by
      rw [det_of_isLowerTriangular R0 fun a b hab => h0.lower a b hab]
      exact Finset.prod_ne_zero_iff.2 fun a _ => (h0.diag_pos a).ne'
    rw [← h0.mul_transpose, det_mul, det_transpose] at h1
    exact h2 (by simpa using h1)
  rw [det_of_isLowerTriangular R' fun a b hab => hlow a b hab, Finset.prod_ne_zero_iff] at hdet
  have hc : IsChol G0 R' := ⟨hlow, fun a => (hdiag a).lt_of_ne' (hdet a (Finset.mem_univ a)), hmul⟩
  rwa [h0.unique hc]

/-- positive definiteness is an open condition. -/
theorem eventually_posDef {G : ι → Matrix (Fin n) (Fin n) ℝ} {G0 : Matrix (Fin n) (Fin n) ℝ} (hG : Tendsto G l (𝓝 G0))
    (hs : ∀ᶠ i in l, (G i).IsSymm) (h0 : G0.PosDef) : ∀ᶠ i in l, (G i).PosDef := by
  by_contra hcon
  rw [not_eventually] at hcon
  have hfr := hcon.and_eventually hs
  obtain ⟨g, hg, hbad⟩ : ∃ g : Ultrafilter ι, (g : Filter ι) ≤ l ∧ ∀ᶠ i in (g : Filter ι), ¬(G i).PosDef ∧ (G i).IsSymm := by
    have : (l ⊓ 𝓟 {i | ¬(G i).PosDef ∧ (G i).IsSymm}).NeBot := frequently_mem_iff_neBot.1 hfr
    refine ⟨Ultrafilter.of (l ⊓ 𝓟 {i | ¬(G i).PosDef ∧ (G i).IsSymm}), (Ultrafilter.of_le _).trans inf_le_left, ?_⟩
    exact ((Ultrafilter.of_le _).trans inf_le_right) (mem_principal_self _)
  have hex : ∀ᶠ i in (g : Filter ι), ∃ x : Fin n → ℝ, x ⬝ᵥ x = 1 ∧ x ⬝ᵥ (G i *ᵥ x) ≤ 0 := by
    filter_upwards [hbad] with i hi
    by_contra hno
    push Not at hno
    apply hi.1
    refine PosDef.of_dotProduct_mulVec_pos ?_ fun x hx => ?_
    · rw [IsHermitian, conjTranspose_eq_transpose_of_trivial]
      exact hi.2
    · have hxx : 0 < x ⬝ᵥ x := by
        have := dotProduct_star_self_pos_iff.2 hx
        rwa [star_trivial] at this
      have := hno ((√(x ⬝ᵥ x))⁻¹ • x) (by
        rw [smul_dotProduct, dotProduct_smul, smul_eq_mul, smul_eq_mul, ← mul_assoc, ← mul_inv, Real.mul_self_sqrt hxx.le]
        exact inv_mul_cancel₀ hxx.ne')
      rw [mulVec_smul, smul_dotProduct, dotProduct_smul, smul_eq_mul, smul_eq_mul, ← mul_assoc] at this
      have hp : 0 < (√(x ⬝ᵥ x))⁻¹ * (√(x ⬝ᵥ x))⁻¹ := by
        have := Real.sqrt_pos.2 hxx
        positivity
      simp only [star_trivial]
      exact (mul_pos_iff_of_pos_left hp).1 this
  obtain ⟨x, hx⟩ := hex.choice
  obtain ⟨x0, hx0⟩ := exists_lim_vec (v := x) g (1 + 1) (by
    filter_upwards [hx] with i hi a
    refine abs_le_of_sq zero_le_one ?_
    rw [← hi.1, dotProduct, sq]
    exact Finset.single_le_sum (f := fun a => x i a * x i a) (fun _ _ => mul_self_nonneg _) (Finset.mem_univ a))
  have e1 : x0 ⬝ᵥ x0 = 1 := by
    have : Tendsto (fun i => x i ⬝ᵥ x i) g (𝓝 (x0 ⬝ᵥ x0)) := ((continuous_id.dotProduct continuous_id).tendsto x0).comp hx0
    refine tendsto_nhds_unique this (tendsto_const_nhds.congr' ?_)
    filter_upwards [hx] with i hi using hi.1.symm
  have e2 : x0 ⬝ᵥ (G0 *ᵥ x0) ≤ 0 := by
    have hcont : Continuous fun p : Matrix (Fin n) (Fin n) ℝ × (Fin n → ℝ) => p.2 ⬝ᵥ (p.1 *ᵥ p.2) :=
      continuous_snd.dotProduct (continuous_fst.matrix_mulVec continuous_snd)
    have : Tendsto (fun i => x i ⬝ᵥ (G i *ᵥ x i)) g (𝓝 (x0 ⬝ᵥ (G0 *ᵥ x0))) :=
      (hcont.tendsto (G0, x0)).comp ((hG.mono_left hg).prodMk_nhds hx0)
    refine le_of_tendsto this ?_
    filter_upwards [hx] with i hi using hi.2
  have hne : x0 ≠ 0 := by
    rintro rfl
    simp at e1
  have := h0.dotProduct_mulVec_pos hne
  simp only [star_trivial] at this
  linarith

/-- continuous convergence of functions. -/
def CConv (l : Filter ι) (f : ι → ℝ → ℝ) (f0 : ℝ → ℝ) : Prop := ∀ x, Tendsto (fun p : ι × ℝ => f p.1 p.2) (l ×ˢ 𝓝 x) (𝓝 (f0 x))

theorem CConv.comp {f : ι → ℝ → ℝ} {f0 : ℝ → ℝ} (h : CConv l f f0) {u : ι → ℝ} {g : Filter ι} (hg : g ≤ l) {x : ℝ} (hu : Tendsto u g (𝓝 x)) :
    Tendsto (fun i => f i (u i)) g (𝓝 (f0 x)) :=
  (h x).comp ((tendsto_id.mono_right hg).prodMk hu)

theorem CConv.const {f : ℝ → ℝ} (hf : Continuous f) : CConv l (fun _ => f) f := fun x => (hf.tendsto x).comp tendsto_snd

theorem CConv.mul {f g : ι → ℝ → ℝ} {f0 g0 : ℝ → ℝ} (hf : CConv l f f0) (hg : CConv l g g0) :
    CConv l (fun i x => f i x * g i x) fun x => f0 x * g0 x := fun x => (hf x).mul (hg x)

theorem CConv.pow {f : ι → ℝ → ℝ} {f0 : ℝ → ℝ} (hf : CConv l f f0) (k : ℕ) : CConv l (fun i x => f i x ^ k) fun x => f0 x ^ k :=
  fun x => (hf x).pow k

/-- a jointly continuous function of a parameter that converges. -/
theorem CConv.param {P : Type*} [TopologicalSpace P] {F : P → ℝ → ℝ} (hF : Continuous fun p : P × ℝ => F p.1 p.2) {u : ι → P} {u0 : P}
    (hu : Tendsto u l (𝓝 u0)) : CConv l (fun i => F (u i)) (F u0) := fun x => by
  have h1 : Tendsto (fun p : ι × ℝ => (u p.1, p.2)) (l ×ˢ 𝓝 x) (𝓝 (u0, x)) := by
    rw [nhds_prod_eq]
    exact (hu.comp tendsto_fst).prodMk tendsto_snd
  exact (hF.tendsto (u0, x)).comp h1

theorem abs_entry_orth {U : Matrix (Fin n) (Fin n) ℝ} (h : U * Uᵀ = 1) (a b : Fin n) : |U a b| ≤ 1 := by
  have h1 : (U * Uᵀ) a a = 1 := by rw [h, one_apply_eq]
  rw [Matrix.mul_apply] at h1
  have h2 : U a b * U a b ≤ ∑ j, U a j * Uᵀ j a :=
    Finset.single_le_sum (f := fun j => U a j * Uᵀ j a) (fun j _ => by rw [transpose_apply]; exact mul_self_nonneg _) (Finset.mem_univ b)
  rw [h1] at h2
  rw [abs_le]
  constructor <;> nlinarith

theorem abs_eig_le {K U : Matrix (Fin n) (Fin n) ℝ} {lam : Fin n → ℝ} (h : IsEigh K U lam) {C : ℝ} (hC : ∀ a b, |K a b| ≤ C) (i : Fin n) :
    |lam i| ≤ n * n * C := by
  have e : Uᵀ * K * U = diagonal lam := by
    rw [h.spec]
    calc Uᵀ * (U * diagonal lam * Uᵀ) * U = (Uᵀ * U) * diagonal lam * (Uᵀ * U) := by simp only [Matrix.mul_assoc]
      _ = diagonal lam := by rw [h.orth', Matrix.one_mul, Matrix.mul_one]
  have e2 : lam i = ∑ b, (∑ a, U a i * K a b) * U b i := by
    have := congrFun (congrFun e i) i
    rw [diagonal_apply_eq, Matrix.mul_apply] at this
    rw [← this]
    exact Finset.sum_congr rfl fun b _ => by rw [Matrix.mul_apply]; rfl
  have hu : ∀ a b, |U a b| ≤ 1 := abs_entry_orth h.orth
  rw [e2]
  refine (Finset.abs_sum_le_sum_abs _ _).trans ?_
  have : ∀ b ∈ Finset.univ, |(∑ a, U a i * K a b) * U b i| ≤ n * C := by
    intro b _
    rw [abs_mul]
    have h1 : |∑ a, U a i * K a b| ≤ n * C := by
      refine (Finset.abs_sum_le_sum_abs _ _).trans ?_
      refine (Finset.sum_le_card_nsmul _ _ C fun a _ => ?_).trans ?_
      · rw [abs_mul]
        exact (mul_le_of_le_one_left (abs_nonneg _) (hu a i)).trans (hC a b)
      · simp
    exact (mul_le_of_le_one_right (abs_nonneg _) (hu b i)).trans h1
  refine (Finset.sum_le_card_nsmul _ _ _ this).trans ?_
  simp [mul_assoc]

/-- spectral decompositions of convergent matrices have limits along ultrafilters, which are decompositions of the limit. -/
theorem exists_lim_eigh {K U : ι → Matrix (Fin n) (Fin n) ℝ} {lam : ι → Fin n → ℝ} {K0 : Matrix (Fin n) (Fin n) ℝ} (g : Ultrafilter ι)
    (hKg : Tendsto K g (𝓝 K0)) (hEg : ∀ᶠ i in (g : Filter ι), IsEigh (K i) (U i) (lam i)) :
    ∃ U' v', Tendsto U g (𝓝 U') ∧ Tendsto lam g (𝓝 v') ∧ IsEigh K0 U' v' := by
  obtain ⟨C, hC0, hC⟩ := eventually_abs_le hKg
  obtain ⟨U', hU'⟩ := exists_lim_matrix (A := U) g 1 (by filter_upwards [hEg] with i hi using abs_entry_orth hi.orth)
  obtain ⟨v', hv'⟩ := exists_lim_vec (v := lam) g (n * n * C) (by
    filter_upwards [hEg, hC] with i h1 h2 a using abs_eig_le h1 h2 a)
  have horth : U' * U'ᵀ = 1 := by
    have h1 : Tendsto (fun i => U i * (U i)ᵀ) g (𝓝 (U' * U'ᵀ)) :=
      ((continuous_id.matrix_mul continuous_id.matrix_transpose).tendsto U').comp hU'
    refine tendsto_nhds_unique h1 (tendsto_const_nhds.congr' ?_)
    filter_upwards [hEg] with i hi using hi.orth.symm
  have hspec : K0 = U' * diagonal v' * U'ᵀ := by
    have hmul : ∀ (V : Matrix (Fin n) (Fin n) ℝ) (w : Fin n → ℝ) (a b : Fin n), (V * diagonal w * Vᵀ) a b = ∑ j, V a j * w j * V b j := by
      intro V w a b
      rw [Matrix.mul_apply]
      exact Finset.sum_congr rfl fun j _ => by rw [mul_diagonal, transpose_apply]
    ext a b
    rw [hmul]
    have h1 : Tendsto (fun i => ∑ j, U i a j * lam i j * U i b j) g (𝓝 (∑ j, U' a j * v' j * U' b j)) := by
      refine tendsto_finsetSum _ fun j _ => ?_
      exact ((tendsto_entry hU' a j).mul (((continuous_apply j).tendsto _).comp hv')).mul (tendsto_entry hU' b j)
    refine tendsto_nhds_unique ((tendsto_entry hKg a b).congr' ?_) h1
    filter_upwards [hEg] with i hi
    rw [← hmul, ← hi.spec]
  exact ⟨U', v', hU', hv', horth, hspec⟩

/-- matrix functions are continuous, whatever the spectral decompositions chosen. -/
theorem tendsto_funMat {K U : ι → Matrix (Fin n) (Fin n) ℝ} {lam : ι → Fin n → ℝ} {K0 U0 : Matrix (Fin n) (Fin n) ℝ} {lam0 : Fin n → ℝ}
    (hK : Tendsto K l (𝓝 K0)) (hE : ∀ᶠ i in l, IsEigh (K i) (U i) (lam i)) (h0 : IsEigh K0 U0 lam0) {f : ι → ℝ → ℝ} {f0 : ℝ → ℝ}
    (hf : CConv l f f0) : Tendsto (fun i => funMat (U i) (lam i) (f i)) l (𝓝 (funMat U0 lam0 f0)) := by
  rw [tendsto_iff_ultrafilter]
  intro g hg
  obtain ⟨U', v', hU', hv', hE'⟩ := exists_lim_eigh g (hK.mono_left hg) (hE.filter_mono hg)
  rw [h0.funMat_eq hE' f0]
  refine tendsto_of_entries fun a b => ?_
  simp only [funMat_apply]
  refine tendsto_finsetSum _ fun j _ => ?_
  refine ((tendsto_entry hU' a j).mul (tendsto_entry hU' b j)).mul (hf.comp hg ?_)
  exact ((continuous_apply j).tendsto _).comp hv'

theorem tendsto_inv {A : ι → Matrix (Fin n) (Fin n) ℝ} {A0 : Matrix (Fin n) (Fin n) ℝ} (h : Tendsto A l (𝓝 A0)) (h0 : A0.det ≠ 0) :
    Tendsto (fun i => (A i)⁻¹) l (𝓝 A0⁻¹) := by
  simp only [Matrix.inv_def, Ring.inverse_eq_inv']
  have h1 : Tendsto (fun i => (A i).det) l (𝓝 A0.det) := (continuous_id.matrix_det.tendsto A0).comp h
  have h2 : Tendsto (fun i => (A i).adjugate) l (𝓝 A0.adjugate) := (continuous_id.matrix_adjugate.tendsto A0).comp h
  exact (h1.inv₀ h0).smul h2

/-- the multiplication matrix is continuous. -/
theorem tendsto_multMat {R H : ι → Matrix (Fin n) (Fin n) ℝ} {G0 R0 H0 : Matrix (Fin n) (Fin n) ℝ} (hR : Tendsto R l (𝓝 R0))
    (hH : Tendsto H l (𝓝 H0)) (h0 : IsChol G0 R0) : Tendsto (fun i => multMat (R i) (H i)) l (𝓝 (multMat R0 H0)) := by
  have hd : R0.det ≠ 0 := by
    rw [det_of_isLowerTriangular R0 fun a b hab => h0.lower a b hab]
    exact Finset.prod_ne_zero_iff.2 fun a _ => (h0.diag_pos a).ne'
  have hi := tendsto_inv hR hd
  have hcont : Continuous fun p : Matrix (Fin n) (Fin n) ℝ × Matrix (Fin n) (Fin n) ℝ => p.1 * p.2 * p.1ᵀ :=
    (continuous_fst.matrix_mul continuous_snd).matrix_mul continuous_fst.matrix_transpose
  have := (hcont.tendsto (R0⁻¹, H0)).comp (hi.prodMk_nhds hH)
  simpa only [multMat, Function.comp_def, transpose_nonsing_inv] using this

end Mfs.Cont

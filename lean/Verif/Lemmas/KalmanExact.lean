import Verif.Spec.LinGauss
import Verif.Lemmas.Kalman
import Verif.Lemmas.GaussDensity
import Verif.Lemmas.Gaussian
import Verif.Lemmas.Backend

/-!
# Integrals of Gaussian densities over hidden paths
-/

namespace Mfs.Lemmas

open MeasureTheory ProbabilityTheory Matrix Mfs.Spec Mfs.Classical

variable {d k : ℕ}

theorem mvnPdf_nonneg (m : Fin d → ℝ) (P : Matrix (Fin d) (Fin d) ℝ) (x : Fin d → ℝ) : 0 ≤ mvnPdf m P x :=
  div_nonneg (Real.exp_pos _).le (Real.sqrt_nonneg _)

theorem mvnPdf_shift (a m x : Fin d → ℝ) (P : Matrix (Fin d) (Fin d) ℝ) : mvnPdf (a + m) P x = mvnPdf m P (x - a) := by
  rw [mvnPdf, mvnPdf, sub_sub]

theorem mulVec_continuous (A : Matrix (Fin k) (Fin d) ℝ) : Continuous fun x : Fin d → ℝ => A *ᵥ x := by
  have : Continuous (toLin' A) := LinearMap.continuous_on_pi _
  exact this

theorem mvnPdf_continuous (P : Matrix (Fin d) (Fin d) ℝ) {X : Type} [TopologicalSpace X] {f g : X → Fin d → ℝ} (hf : Continuous f)
    (hg : Continuous g) : Continuous fun x => mvnPdf (f x) P (g x) := by
  unfold mvnPdf
  have h := (mulVec_continuous P⁻¹).comp (hg.sub hf)
  have h2 : Continuous fun x => (g x - f x) ⬝ᵥ P⁻¹ *ᵥ (g x - f x) := (hg.sub hf).dotProduct h
  exact (Real.continuous_exp.comp (h2.neg.div_const 2)).div_const _

/-- a density integrates to one. -/
theorem lintegral_mvnPdf (m : Fin d → ℝ) {P : Matrix (Fin d) (Fin d) ℝ} (hP : P.PosDef) :
    ∫⁻ x, ENNReal.ofReal (mvnPdf m P x) = 1 := by
  obtain ⟨L, hL, rfl⟩ : ∃ L : Matrix (Fin d) (Fin d) ℝ, L.det ≠ 0 ∧ P = L * Lᵀ := by
    have hc := theBackend_valid.chol P hP
    exact ⟨theBackend.chol P, hc.isUnit_det.ne_zero, hc.mul_transpose.symm⟩
  have hmeas : Measurable fun x : Fin d → ℝ => ENNReal.ofReal (∏ i, gaussianPDFReal 0 1 (x i)) := by
    have := measurable_gaussianPDFReal 0 1
    fun_prop
  have h := map_affine_density hL m hmeas
  rw [← pi_gauss_density] at h
  have h1 := congrArg (fun μ => μ Set.univ) h
  rw [Measure.map_apply ((mulVec_continuous L).measurable.const_add m) MeasurableSet.univ, Set.preimage_univ, measure_univ,
    withDensity_apply _ MeasurableSet.univ, Measure.restrict_univ] at h1
  rw [h1]
  congr 1
  funext x
  rw [← ENNReal.ofReal_mul (abs_nonneg _), density_eq hL]

/-- splitting the first state off a path integral. -/
theorem lintegral_path_succ {X : Type} [MeasureSpace X] [SigmaFinite (volume : Measure X)] (n : ℕ)
    {g : (Fin (n + 1) → X) → ENNReal} (hg : Measurable g) :
    ∫⁻ xs, g xs = ∫⁻ x, ∫⁻ xs : Fin n → X, g (Fin.cons x xs) := by
  have h := (volume_preserving_piFinSuccAbove (fun _ : Fin (n + 1) => X) 0).symm
  rw [← h.lintegral_comp hg, Measure.volume_eq_prod]
  refine (lintegral_prod (μ := (volume : Measure X)) (ν := (volume : Measure (Fin n → X))) _ (hg.comp h.measurable).aemeasurable).trans ?_
  refine lintegral_congr fun x => lintegral_congr fun xs => congrArg g ?_
  exact Fin.insertNth_zero' x xs

/-- the Chapman–Kolmogorov equation. -/
theorem chapman {m : Fin d → ℝ} {P : Matrix (Fin d) (Fin d) ℝ} (hP : P.PosDef) (F : Matrix (Fin k) (Fin d) ℝ)
    {Q : Matrix (Fin k) (Fin k) ℝ} (hQ : Q.PosDef) (x' : Fin k → ℝ) :
    ∫⁻ x, ENNReal.ofReal (mvnPdf m P x * mvnPdf (F *ᵥ x) Q x') = ENNReal.ofReal (mvnPdf (F *ᵥ m) (innov P F Q) x') := by
  simp only [bayes_identity F hP hQ, ENNReal.ofReal_mul (mvnPdf_nonneg _ _ _)]
  have hm : Measurable fun x => ENNReal.ofReal (mvnPdf (m + kgain P F Q *ᵥ (x' - F *ᵥ m)) (kcov P F Q) x) :=
    (mvnPdf_continuous _ continuous_const continuous_id).measurable.ennreal_ofReal
  rw [lintegral_const_mul _ hm, lintegral_mvnPdf _ (kcov_posDef F hP hQ), mul_one]

section path
variable {dx dy : ℕ} (F Q : Matrix (Fin dx) (Fin dx) ℝ) (H : Matrix (Fin dy) (Fin dx) ℝ) (R : Matrix (Fin dy) (Fin dy) ℝ)

/-- exact filtering step. -/
noncomputable def kstep (b : Belief dx) (y : Fin dy → ℝ) : Belief dx :=
  (F *ᵥ b.1 + kgain (innov b.2 F Q) H R *ᵥ (y - H *ᵥ (F *ᵥ b.1)), kcov (innov b.2 F Q) H R)

/-- predictive density of the next measurement. -/
noncomputable def kev (b : Belief dx) (y : Fin dy → ℝ) : ℝ :=
  mvnPdf (H *ᵥ (F *ᵥ b.1)) (innov (innov b.2 F Q) H R) y

/-- exact smoothing step. -/
noncomputable def sstep (f s : Belief dx) : Belief dx :=
  (f.1 + kgain f.2 F Q *ᵥ (s.1 - F *ᵥ f.1), kcov f.2 F Q + kgain f.2 F Q * s.2 * (kgain f.2 F Q)ᵀ)

/-- all filtering beliefs, the initial one included. -/
noncomputable def beliefs (b : Belief dx) : List (Fin dy → ℝ) → List (Belief dx)
  | [] => [b]
  | y :: ys => b :: beliefs (kstep F Q H R b y) ys

/-- density of all measurements. -/
noncomputable def evid (b : Belief dx) : List (Fin dy → ℝ) → ℝ
  | [] => 1
  | y :: ys => kev F Q H R b y * evid (kstep F Q H R b y) ys

variable {F Q H R}

theorem kstep_posDef {b : Belief dx} (hb : b.2.PosDef) (hQ : Q.PosDef) (hR : R.PosDef) (y : Fin dy → ℝ) :
    (kstep F Q H R b y).2.PosDef :=
  kcov_posDef H (innov_posDef F hb.posSemidef hQ) hR

theorem lgJoint_nonneg (m0 : Fin dx → ℝ) (P0 : Matrix (Fin dx) (Fin dx) ℝ) (ys : List (Fin dy → ℝ))
    (xs : Fin (ys.length + 1) → Fin dx → ℝ) : 0 ≤ lgJoint F Q H R m0 P0 ys xs :=
  mul_nonneg (mvnPdf_nonneg _ _ _) (Finset.prod_nonneg fun _ _ => mul_nonneg (mvnPdf_nonneg _ _ _) (mvnPdf_nonneg _ _ _))

theorem lgJoint_continuous (m0 : Fin dx → ℝ) (P0 : Matrix (Fin dx) (Fin dx) ℝ) (ys : List (Fin dy → ℝ)) :
    Continuous fun xs : Fin (ys.length + 1) → Fin dx → ℝ => lgJoint F Q H R m0 P0 ys xs := by
  unfold lgJoint
  refine (mvnPdf_continuous _ continuous_const (continuous_apply 0)).mul (continuous_finsetProd _ fun k _ => ?_)
  exact (mvnPdf_continuous _ ((mulVec_continuous F).comp (continuous_apply _)) (continuous_apply _)).mul
    (mvnPdf_continuous _ ((mulVec_continuous H).comp (continuous_apply _)) continuous_const)

theorem lgJoint_cons {b : Belief dx} (hb : b.2.PosDef) (hQ : Q.PosDef) (hR : R.PosDef) (y : Fin dy → ℝ) (ys : List (Fin dy → ℝ))
    (x : Fin dx → ℝ) (xs : Fin (ys.length + 1) → Fin dx → ℝ) :
    lgJoint F Q H R b.1 b.2 (y :: ys) (Fin.cons x xs)
      = kev F Q H R b y * (lgJoint F Q H R (kstep F Q H R b y).1 (kstep F Q H R b y).2 ys xs
        * mvnPdf (b.1 + kgain b.2 F Q *ᵥ (xs 0 - F *ᵥ b.1)) (kcov b.2 F Q) x) := by
  have h0 : lgJoint F Q H R b.1 b.2 (y :: ys) (Fin.cons x xs) = mvnPdf b.1 b.2 x * ((mvnPdf (F *ᵥ x) Q (xs 0) * mvnPdf (H *ᵥ xs 0) R y) *
      ∏ k : Fin ys.length, mvnPdf (F *ᵥ xs k.castSucc) Q (xs k.succ) * mvnPdf (H *ᵥ xs k.succ) R ys[k]) := by
    rw [lgJoint]
    congr 1
    exact Fin.prod_univ_succ _
  have h1 := bayes_identity F hb hQ b.1 x (xs 0)
  have h2 := bayes_identity H (innov_posDef F hb.posSemidef hQ) hR (F *ᵥ b.1) (xs 0) y
  rw [h0, lgJoint, kev, kstep]
  dsimp only
  set p := ∏ k : Fin ys.length, mvnPdf (F *ᵥ xs k.castSucc) Q (xs k.succ) * mvnPdf (H *ᵥ xs k.succ) R ys[k]
  linear_combination mvnPdf (H *ᵥ xs 0) R y * p * h1
    + mvnPdf (b.1 + kgain b.2 F Q *ᵥ (xs 0 - F *ᵥ b.1)) (kcov b.2 F Q) x * p * h2

theorem beliefs_ne_nil (b : Belief dx) (ys : List (Fin dy → ℝ)) : beliefs F Q H R b ys ≠ [] := by
  cases ys <;> simp [beliefs]

theorem kev_nonneg (b : Belief dx) (y : Fin dy → ℝ) : 0 ≤ kev F Q H R b y := mvnPdf_nonneg _ _ _

theorem evid_nonneg (b : Belief dx) (ys : List (Fin dy → ℝ)) : 0 ≤ evid F Q H R b ys := by
  induction ys generalizing b with
  | nil => exact zero_le_one
  | cons y ys ih => exact mul_nonneg (mvnPdf_nonneg _ _ _) (ih _)

/-- the law of every hidden state given all measurements, and their density. -/
theorem path_law (hQ : Q.PosDef) (hR : R.PosDef) (ys : List (Fin dy → ℝ)) (b : Belief dx) (hb : b.2.PosDef)
    (j : Fin (ys.length + 1)) (s : Belief dx) (hs : (smoothRec (sstep F Q) (beliefs F Q H R b ys))[(j : ℕ)]? = some s) :
    s.2.PosDef ∧ ∀ f : (Fin dx → ℝ) → ENNReal, Measurable f →
    ∫⁻ xs : Fin (ys.length + 1) → Fin dx → ℝ, f (xs j) * ENNReal.ofReal (lgJoint F Q H R b.1 b.2 ys xs)
      = ENNReal.ofReal (evid F Q H R b ys) * ∫⁻ x, f x * ENNReal.ofReal (mvnPdf s.1 s.2 x) := by
  induction ys generalizing b s with
  | nil =>
    have hj : j = 0 := Subsingleton.elim (α := Fin 1) _ _
    subst hj
    obtain rfl : b = s := by simpa [beliefs, smoothRec] using hs
    refine ⟨hb, fun f hf => ?_⟩
    have hm : Measurable fun xs : Fin (0 + 1) → Fin dx → ℝ => f (xs 0) * ENNReal.ofReal (lgJoint F Q H R b.1 b.2 [] xs) :=
      (hf.comp (measurable_pi_apply 0)).mul (lgJoint_continuous b.1 b.2 []).measurable.ennreal_ofReal
    refine (lintegral_path_succ 0 hm).trans ?_
    rw [evid, ENNReal.ofReal_one, one_mul]
    refine lintegral_congr fun x => ?_
    rw [lintegral_unique]
    have hu : (volume : Measure (Fin 0 → Fin dx → ℝ)) Set.univ = 1 := by
      rw [volume_pi, Measure.pi_univ, Finset.univ_eq_empty, Finset.prod_empty]
    rw [hu]
    simp [lgJoint]
  | cons y ys ih =>
    set b' := kstep F Q H R b y with hb'
    have hpd' : b'.2.PosDef := kstep_posDef hb hQ hR y
    have hV : (kcov b.2 F Q).PosDef := kcov_posDef F hb hQ
    have hne : smoothRec (sstep F Q) (beliefs F Q H R b' ys) ≠ [] := by
      intro h
      have := smoothRec_length (sstep F Q) (beliefs F Q H R b' ys)
      rw [h] at this
      exact beliefs_ne_nil b' ys (List.eq_nil_of_length_eq_zero this.symm)
    obtain ⟨t, ts, ht⟩ := List.exists_cons_of_ne_nil hne
    have hrec : smoothRec (sstep F Q) (beliefs F Q H R b (y :: ys)) = sstep F Q b t :: t :: ts := by
      rw [beliefs, smoothRec, ht]
    rw [hrec] at hs
    set a : (Fin dx → ℝ) → Fin dx → ℝ := fun x => b.1 + kgain b.2 F Q *ᵥ (x - F *ᵥ b.1) with ha
    have hac : Continuous a := continuous_const.add ((mulVec_continuous _).comp (continuous_id.sub continuous_const))
    have key : ∀ f : (Fin dx → ℝ) → (Fin (ys.length + 1) → Fin dx → ℝ) → ENNReal, Measurable (fun p : _ × _ => f p.1 p.2) →
        ∫⁻ xs : Fin (ys.length + 1 + 1) → Fin dx → ℝ, f (xs 0) (Fin.tail xs) * ENNReal.ofReal (lgJoint F Q H R b.1 b.2 (y :: ys) xs)
          = ENNReal.ofReal (kev F Q H R b y) * ∫⁻ xs : Fin (ys.length + 1) → Fin dx → ℝ,
            (∫⁻ x, f x xs * ENNReal.ofReal (mvnPdf (a (xs 0)) (kcov b.2 F Q) x)) * ENNReal.ofReal (lgJoint F Q H R b'.1 b'.2 ys xs) := by
      intro f hf
      have hm2 : Measurable fun p : (Fin dx → ℝ) × (Fin (ys.length + 1) → Fin dx → ℝ) =>
          ENNReal.ofReal (mvnPdf (a (p.2 0)) (kcov b.2 F Q) p.1) :=
        (mvnPdf_continuous _ (hac.comp ((continuous_apply 0).comp continuous_snd)) continuous_fst).measurable.ennreal_ofReal
      have hm1 : Measurable fun xs : Fin (ys.length + 1) → Fin dx → ℝ => ENNReal.ofReal (lgJoint F Q H R b'.1 b'.2 ys xs) :=
        (lgJoint_continuous b'.1 b'.2 ys).measurable.ennreal_ofReal
      have htail : Measurable fun xs : Fin (ys.length + 1 + 1) → Fin dx → ℝ => (xs 0, Fin.tail xs) :=
        (measurable_pi_apply 0).prodMk (measurable_pi_lambda _ fun i => measurable_pi_apply _)
      have hm0 : Measurable fun xs : Fin (ys.length + 1 + 1) → Fin dx → ℝ =>
          f (xs 0) (Fin.tail xs) * ENNReal.ofReal (lgJoint F Q H R b.1 b.2 (y :: ys) xs) :=
        (hf.comp htail).mul (lgJoint_continuous b.1 b.2 (y :: ys)).measurable.ennreal_ofReal
      rw [lintegral_path_succ (ys.length + 1) hm0]
      have h1 : ∀ (x : Fin dx → ℝ) (xs : Fin (ys.length + 1) → Fin dx → ℝ),
          f ((Fin.cons x xs : Fin (ys.length + 1 + 1) → Fin dx → ℝ) 0) (Fin.tail (Fin.cons x xs : Fin (ys.length + 1 + 1) → Fin dx → ℝ))
            * ENNReal.ofReal (lgJoint F Q H R b.1 b.2 (y :: ys) (Fin.cons x xs))
          = ENNReal.ofReal (kev F Q H R b y) * ((f x xs * ENNReal.ofReal (mvnPdf (a (xs 0)) (kcov b.2 F Q) x))
            * ENNReal.ofReal (lgJoint F Q H R b'.1 b'.2 ys xs)) := by
        intro x xs
        rw [lgJoint_cons hb hQ hR, Fin.cons_zero, Fin.tail_cons, ENNReal.ofReal_mul (kev_nonneg _ _),
          ENNReal.ofReal_mul (lgJoint_nonneg _ _ _ _)]
        ring
      simp only [h1]
      have hm3 : Measurable fun p : (Fin dx → ℝ) × (Fin (ys.length + 1) → Fin dx → ℝ) =>
          (f p.1 p.2 * ENNReal.ofReal (mvnPdf (a (p.2 0)) (kcov b.2 F Q) p.1)) * ENNReal.ofReal (lgJoint F Q H R b'.1 b'.2 ys p.2) :=
        (hf.mul hm2).mul (hm1.comp measurable_snd)
      rw [lintegral_lintegral_swap (hm3.const_mul _).aemeasurable]
      have hm4 : Measurable fun xs : Fin (ys.length + 1) → Fin dx → ℝ =>
          (∫⁻ x, f x xs * ENNReal.ofReal (mvnPdf (a (xs 0)) (kcov b.2 F Q) x)) * ENNReal.ofReal (lgJoint F Q H R b'.1 b'.2 ys xs) :=
        (Measurable.lintegral_prod_left (hf.mul hm2)).mul hm1
      rw [← lintegral_const_mul _ hm4]
      refine lintegral_congr fun xs => ?_
      have hm5 : Measurable fun x : Fin dx → ℝ =>
          (f x xs * ENNReal.ofReal (mvnPdf (a (xs 0)) (kcov b.2 F Q) x)) * ENNReal.ofReal (lgJoint F Q H R b'.1 b'.2 ys xs) :=
        hm3.comp (measurable_id.prodMk measurable_const)
      have hm6 : Measurable fun x : Fin dx → ℝ => f x xs * ENNReal.ofReal (mvnPdf (a (xs 0)) (kcov b.2 F Q) x) :=
        (hf.mul hm2).comp (measurable_id.prodMk measurable_const)
      rw [lintegral_const_mul _ hm5, lintegral_mul_const _ hm6]
    have hae : ∀ z, a z = b.1 - kgain b.2 F Q *ᵥ (F *ᵥ b.1) + kgain b.2 F Q *ᵥ z := by
      intro z
      rw [ha]
      dsimp only
      rw [mulVec_sub]
      abel
    clear_value a
    revert hs
    refine Fin.cases ?_ ?_ j
    · intro hs
      have hst : sstep F Q b t = s := by simpa using hs
      obtain ⟨htp, hlaw⟩ := ih b' hpd' 0 t (by rw [ht]; rfl)
      have hsp : s.2.PosDef := by
        rw [← hst]
        exact hV.add_posSemidef (psd_conj htp.posSemidef _)
      refine ⟨hsp, fun f hf => ?_⟩
      have hm2 : Measurable fun p : (Fin dx → ℝ) × (Fin dx → ℝ) => ENNReal.ofReal (mvnPdf (a p.2) (kcov b.2 F Q) p.1) :=
        (mvnPdf_continuous _ (hac.comp continuous_snd) continuous_fst).measurable.ennreal_ofReal
      have hfm : Measurable fun p : (Fin dx → ℝ) × (Fin dx → ℝ) => f p.1 * ENNReal.ofReal (mvnPdf (a p.2) (kcov b.2 F Q) p.1) :=
        (hf.comp measurable_fst).mul hm2
      have hk := key (fun x _ => f x) (hf.comp measurable_fst)
      refine hk.trans ?_
      rw [hlaw (fun x1 => ∫⁻ x, f x * ENNReal.ofReal (mvnPdf (a x1) (kcov b.2 F Q) x)) (Measurable.lintegral_prod_left hfm), ← mul_assoc,
        ← ENNReal.ofReal_mul (kev_nonneg _ _), evid]
      congr 1
      have hmt : Measurable fun x : Fin dx → ℝ => ENNReal.ofReal (mvnPdf t.1 t.2 x) :=
        (mvnPdf_continuous _ continuous_const continuous_id).measurable.ennreal_ofReal
      have h1 : ∀ x1 : Fin dx → ℝ, (∫⁻ x, f x * ENNReal.ofReal (mvnPdf (a x1) (kcov b.2 F Q) x)) * ENNReal.ofReal (mvnPdf t.1 t.2 x1)
          = ∫⁻ x, f x * ENNReal.ofReal (mvnPdf (a x1) (kcov b.2 F Q) x) * ENNReal.ofReal (mvnPdf t.1 t.2 x1) := by
        intro x1
        have hm : Measurable fun x : Fin dx → ℝ => f x * ENNReal.ofReal (mvnPdf (a x1) (kcov b.2 F Q) x) :=
          hfm.comp (measurable_id.prodMk measurable_const)
        rw [lintegral_mul_const _ hm]
      simp only [h1]
      rw [lintegral_lintegral_swap (by exact ((hfm.comp measurable_swap).mul (hmt.comp measurable_fst)).aemeasurable)]
      refine lintegral_congr fun x => ?_
      have h2 : ∀ x1 : Fin dx → ℝ, f x * ENNReal.ofReal (mvnPdf (a x1) (kcov b.2 F Q) x) * ENNReal.ofReal (mvnPdf t.1 t.2 x1)
          = f x * ENNReal.ofReal (mvnPdf t.1 t.2 x1 * mvnPdf (kgain b.2 F Q *ᵥ x1) (kcov b.2 F Q) (x - (b.1 - kgain b.2 F Q *ᵥ (F *ᵥ b.1)))) := by
        intro x1
        rw [ENNReal.ofReal_mul (mvnPdf_nonneg _ _ _), ← mvnPdf_shift, ← hae, mul_assoc, mul_comm (ENNReal.ofReal (mvnPdf t.1 t.2 x1))]
      simp only [h2]
      have hm7 : Measurable fun x1 : Fin dx → ℝ =>
          ENNReal.ofReal (mvnPdf t.1 t.2 x1 * mvnPdf (kgain b.2 F Q *ᵥ x1) (kcov b.2 F Q) (x - (b.1 - kgain b.2 F Q *ᵥ (F *ᵥ b.1)))) :=
        ((mvnPdf_continuous _ continuous_const continuous_id).mul
          (mvnPdf_continuous _ (mulVec_continuous _) continuous_const)).measurable.ennreal_ofReal
      rw [lintegral_const_mul _ hm7, chapman htp _ hV, ← mvnPdf_shift, ← hst, sstep]
      dsimp only
      rw [innov, add_comm (kgain b.2 F Q * t.2 * (kgain b.2 F Q)ᵀ), ← hae, ha]
    · intro i hs
      have hs' : (smoothRec (sstep F Q) (beliefs F Q H R b' ys))[(i : ℕ)]? = some s := by
        rw [ht]; simpa using hs
      obtain ⟨hsp, hlaw⟩ := ih b' hpd' i s hs'
      refine ⟨hsp, fun f hf => ?_⟩
      refine (key (fun _ xs => f (xs i)) (hf.comp ((measurable_pi_apply i).comp measurable_snd))).trans ?_
      have h1 : ∀ xs : Fin (ys.length + 1) → Fin dx → ℝ, ∫⁻ x, f (xs i) * ENNReal.ofReal (mvnPdf (a (xs 0)) (kcov b.2 F Q) x) = f (xs i) := by
        intro xs
        have hm : Measurable fun x : Fin dx → ℝ => ENNReal.ofReal (mvnPdf (a (xs 0)) (kcov b.2 F Q) x) :=
          (mvnPdf_continuous _ continuous_const continuous_id).measurable.ennreal_ofReal
        rw [lintegral_const_mul _ hm, lintegral_mvnPdf _ hV, mul_one]
      simp only [h1]
      rw [hlaw f hf, ← mul_assoc, ← ENNReal.ofReal_mul (kev_nonneg _ _), evid]

end path

end Mfs.Lemmas

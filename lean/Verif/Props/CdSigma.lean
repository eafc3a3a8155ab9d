import Verif.Props.CdLinear
import Mathlib.Topology.MetricSpace.Thickening

/-!
# C145, covariances of the sigma-point filter over a whole run

The Cholesky factor in `cd_sgp_filter` is the right one only at positive definite matrices. From a positive definite covariance the exact
covariances stay in a compact set of positive definite matrices, so do the stages of all short enough Runge-Kutta steps, hence the whole run
is the one of `cd_ekf`.
-/

namespace Mfs.Props

open Matrix Mfs.Classical Mfs.Utils Mfs.Spec Filter Topology Set

open scoped Matrix.Norms.Operator

variable {d w : ℕ}

/-- the covariances at which the four stages of a Runge-Kutta step for the moment equations of a linear SDE are evaluated. -/
noncomputable def ltiStage (A Q : Matrix (Fin d) (Fin d) ℝ) (dt : ℝ) (v : Matrix (Fin d) (Fin d) ℝ) : Fin 4 → Matrix (Fin d) (Fin d) ℝ :=
  let f : Matrix (Fin d) (Fin d) ℝ → Matrix (Fin d) (Fin d) ℝ := fun v => A * v + v * Aᵀ + Q
  let v2 := v + (dt / 2) • f v
  let v3 := v + (dt / 2) • f v2
  ![v, v2, v3, v + dt • f v3]

theorem continuous_ltiStage (A Q : Matrix (Fin d) (Fin d) ℝ) (i : Fin 4) :
    Continuous fun p : ℝ × Belief d => ltiStage A Q p.1 p.2.2 i := by
  fin_cases i <;> simp only [ltiStage] <;> simp <;> fun_prop

theorem ltiStage_zero (A Q v : Matrix (Fin d) (Fin d) ℝ) (i : Fin 4) : ltiStage A Q 0 v i = v := by
  fin_cases i <;> simp [ltiStage]

theorem ltiStage_symm (A Q v : Matrix (Fin d) (Fin d) ℝ) (hQ : Q.IsSymm) (hv : v.IsSymm) (dt : ℝ) (i : Fin 4) : (ltiStage A Q dt v i).IsSymm := by
  have hf : ∀ v : Matrix (Fin d) (Fin d) ℝ, v.IsSymm → (A * v + v * Aᵀ + Q).IsSymm := fun v hv => by
    refine IsSymm.add ?_ hQ
    rw [IsSymm, transpose_add, transpose_mul, transpose_mul, transpose_transpose, hv.eq, add_comm]
  have h2 : (v + (dt / 2) • (A * v + v * Aᵀ + Q)).IsSymm := hv.add ((hf v hv).smul _)
  have h3 := hv.add ((hf _ h2).smul (dt / 2))
  have h4 := hv.add ((hf _ h3).smul dt)
  fin_cases i
  · exact hv
  · exact h2
  · exact h3
  · exact h4

/-- if the stages are positive definite, the step of the sigma-point filter is the one of `cd_ekf`. -/
theorem sgp_step_eq (Bk : Backend) (hB : Bk.Valid) (sg : SigmaPoints d) (hr : SecondOrder sg.w sg.xi) (A : Matrix (Fin d) (Fin d) ℝ)
    (B : Matrix (Fin d) (Fin w) ℝ) (dt : ℝ) (u : Belief d) (h : ∀ i, (ltiStage A (B * Bᵀ) dt u.2 i).PosDef) :
    rk4MCov (cdSgpShared Bk sg (fun x => A *ᵥ x) B) u.1 u.2 dt = ltiRk4 A B dt u := by
  have hg := fun m v hv => cdSgpShared_linear Bk hB sg hr A B m v hv
  have e : ∀ m v, (cdEkfOdes (fun x => A *ᵥ x) (fun _ => B) m v).2 = A * v + v * Aᵀ + B * Bᵀ := fun m v => by
    rw [cdEkfOdes_linear]; rfl
  have h1 : u.2.PosDef := h 0
  have h2 : (u.2 + (dt / 2) • (cdEkfOdes (fun x => A *ᵥ x) (fun _ => B) u.1 u.2).2).PosDef := by rw [e]; exact h 1
  simp only [ltiRk4, rk4MCov]
  rw [hg _ _ h1, hg _ _ h2, hg _ _ (by rw [e, e]; exact h 2), hg _ _ (by rw [e, e, e]; exact h 3)]

theorem ltiRk4_symm (A : Matrix (Fin d) (Fin d) ℝ) (B : Matrix (Fin d) (Fin w) ℝ) (dt : ℝ) (u : Belief d) (hu : u.2.IsSymm) :
    (ltiRk4 A B dt u).2.IsSymm := by
  have hf : ∀ m (v : Matrix (Fin d) (Fin d) ℝ), v.IsSymm → (cdEkfOdes (fun x => A *ᵥ x) (fun _ => B) m v).2.IsSymm := fun m v hv => by
    rw [cdEkfOdes_linear]
    change (A * v + v * Aᵀ + B * Bᵀ).IsSymm
    refine IsSymm.add ?_ (by simp [IsSymm])
    rw [IsSymm, transpose_add, transpose_mul, transpose_mul, transpose_transpose, hv.eq, add_comm]
  have h1 := hf u.1 _ hu
  have h2 := hf (u.1 + (dt / 2) • (cdEkfOdes (fun x => A *ᵥ x) (fun _ => B) u.1 u.2).1) _ (hu.add (h1.smul (dt / 2)))
  simp only [ltiRk4, rk4MCov]
  exact hu.add ((((h1.add (h2.smul _)).add ((hf _ _ (hu.add (h2.smul _))).smul _)).add (hf _ _ (hu.add ((hf _ _ (hu.add (h2.smul _))).smul _)))).smul _)

theorem ltiRk4_iterate_symm (A : Matrix (Fin d) (Fin d) ℝ) (B : Matrix (Fin d) (Fin w) ℝ) (dt : ℝ) (u : Belief d) (hu : u.2.IsSymm) (k : ℕ) :
    ((ltiRk4 A B dt)^[k] u).2.IsSymm := by
  induction k with
  | zero => exact hu
  | succ k ih => rw [Function.iterate_succ_apply']; exact ltiRk4_symm A B dt _ ih

/-- the exact covariances stay positive definite. -/
theorem ltiFlow_posDef (A : Matrix (Fin d) (Fin d) ℝ) (B : Matrix (Fin d) (Fin w) ℝ) (u : Belief d) (hu : u.2.PosDef) (t : ℝ) (ht : 0 ≤ t) :
    (ltiFlow A B u t).2.PosDef := by
  have h1 := (C54_discretise A B).2.2.2.2 t ht
  have h2 : IsUnit (discretiseLtiSde A B t).1 := by
    rw [(C54_discretise A B).1 t]; exact Matrix.isUnit_exp _
  refine PosDef.add_posSemidef ?_ h1
  have h3 := (Matrix.IsUnit.posDef_star_right_conjugate_iff h2).2 hu
  simpa [star_eq_conjTranspose, conjTranspose_eq_transpose_of_trivial] using h3

/-- on a fine enough grid all stages of all steps of a run are positive definite. -/
theorem ltiStage_posDef (A : Matrix (Fin d) (Fin d) ℝ) (B : Matrix (Fin d) (Fin w) ℝ) (u : Belief d) (hu : u.2.PosDef) (D : ℝ) (hD : 0 ≤ D) :
    ∃ n0 : ℕ, ∀ n, n0 ≤ n → 0 < n → ∀ k ≤ n, ∀ i, (ltiStage A (B * Bᵀ) (D / n) ((ltiRk4 A B (D / n))^[k] u).2 i).PosDef := by
  have hus : u.2.IsSymm := by simpa [IsSymm, conjTranspose_eq_transpose_of_trivial] using hu.isHermitian.eq
  set U : Set (ℝ × Belief d) := {p | ∀ i, ((1 / 2 : ℝ) • (ltiStage A (B * Bᵀ) p.1 p.2.2 i + (ltiStage A (B * Bᵀ) p.1 p.2.2 i)ᵀ)).PosDef} with hU
  have hopen : IsOpen U := by
    rw [hU, Set.ofPred_forall]
    refine isOpen_iInter_of_finite fun i => isOpen_iff_mem_nhds.2 fun p hp => ?_
    refine posDef_tendsto (fun a b => ?_) (fun s => ?_) hp
    · have hc : Continuous fun p : ℝ × Belief d => ((1 / 2 : ℝ) • (ltiStage A (B * Bᵀ) p.1 p.2.2 i + (ltiStage A (B * Bᵀ) p.1 p.2.2 i)ᵀ)) :=
        ((continuous_ltiStage A (B * Bᵀ) i).fun_add (continuous_ltiStage A (B * Bᵀ) i).matrix_transpose).fun_const_smul _
      exact (hc.matrix_elem a b).tendsto p
    · rw [IsSymm, transpose_smul, transpose_add, transpose_transpose, add_comm]
  have half : ∀ M : Matrix (Fin d) (Fin d) ℝ, M.IsSymm → (1 / 2 : ℝ) • (M + Mᵀ) = M := fun M hM => by
    rw [hM.eq, ← two_smul ℝ M, smul_smul]; norm_num
  have hcf : Continuous (ltiFlow A B u) := continuous_iff_continuousAt.2 fun t => (hasDerivAt_ltiFlow A B u t).continuousAt
  set K : Set (ℝ × Belief d) := (fun t : ℝ => ((0 : ℝ), ltiFlow A B u t)) '' Icc 0 D with hK
  have hKc : IsCompact K := isCompact_Icc.image (continuous_const.prodMk hcf)
  have hKU : K ⊆ U := by
    rintro _ ⟨t, ht, rfl⟩ i
    have hp := ltiFlow_posDef A B u hu t ht.1
    rw [ltiStage_zero, half _ (by simpa [IsSymm, conjTranspose_eq_transpose_of_trivial] using hp.isHermitian.eq)]
    exact hp
  obtain ⟨δ, hδ, hth⟩ := hKc.exists_thickening_subset_open hopen hKU
  obtain ⟨C, hC⟩ := ltiRk4_all A B u D hD
  have hlim1 : Tendsto (fun n : ℕ => D / (n : ℝ)) atTop (𝓝 0) := tendsto_const_div_atTop_nhds_zero_nat D
  have hlim2 : Tendsto (fun n : ℕ => C / (n : ℝ) ^ 4) atTop (𝓝 0) := tendsto_const_nhds.div_atTop
    ((tendsto_pow_atTop (by norm_num)).comp tendsto_natCast_atTop_atTop)
  obtain ⟨n0, hn0⟩ := eventually_atTop.1 ((hlim1.eventually (gt_mem_nhds hδ)).and (hlim2.eventually (gt_mem_nhds hδ)))
  refine ⟨n0, fun n hn hpos k hk i => ?_⟩
  have hn' : (0 : ℝ) < n := Nat.cast_pos.2 hpos
  have hkD : (k : ℝ) * (D / n) ∈ Icc 0 D := by
    refine ⟨by positivity, ?_⟩
    calc (k : ℝ) * (D / n) ≤ n * (D / n) := mul_le_mul_of_nonneg_right (by exact_mod_cast hk) (by positivity)
      _ = D := by field_simp
  have hmem : (D / (n : ℝ), (ltiRk4 A B (D / n))^[k] u) ∈ U := by
    refine hth (Metric.mem_thickening_iff.2 ⟨_, ⟨_, hkD, rfl⟩, ?_⟩)
    rw [Prod.dist_eq, max_lt_iff]
    constructor
    · rw [Real.dist_eq, sub_zero, abs_of_nonneg (by positivity)]
      exact (hn0 n hn).1
    · rw [dist_eq_norm]
      exact (hC n hpos k hk).trans_lt (hn0 n hn).2
  have h := hmem i
  have hs := ltiStage_symm A (B * Bᵀ) _ (by simp [IsSymm]) (ltiRk4_iterate_symm A B (D / n) u hus k) (D / n) i
  rwa [half _ hs] at h

/-- the beliefs of a run of the sigma-point filter with measurements that carry no information. -/
theorem cdSgp_run {dy : ℕ} (Bk : Backend) (sg : SigmaPoints d) (hr : SecondOrder sg.w sg.xi) (A : Matrix (Fin d) (Fin d) ℝ) (B : Matrix (Fin d) (Fin w) ℝ)
    (c : Fin dy → ℝ) (Xi : Matrix (Fin dy) (Fin dy) ℝ) (constCov : Bool) (dt : ℝ) (ys : List (Fin dy → ℝ)) (s : Belief d × ℝ) :
    (scan (filterBody (fun f => rk4MCov (cdSgpShared Bk sg (fun x => A *ᵥ x) B) f.1 f.2 dt) fun p y => sgpUpdate Bk sg (fun _ => (c, Xi)) p y constCov) s ys).2.map
      (fun o => o.1) = (List.range ys.length).map fun k => (fun f : Belief d => rk4MCov (cdSgpShared Bk sg (fun x => A *ᵥ x) B) f.1 f.2 dt)^[k + 1] s.1 := by
  induction ys generalizing s with
  | nil => rfl
  | cons y ys ih =>
    rw [List.length_cons, List.range_succ_eq_map, List.map_cons, List.map_map]
    simp only [scan, List.map_cons, filterBody, sgpUpdate_const Bk sg hr]
    rw [ih]
    rfl

/-- **C145, sigma points, whole run, covariances too.** Fill a time interval of length `D` with `n` measurements that carry no information. From a positive
definite covariance the last mean and covariance returned by `cd_sgp_filter` converge to those of the exact transition over `D`, with an error of
order `n^-4`. -/
theorem C145_sgp_cov_order_four {dy : ℕ} (Bk : Backend) (hB : Bk.Valid) (sg : SigmaPoints d) (hr : SecondOrder sg.w sg.xi) (A : Matrix (Fin d) (Fin d) ℝ)
    (B : Matrix (Fin d) (Fin w) ℝ) (m : Fin d → ℝ) (v : Matrix (Fin d) (Fin d) ℝ) (hv : v.PosDef) (c : Fin dy → ℝ) (Xi : Matrix (Fin dy) (Fin dy) ℝ)
    (D : ℝ) (hD : 0 ≤ D) (constCov : Bool) :
    ∃ C, ∀ ys : List (Fin dy → ℝ), ys ≠ [] → ∃ last,
      (cdSgpFilter Bk (fun x => A *ᵥ x) B (fun _ => (c, Xi)) sg m v (D / ys.length) ys constCov).getLast? = some last ∧
      (∀ i, |last.1.1 i - ((discretiseLtiSde A B D).1 *ᵥ m) i| ≤ C / (ys.length : ℝ) ^ 4) ∧
      (∀ i j, |last.1.2 i j - ((discretiseLtiSde A B D).1 * v * (discretiseLtiSde A B D).1ᵀ + (discretiseLtiSde A B D).2) i j|
        ≤ C / (ys.length : ℝ) ^ 4) := by
  obtain ⟨C1, hC1⟩ := ltiRk4_global A B (m, v) D hD
  obtain ⟨n0, hn0⟩ := ltiStage_posDef A B (m, v) hv D hD
  set T : ℝ → Belief d → Belief d := fun dt f => rk4MCov (cdSgpShared Bk sg (fun x => A *ᵥ x) B) f.1 f.2 dt with hT
  have hiter : ∀ n, n0 ≤ n → 0 < n → ∀ k ≤ n, (T (D / n))^[k] (m, v) = (ltiRk4 A B (D / n))^[k] (m, v) := by
    intro n hn hpos k
    induction k with
    | zero => intro _; rfl
    | succ k ih =>
      intro hk
      rw [Function.iterate_succ_apply', Function.iterate_succ_apply', ih (by omega)]
      exact sgp_step_eq Bk hB sg hr A B (D / n) _ (hn0 n hn hpos k (by omega))
  set err : ℕ → ℝ := fun n => ‖(T (D / n))^[n] (m, v) - ltiFlow A B (m, v) D‖ with herr
  set C := |C1| + ∑ n ∈ Finset.range n0, err n * (n : ℝ) ^ 4 with hC
  have hbound : ∀ n : ℕ, 0 < n → err n ≤ C / (n : ℝ) ^ 4 := by
    intro n hpos
    have hn' : (0 : ℝ) < n := Nat.cast_pos.2 hpos
    have hs0 : ∀ n ∈ Finset.range n0, 0 ≤ err n * (n : ℝ) ^ 4 := fun n _ => mul_nonneg (norm_nonneg _) (by positivity)
    rcases le_or_gt n0 n with h | h
    · have h1 : err n ≤ C1 / (n : ℝ) ^ 4 := by
        simp only [herr]
        rw [hiter n h hpos n le_rfl]
        exact hC1 n hpos
      refine h1.trans (div_le_div_of_nonneg_right ?_ (by positivity))
      exact (le_abs_self C1).trans (le_add_of_nonneg_right (Finset.sum_nonneg hs0))
    · rw [le_div_iff₀ (by positivity)]
      exact (Finset.single_le_sum hs0 (Finset.mem_range.2 h)).trans (le_add_of_nonneg_left (abs_nonneg _))
  refine ⟨C, fun ys hys => ?_⟩
  have hpos : 0 < ys.length := List.length_pos_iff.2 hys
  have hrun := cdSgp_run Bk sg hr A B c Xi constCov (D / ys.length) ys ((m, v), 0)
  set out := cdSgpFilter Bk (fun x => A *ᵥ x) B (fun _ => (c, Xi)) sg m v (D / ys.length) ys constCov with hout
  have hrun' : out.map (fun o => o.1) = (List.range ys.length).map fun k => (T (D / ys.length))^[k + 1] (m, v) := hrun
  have hlen : out.length = ys.length := by simpa using congrArg List.length hrun'
  have hne : out ≠ [] := List.length_pos_iff.1 (hlen ▸ hpos)
  refine ⟨out.getLast hne, List.getLast?_eq_some_getLast hne, ?_⟩
  have hl : (out.getLast hne).1 = (T (D / ys.length))^[ys.length] (m, v) := by
    have h1 : (out.map fun o => o.1).getLast (by simpa using hne) = (out.getLast hne).1 := List.getLast_map _
    rw [← h1]
    simp only [hrun', List.getLast_map, List.getLast_range]
    rw [Nat.sub_add_cancel hpos]
  have h := hbound ys.length hpos
  simp only [herr] at h
  rw [← hl] at h
  have h1 := belief_entry_le ((out.getLast hne).1 - ltiFlow A B (m, v) D)
  exact ⟨fun i => (h1.1 i).trans h, fun i j => (h1.2 i j).trans h⟩

/-- hypotheses of C145: an oscillator with noise on its velocity, the cubature rule, the actual backend. -/
example : ∃ C, ∀ ys : List (Fin 1 → ℝ), ys ≠ [] → ∃ last,
    (cdSgpFilter theBackend (fun x => !![0, 1; -1, 0] *ᵥ x) (!![0; 1] : Matrix (Fin 2) (Fin 1) ℝ) (fun _ => (0, 1)) (SigmaPoints.cubature 2) ![1, 0] 1
      (3 / ys.length) ys).getLast? = some last ∧
    ∀ i j, |last.1.2 i j - ((discretiseLtiSde !![0, 1; -1, 0] (!![0; 1] : Matrix (Fin 2) (Fin 1) ℝ) 3).1 * (1 : Matrix (Fin 2) (Fin 2) ℝ)
      * (discretiseLtiSde !![0, 1; -1, 0] (!![0; 1] : Matrix (Fin 2) (Fin 1) ℝ) 3).1ᵀ
      + (discretiseLtiSde !![0, 1; -1, 0] (!![0; 1] : Matrix (Fin 2) (Fin 1) ℝ) 3).2) i j| ≤ C / (ys.length : ℝ) ^ 4 := by
  obtain ⟨C, hC⟩ := C145_sgp_cov_order_four theBackend theBackend_valid (SigmaPoints.cubature 2) (C72_cubature 2 (by norm_num)).1
    !![0, 1; -1, 0] (!![0; 1] : Matrix (Fin 2) (Fin 1) ℝ) ![1, 0] 1 Matrix.PosDef.one (0 : Fin 1 → ℝ) 1 3 (by norm_num) false
  refine ⟨C, fun ys hys => ?_⟩
  obtain ⟨last, h1, _, h3⟩ := hC ys hys
  exact ⟨last, h1, h3⟩

end Mfs.Props

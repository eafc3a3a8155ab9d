import Verif.Props.ContiResampling
import Verif.Model.ParamPf
import Verif.Props.FilterJvp
import Verif.Props.Models1

/-!
# C175 for the objective of `dardel/parameter_estimation/pf.py`
-/

namespace Mfs.Props

open Finset Filter Topology Mfs.Resampling Mfs.Smc Mfs.SsModels Mfs.Jvp

theorem wellEmission_pos' (x p : ℝ) : 0 < wellEmission x p := Real.log_pos (by linarith [Real.exp_pos (p * x)])

theorem continuous_wellPmf {Z : Type} [TopologicalSpace Z] (y : ℕ) {x p : Z → ℝ} (hx : Continuous x) (hp : Continuous p) : Continuous fun z => wellPmf y (x z) (p z) := by
  have h : Continuous fun z => wellEmission (x z) (p z) := by
    unfold wellEmission
    exact Continuous.log (continuous_const.add (Real.continuous_exp.comp (hp.mul hx))) fun z => by positivity
  unfold wellPmf poissonPmf
  exact Real.continuous_exp.comp (((continuous_const.mul (h.log fun z => (wellEmission_pos' _ _).ne')).sub h).sub continuous_const)

/-- **C175.** With `--euler --cr` the objective of the particle-filter script is continuous, for every generator, key and data. -/
theorem C175_script_continuous {K : Type} {n : ℕ} [NeZero n] (G : Prng.Gen K) (ss : List ℝ → ℝ → ℕ) (ys : List ℕ) (key : K) :
    Continuous (Prng.objWellPf (n := n) G ss 0 true ys key) := by
  have hsp : Continuous softplus := (softplus_smooth (r := 0)).continuous
  refine C175_conti_continuous (Θ := ℝ × ℝ) (n := n) (fun k => G.uniform k n)
    (fun q => Prng.scriptTransition G (fun x => x + wellDrift x (softplus q.1) * dt1) fun x => dispersion1 x ^ 2 * dt1) (fun k => ?_)
    (fun q y x => wellPmf y x (softplus q.2)) (fun y => ?_) (fun q y a => wellPmf_pos _ _ _) ys (fun _ => Prng.sampler1 G ss _) (fun k => continuous_const) key G.fst G.split
  · refine continuous_pi fun i => ?_
    have hx : Continuous fun q : (ℝ × ℝ) × (Fin n → ℝ) => q.2 i := (continuous_apply i).comp continuous_snd
    have h1 : Continuous fun q : (ℝ × ℝ) × (Fin n → ℝ) => softplus q.1.1 := hsp.comp (continuous_fst.comp continuous_fst)
    simp only [Prng.scriptTransition, wellDrift, dispersion1]
    fun_prop
  · exact continuous_wellPmf y continuous_snd (hsp.comp (continuous_snd.comp continuous_fst))

/-! ## without `--cr` -/

/-- a generator with two uniform draws and no noise. -/
noncomputable def noiselessGen (u : ℕ → ℝ) : Prng.Gen Unit where
  split _ m := List.replicate m ()
  uniform _ _ i := u i
  normal _ _ _ := 0

/-- the Euler step of the script without noise. -/
noncomputable def wellEuler (p x : ℝ) : ℝ := x + wellDrift x p * dt1

theorem wellEuler_neg (p x : ℝ) : wellEuler p (-x) = -wellEuler p x := by simp only [wellEuler, wellDrift]; ring

theorem wellPmf_zero (x p : ℝ) : wellPmf 0 x p = (1 + Real.exp (p * x))⁻¹ := by
  rw [wellPmf, poissonPmf, wellEmission]
  simp only [Nat.cast_zero, zero_mul, zero_sub, Nat.factorial_zero, Nat.cast_one, Real.log_one, sub_zero]
  rw [Real.exp_neg, Real.exp_log (by positivity)]

theorem wellPmf_pair (x p : ℝ) : wellPmf 0 x p + wellPmf 0 (-x) p = 1 := by
  rw [wellPmf_zero, wellPmf_zero, mul_neg, Real.exp_neg]
  have := Real.exp_pos (p * x)
  field_simp
  ring

theorem wellPmf_zero_anti (p : ℝ) {x y : ℝ} (hp : 0 < p) (h : x < y) : wellPmf 0 y p < wellPmf 0 x p := by
  rw [wellPmf_zero, wellPmf_zero]
  exact inv_strictAnti₀ (by positivity) (by linarith [Real.exp_lt_exp.2 (mul_lt_mul_of_pos_left h hp)])

theorem pair_transition (u : ℕ → ℝ) (p : ℝ) (s : Fin 2 → ℝ) : Prng.scriptTransition (noiselessGen u) (fun x => x + wellDrift x p * dt1) (fun x => dispersion1 x ^ 2 * dt1) s () =
    fun i => wellEuler p (s i) := by
  funext i
  simp [Prng.scriptTransition, noiselessGen, wellEuler]

theorem S_pair (a b : ℝ) : S [a, b] 0 = 0 ∧ S [a, b] 1 = a ∧ S [a, b] 2 = a + b := by simp [S]

theorem pick_pair {ss : List ℝ → ℝ → ℕ} (hss : SearchSorted ss) {a b v : ℝ} (ha : 0 ≤ a) (hb : 0 ≤ b) (hv : v ≤ a + b) :
    min (ss (cumsum [a, b]) v) 1 = if v ≤ a then 0 else 1 := by
  have hw : ∀ x ∈ [a, b], 0 ≤ x := by simp [ha, hb]
  obtain ⟨s0, s1, s2⟩ := S_pair a b
  split_ifs with h
  · exact (clip_ss_eq_iff hss [a, b] hw v (by simpa using hv) 0 (by simp)).2 ⟨Or.inl rfl, by rwa [zero_add, s1]⟩
  · exact (clip_ss_eq_iff hss [a, b] hw v (by simpa using hv) 1 (by simp)).2 ⟨Or.inr (by rw [s1]; exact not_le.1 h), by rwa [s2]⟩

/-- the initial particles are at one half and minus one half. -/
theorem pair_init {ss : List ℝ → ℝ → ℕ} (hss : SearchSorted ss) (u : ℕ → ℝ) (h0 : ∀ i, 0 ≤ u i) (i : Fin 2) :
    Prng.sampler1 (noiselessGen u) ss [⟨-0.5, 0.05, 0.5⟩, ⟨0.5, 0.05, 0.5⟩] () i = if u i < 1 / 2 then 1 / 2 else -(1 / 2) := by
  have hp := pick_pair hss (a := 0.5) (b := 0.5) (v := 1 - u i) (by norm_num) (by norm_num) (by have := h0 i; norm_num; linarith)
  have hs : (([⟨-0.5, 0.05, 0.5⟩, ⟨0.5, 0.05, 0.5⟩] : List Moments1.Component).map (·.weight)) = [0.5, 0.5] := rfl
  have hc : min (Prng.choice (noiselessGen u) ss () [0.5, 0.5] 2 i) 1 = if 1 - u i ≤ 0.5 then 0 else 1 := by
    rw [← hp, Prng.choice]
    congr 2
    simp [noiselessGen]
    norm_num
  simp only [Prng.sampler1, hs, List.length_cons, List.length_nil]
  rw [show (0 + 1 + 1 - 1 : ℕ) = 1 from rfl, hc]
  split_ifs with h1 h2 h2
  · norm_num at h1; linarith
  · simp [noiselessGen]; norm_num
  · simp [noiselessGen]; norm_num
  · norm_num at h1; linarith

/-- two steps of the filter with measurements zero, from particles at `±x`. -/
theorem pair_run (u : ℕ → ℝ) (ss : List ℝ → ℝ → ℕ) (p1 p2 : ℝ) (s : Fin 2 → ℝ) (hinit : Prng.sampler1 (noiselessGen u) ss [⟨-0.5, 0.05, 0.5⟩, ⟨0.5, 0.05, 0.5⟩] () = s)
    (hs : s 1 = -s 0) (rs : (Fin 2 → ℝ) → (Fin 2 → ℝ) → Unit → Fin 2 → ℝ) :
    (Prng.bootstrapFilter (noiselessGen u) (Prng.scriptTransition (noiselessGen u) (fun x => x + wellDrift x p1 * dt1) fun x => dispersion1 x ^ 2 * dt1)
      (fun (y : ℕ) s i => wellPmf y (s i) p2) [0, 0] (Prng.sampler1 (noiselessGen u) ss [⟨-0.5, 0.05, 0.5⟩, ⟨0.5, 0.05, 0.5⟩]) () rs).2 =
    Real.log 2 - Real.log ((∑ i, wellPmf 0 (wellEuler p1 (rs (fun i => wellEuler p1 (s i)) (fun i => wellPmf 0 (wellEuler p1 (s i)) p2) () i)) p2) / 2) := by
  have h1 : ∑ i, wellPmf 0 (wellEuler p1 (s i)) p2 = 1 := by rw [Fin.sum_univ_two, hs, wellEuler_neg, wellPmf_pair]
  have hsplit : (noiselessGen u).split () 2 = [(), ()] := rfl
  simp only [Prng.bootstrapFilter, Smc.bootstrapFilter, hinit, List.length_cons, List.length_nil, zero_add, Nat.reduceAdd, hsplit, List.zip_cons_cons, List.zip_nil_right, scan,
    bootstrapBody, pair_transition, h1, div_one, Nat.cast_ofNat, zero_sub]
  rw [one_div, Real.log_inv, neg_neg]

/-- the inverse of `softplus`, `/repo/dardel/parameter_estimation/pf.py:85`. -/
noncomputable def invSoftplus (p : ℝ) : ℝ := Real.log (Real.exp p - 1)

theorem softplus_inv {p : ℝ} (hp : 0 < p) : softplus (invSoftplus p) = p := by
  rw [softplus, invSoftplus, Real.exp_log (by linarith [Real.add_one_lt_exp hp.ne']), sub_add_cancel, Real.log_exp]

theorem invSoftplus_differentiableAt {p : ℝ} (hp : 0 < p) : DifferentiableAt ℝ invSoftplus p :=
  (Real.differentiableAt_exp.sub_const 1).log (by linarith [Real.add_one_lt_exp hp.ne'])

/-- the position of the right particle after one step with `p1 = 1`. -/
noncomputable def wellC : ℝ := wellEuler 1 (1 / 2)

theorem wellC_eq : wellC = 403 / 800 := by rw [wellC, wellEuler, wellDrift, dt1]; norm_num

theorem wellC'_pos : 0 < wellEuler 1 wellC := by rw [wellC_eq, wellEuler, wellDrift, dt1]; norm_num

/-- the value of the second parameter at which the right particle has weight one fifth. -/
noncomputable def pHat : ℝ := Real.log 4 / wellC

theorem pHat_pos : 0 < pHat := div_pos (Real.log_pos (by norm_num)) (by rw [wellC_eq]; norm_num)

theorem pmf_pHat : wellPmf 0 wellC pHat = 1 / 5 := by
  rw [wellPmf_zero, pHat, div_mul_cancel₀ _ (by rw [wellC_eq]; norm_num), Real.exp_log (by norm_num)]
  norm_num

theorem pmf_anti_p {p q : ℝ} (h : p < q) : wellPmf 0 wellC q < wellPmf 0 wellC p := by
  rw [wellPmf_zero, wellPmf_zero]
  exact inv_strictAnti₀ (by positivity) (by linarith [Real.exp_lt_exp.2 (mul_lt_mul_of_pos_right h (by rw [wellC_eq]; norm_num : 0 < wellC))])

theorem pmf_lt_half {p x : ℝ} (hp : 0 < p) (hx : 0 < x) : wellPmf 0 x p < 1 / 2 := by
  have := wellPmf_zero_anti p hp (by linarith : -x < x)
  linarith [wellPmf_pair x p]

noncomputable def drawsA (i : ℕ) : ℝ := if i = 0 then 2 / 5 else 1 / 2

/-- the objective without `--cr` for two particles without noise, as a function of `p2`. -/
theorem obj_stratified {ss : List ℝ → ℝ → ℕ} (hss : SearchSorted ss) (eps : ℝ) {p : ℝ} (hp : 0 < p) :
    Prng.objWellPf (n := 2) (noiselessGen drawsA) ss eps false [0, 0] () (invSoftplus 1, invSoftplus p) =
      if 1 / 5 ≤ wellPmf 0 wellC p then 2 * Real.log 2 else Real.log 2 - Real.log (wellPmf 0 (-wellEuler 1 wellC) p) := by
  have hinit : Prng.sampler1 (noiselessGen drawsA) ss [⟨-0.5, 0.05, 0.5⟩, ⟨0.5, 0.05, 0.5⟩] () = ![1 / 2, -(1 / 2)] := by
    funext i
    rw [pair_init hss drawsA (fun i => by unfold drawsA; split_ifs <;> norm_num)]
    fin_cases i <;> norm_num [drawsA]
  have hc : 0 < wellC := by rw [wellC_eq]; norm_num
  rw [Prng.objWellPf, softplus_inv hp, softplus_inv one_pos]
  simp only [Bool.false_eq_true, if_false]
  rw [pair_run drawsA ss 1 p _ hinit (by simp)]
  have hx : (fun i : Fin 2 => wellEuler 1 ((![1 / 2, -(1 / 2)] : Fin 2 → ℝ) i)) = ![wellC, -wellC] := by
    funext i; fin_cases i
    · rfl
    · exact wellEuler_neg _ _
  have hw : (fun i : Fin 2 => wellPmf 0 (wellEuler 1 ((![1 / 2, -(1 / 2)] : Fin 2 → ℝ) i)) p) = ![wellPmf 0 wellC p, wellPmf 0 (-wellC) p] := by
    funext i
    rw [congrFun hx i]
    fin_cases i <;> rfl
  rw [hx, hw]
  have hq := wellPmf_pos 0 wellC p
  have hq' := wellPmf_pos 0 (-wellC) p
  have hs := wellPmf_pair wellC p
  have hh := pmf_lt_half hp hc
  have hidx : Prng.systematicOrStratified (noiselessGen drawsA) ss false ![wellPmf 0 wellC p, wellPmf 0 (-wellC) p] () = ![if 1 / 5 ≤ wellPmf 0 wellC p then 0 else 1, 1] := by
    have hl : List.ofFn ![wellPmf 0 wellC p, wellPmf 0 (-wellC) p] = [wellPmf 0 wellC p, wellPmf 0 (-wellC) p] := by simp
    funext j
    rw [Prng.systematicOrStratified, hl, Resampling.systematicOrStratified]
    simp only [List.length_cons, List.length_nil, zero_add, Nat.reduceAdd, Nat.add_one_sub_one]
    have e : (List.range 2) = [0, 1] := rfl
    rw [e]
    fin_cases j
    · simp only [List.map_cons, List.getD_cons_zero, Fin.zero_eta]
      rw [pick_pair hss hq.le hq'.le (by rw [hs]; norm_num [noiselessGen, drawsA])]
      norm_num [noiselessGen, drawsA]
    · simp only [List.map_cons, List.getD_cons_succ, List.getD_cons_zero, Fin.mk_one]
      rw [pick_pair hss hq.le hq'.le (by rw [hs]; norm_num [noiselessGen, drawsA])]
      have : ¬ (3 : ℝ) / 4 ≤ wellPmf 0 wellC p := by linarith
      norm_num [noiselessGen, drawsA]
      linarith
  rw [Fin.sum_univ_two, resampleIdx, hidx]
  have g1 : gather ![wellC, -wellC] ![if 1 / 5 ≤ wellPmf 0 wellC p then 0 else 1, 1] 1 = -wellC := rfl
  rw [g1, wellEuler_neg]
  split_ifs with h
  · have g0 : gather ![wellC, -wellC] ![(0 : ℕ), 1] 0 = wellC := rfl
    rw [g0, wellPmf_pair, one_div, Real.log_inv]
    ring
  · have g0 : gather ![wellC, -wellC] ![(1 : ℕ), 1] 0 = -wellC := rfl
    rw [g0, wellEuler_neg, ← two_mul, mul_div_cancel_left₀ _ (two_ne_zero)]

/-- **C175.** Without `--cr` the objective of the script is not continuous: two particles, two measurements. -/
theorem C175_script_stratified_refuted {ss : List ℝ → ℝ → ℕ} (hss : SearchSorted ss) (eps : ℝ) :
    ∃ (G : Prng.Gen Unit) (params : ℝ × ℝ), (∀ k m i, G.uniform k m i ∈ Set.Ico (0 : ℝ) 1) ∧
      ¬ ContinuousAt (Prng.objWellPf (n := 2) G ss eps false [0, 0] ()) params := by
  refine ⟨noiselessGen drawsA, (invSoftplus 1, invSoftplus pHat), fun _ _ i => ?_, fun hcont => ?_⟩
  · simp only [noiselessGen, drawsA]; split_ifs <;> norm_num
  have hF : ContinuousAt (fun p => Prng.objWellPf (n := 2) (noiselessGen drawsA) ss eps false [0, 0] () (invSoftplus 1, invSoftplus p)) pHat :=
    ContinuousAt.comp (f := fun p => (invSoftplus 1, invSoftplus p)) hcont (continuousAt_const.prodMk (invSoftplus_differentiableAt pHat_pos).continuousAt)
  have h1 : Tendsto (fun p => Prng.objWellPf (n := 2) (noiselessGen drawsA) ss eps false [0, 0] () (invSoftplus 1, invSoftplus p)) (𝓝[>] pHat) (𝓝 (2 * Real.log 2)) := by
    have := hF.tendsto.mono_left (nhdsWithin_le_nhds (s := Set.Ioi pHat))
    rwa [obj_stratified hss eps pHat_pos, if_pos pmf_pHat.ge] at this
  have h2 : Tendsto (fun p => Prng.objWellPf (n := 2) (noiselessGen drawsA) ss eps false [0, 0] () (invSoftplus 1, invSoftplus p)) (𝓝[>] pHat)
      (𝓝 (Real.log 2 - Real.log (wellPmf 0 (-wellEuler 1 wellC) pHat))) := by
    have hc : ContinuousAt (fun p => Real.log 2 - Real.log (wellPmf 0 (-wellEuler 1 wellC) p)) pHat :=
      continuousAt_const.sub ((continuous_wellPmf 0 continuous_const continuous_id).continuousAt.log (wellPmf_pos _ _ _).ne')
    refine (hc.tendsto.mono_left nhdsWithin_le_nhds).congr' ?_
    filter_upwards [self_mem_nhdsWithin] with p hp
    rw [obj_stratified hss eps (pHat_pos.trans hp), if_neg (not_le.2 (pmf_pHat ▸ pmf_anti_p hp))]
  have h3 := tendsto_nhds_unique h1 h2
  have h4 : (1 : ℝ) / 2 < wellPmf 0 (-wellEuler 1 wellC) pHat := by linarith [wellPmf_pair (wellEuler 1 wellC) pHat, pmf_lt_half pHat_pos wellC'_pos]
  have h5 := Real.log_lt_log (by norm_num) h4
  rw [one_div, Real.log_inv] at h5
  linarith

/-! ## differentiability -/

noncomputable def drawsB (i : ℕ) : ℝ := if i = 0 then 4 / 5 else 0

theorem ordStat_pair {c : ℝ} (hc : 0 < c) : ordStat ![-c, c] 0 = -c ∧ ordStat ![-c, c] 1 = c := by
  have hl : List.ofFn ![-c, c] = [-c, c] := by simp
  have hcc : -c ≤ c := by linarith
  constructor
  · refine le_antisymm ((ordStat_le_iff _ (by norm_num) _).2 (by simp [List.countP_cons])) ?_
    obtain ⟨i, hi⟩ := ordStat_mem ![-c, c] (k := 0) (by norm_num)
    rw [← hi]
    fin_cases i
    · exact le_rfl
    · exact hcc
  · refine le_antisymm ((ordStat_le_iff _ (by norm_num) _).2 (by simp [hcc])) (not_lt.1 fun h => ?_)
    have := (ordStat_le_iff ![-c, c] (k := 1) (by norm_num) _).1 le_rfl
    rw [hl] at this
    simp only [List.countP_cons, List.countP_nil, zero_add, decide_eq_true_eq, if_neg (not_le.2 h)] at this
    split_ifs at this <;> omega

/-- the objective with `--cr` for two particles without noise, as a function of `p2`. -/
theorem obj_conti {ss : List ℝ → ℝ → ℕ} (hss : SearchSorted ss) {eps : ℝ} (heps : 0 ≤ eps) (heps' : eps < 1 / 10) {p : ℝ} (hp : 0 < p) (hq : 1 / 10 < wellPmf 0 wellC p) :
    Prng.objWellPf (n := 2) (noiselessGen drawsB) ss eps true [0, 0] () (invSoftplus 1, invSoftplus p) =
      Real.log 2 - Real.log ((wellPmf 0 (wellEuler 1 (-wellC + 2 * wellC * max 0 (wellPmf 0 wellC p - 1 / 5))) p
        + wellPmf 0 (wellEuler 1 (-wellC + 2 * wellC * wellPmf 0 wellC p)) p) / 2) := by
  have hinit : Prng.sampler1 (noiselessGen drawsB) ss [⟨-0.5, 0.05, 0.5⟩, ⟨0.5, 0.05, 0.5⟩] () = ![-(1 / 2), 1 / 2] := by
    funext i
    rw [pair_init hss drawsB (fun i => by unfold drawsB; split_ifs <;> norm_num)]
    fin_cases i <;> norm_num [drawsB]
  have hc : 0 < wellC := by rw [wellC_eq]; norm_num
  have hh := pmf_lt_half hp hc
  have hs := wellPmf_pair wellC p
  rw [Prng.objWellPf, softplus_inv hp, softplus_inv one_pos]
  simp only [if_true]
  rw [pair_run drawsB ss 1 p _ hinit (by simp)]
  have hx : (fun i : Fin 2 => wellEuler 1 ((![-(1 / 2), 1 / 2] : Fin 2 → ℝ) i)) = ![-wellC, wellC] := by
    funext i; fin_cases i
    · exact wellEuler_neg _ _
    · rfl
  have hw : (fun i : Fin 2 => wellPmf 0 (wellEuler 1 ((![-(1 / 2), 1 / 2] : Fin 2 → ℝ) i)) p) = fun i => wellPmf 0 (![-wellC, wellC] i) p := by
    funext i
    rw [congrFun hx i]
  rw [hx, hw]
  obtain ⟨o0, o1⟩ := ordStat_pair hc
  have hr : ∀ j : Fin 2, resampleConti eps (fun k => (noiselessGen drawsB).uniform k 2) ![-wellC, wellC] (fun i => wellPmf 0 (![-wellC, wellC] i) p) () j =
      -wellC + 2 * wellC * unitClip (drawsB j + j - 1 + wellPmf 0 wellC p) := by
    intro j
    rw [conti_formula heps _ ![-wellC, wellC] (fun a => wellPmf 0 a p) (fun i => by fin_cases i <;> simp <;> linarith) () j]
    simp only [Nat.add_one_sub_one, sum_range_one, zero_add, o0, o1, knot, noiselessGen]
    rw [show wellPmf 0 wellC p + wellPmf 0 (-wellC) p = 1 from hs, show wellPmf 0 (-wellC) p = 1 - wellPmf 0 wellC p by linarith]
    congr 2
    · ring
    · congr 1
      push_cast
      ring
  rw [Fin.sum_univ_two, hr, hr]
  have e0 : drawsB (0 : Fin 2) + ((0 : Fin 2) : ℕ) - 1 + wellPmf 0 wellC p = wellPmf 0 wellC p - 1 / 5 := by norm_num [drawsB]; ring
  have e1 : drawsB (1 : Fin 2) + ((1 : Fin 2) : ℕ) - 1 + wellPmf 0 wellC p = wellPmf 0 wellC p := by norm_num [drawsB]
  have c1 : unitClip (wellPmf 0 wellC p) = wellPmf 0 wellC p := unitClip_mid (by linarith) (by linarith)
  have c0 : unitClip (wellPmf 0 wellC p - 1 / 5) = max 0 (wellPmf 0 wellC p - 1 / 5) := by rw [unitClip, min_eq_right (by linarith)]
  rw [e0, e1, c0, c1]

theorem logit_pmf {x p : ℝ} : p * x = Real.log ((wellPmf 0 x p)⁻¹ - 1) := by
  rw [wellPmf_zero, inv_inv, add_sub_cancel_left, Real.log_exp]

theorem pmf_lt_one (x p : ℝ) : wellPmf 0 x p < 1 := by linarith [wellPmf_pair x p, wellPmf_pos 0 (-x) p]

theorem hasDerivAt_q (p : ℝ) : HasDerivAt (fun p => wellPmf 0 wellC p) (-(Real.exp (p * wellC) * wellC) / (1 + Real.exp (p * wellC)) ^ 2) p := by
  have h : HasDerivAt (fun p => 1 + Real.exp (p * wellC)) (Real.exp (p * wellC) * wellC) p := by
    have h1 : HasDerivAt (fun p : ℝ => p * wellC) wellC p := by simpa using (hasDerivAt_id p).mul_const wellC
    exact h1.exp.const_add 1
  exact (h.inv (by positivity)).congr_of_eventuallyEq (Eventually.of_forall fun p => wellPmf_zero _ _)

theorem hasDerivAt_wellEuler (x : ℝ) : HasDerivAt (wellEuler 1) (1 + (1 - 3 * x ^ 2) * dt1) x := by
  have h : wellEuler 1 = fun x => x + (x - x ^ 3) * dt1 := by funext x; simp only [wellEuler, wellDrift]; ring
  rw [h]
  have h3 : HasDerivAt (fun x : ℝ => x ^ 3) (3 * x ^ 2) x := by simpa using hasDerivAt_pow 3 x
  exact (hasDerivAt_id' x).add (((hasDerivAt_id' x).sub h3).mul_const dt1)

/-- **C175.** Continuous resampling does not make the objective of the script differentiable everywhere: it has a kink where a draw meets the end
of the range over which `jnp.interp` interpolates. -/
theorem C175_script_not_differentiable {ss : List ℝ → ℝ → ℕ} (hss : SearchSorted ss) {eps : ℝ} (heps : 0 ≤ eps) (heps' : eps < 1 / 10) :
    ∃ (G : Prng.Gen Unit) (params : ℝ × ℝ), (∀ k m i, G.uniform k m i ∈ Set.Ico (0 : ℝ) 1) ∧
      ¬ DifferentiableAt ℝ (Prng.objWellPf (n := 2) G ss eps true [0, 0] ()) params := by
  refine ⟨noiselessGen drawsB, (invSoftplus 1, invSoftplus pHat), fun _ _ i => ?_, fun hd => ?_⟩
  · simp only [noiselessGen, drawsB]; split_ifs <;> norm_num
  have hF : DifferentiableAt ℝ (fun p => Prng.objWellPf (n := 2) (noiselessGen drawsB) ss eps true [0, 0] () (invSoftplus 1, invSoftplus p)) pHat :=
    DifferentiableAt.comp (f := fun p => (invSoftplus 1, invSoftplus p)) pHat hd ((differentiableAt_const _).prodMk (invSoftplus_differentiableAt pHat_pos))
  set F := fun p => Prng.objWellPf (n := 2) (noiselessGen drawsB) ss eps true [0, 0] () (invSoftplus 1, invSoftplus p) with hFd
  set q := fun p => wellPmf 0 wellC p with hqd
  set R := fun p => wellEuler 1 (-wellC + 2 * wellC * max 0 (q p - 1 / 5)) with hR
  set y1 := fun p => wellEuler 1 (-wellC + 2 * wellC * q p) with hy1
  have hqc : ContinuousAt q pHat := (hasDerivAt_q pHat).continuousAt
  have hnear : ∀ᶠ p in 𝓝 pHat, 0 < p ∧ 1 / 10 < q p := (continuousAt_const.eventually_lt continuousAt_id pHat_pos).and
    (continuousAt_const.eventually_lt hqc (lt_of_lt_of_eq (by norm_num) pmf_pHat.symm))
  have hy1d : DifferentiableAt ℝ y1 pHat :=
    (hasDerivAt_wellEuler _).differentiableAt.comp pHat (((hasDerivAt_q pHat).differentiableAt.const_mul _).const_add _)
  have hpm : DifferentiableAt ℝ (fun p => wellPmf 0 (y1 p) p) pHat := by
    have : (fun p => wellPmf 0 (y1 p) p) = fun p => (1 + Real.exp (p * y1 p))⁻¹ := by funext p; exact wellPmf_zero _ _
    rw [this]
    exact (((differentiableAt_id.mul hy1d).exp).const_add 1).inv (by positivity)
  -- the value at the first particle
  have hM : DifferentiableAt ℝ (fun p => 2 * Real.exp (Real.log 2 - F p) - wellPmf 0 (y1 p) p) pHat :=
    (((differentiableAt_const _).sub hF).exp.const_mul 2).sub hpm
  have hMe : (fun p => 2 * Real.exp (Real.log 2 - F p) - wellPmf 0 (y1 p) p) =ᶠ[𝓝 pHat] fun p => wellPmf 0 (R p) p := by
    filter_upwards [hnear] with p hp
    have := obj_conti hss heps heps' hp.1 hp.2
    simp only [hFd]
    rw [this, sub_sub_cancel, Real.exp_log (by linarith [wellPmf_pos 0 (R p) p, wellPmf_pos 0 (y1 p) p])]
    simp only [hR, hy1, hqd]
    ring
  have hM' : DifferentiableAt ℝ (fun p => wellPmf 0 (R p) p) pHat := hM.congr_of_eventuallyEq hMe.symm
  have hRd : DifferentiableAt ℝ R pHat := by
    have h1 : DifferentiableAt ℝ (fun p => Real.log ((wellPmf 0 (R p) p)⁻¹ - 1) / p) pHat := by
      refine ((hM'.inv (wellPmf_pos _ _ _).ne').sub_const 1).log ?_ |>.div differentiableAt_id pHat_pos.ne'
      have := (one_lt_inv₀ (wellPmf_pos 0 (R pHat) pHat)).2 (pmf_lt_one _ _)
      exact (sub_pos.2 this).ne'
    refine h1.congr_of_eventuallyEq ?_
    filter_upwards [hnear] with p hp
    rw [← logit_pmf, mul_div_cancel_left₀ _ hp.1.ne']
  have hq0 : q pHat = 1 / 5 := pmf_pHat
  -- from the right
  have r1 : HasDerivWithinAt R 0 (Set.Ici pHat) pHat := by
    refine (hasDerivWithinAt_const pHat (Set.Ici pHat) (wellEuler 1 (-wellC))).congr_of_mem (fun p hp => ?_) Set.self_mem_Ici
    have : q p ≤ 1 / 5 := by
      rcases eq_or_lt_of_le (Set.mem_Ici.1 hp) with h | h
      · rw [← h, hq0]
      · exact (hq0 ▸ pmf_anti_p h : q p < 1 / 5).le
    simp only [hR]
    rw [max_eq_left (by linarith), mul_zero, add_zero]
  have e1 : deriv R pHat = 0 := (uniqueDiffWithinAt_Ici pHat).eq_deriv _ hRd.hasDerivAt.hasDerivWithinAt r1
  -- from the left
  have r2 : HasDerivWithinAt R ((1 + (1 - 3 * (-wellC) ^ 2) * dt1) * (2 * wellC * (-(Real.exp (pHat * wellC) * wellC) / (1 + Real.exp (pHat * wellC)) ^ 2))) (Set.Iic pHat) pHat := by
    have hin : HasDerivAt (fun p => -wellC + 2 * wellC * (q p - 1 / 5)) (2 * wellC * (-(Real.exp (pHat * wellC) * wellC) / (1 + Real.exp (pHat * wellC)) ^ 2)) pHat :=
      (((hasDerivAt_q pHat).sub_const (1 / 5)).const_mul _).const_add _
    have hE : HasDerivAt (wellEuler 1) (1 + (1 - 3 * (-wellC) ^ 2) * dt1) (-wellC + 2 * wellC * (q pHat - 1 / 5)) := by
      rw [hq0, sub_self, mul_zero, add_zero]
      exact hasDerivAt_wellEuler _
    refine (hE.comp pHat hin).hasDerivWithinAt.congr_of_mem (fun p hp => ?_) Set.self_mem_Iic
    have : 1 / 5 ≤ q p := by
      rcases eq_or_lt_of_le (Set.mem_Iic.1 hp) with h | h
      · rw [h, hq0]
      · exact (hq0 ▸ pmf_anti_p h : 1 / 5 < q p).le
    simp only [hR, Function.comp_apply]
    rw [max_eq_right (by linarith)]
  have e2 := (uniqueDiffWithinAt_Iic pHat).eq_deriv _ hRd.hasDerivAt.hasDerivWithinAt r2
  rw [e1] at e2
  have hc : 0 < wellC := by rw [wellC_eq]; norm_num
  have n1 : 0 < 1 + (1 - 3 * (-wellC) ^ 2) * dt1 := by rw [wellC_eq, dt1]; norm_num
  have n2 : 0 < Real.exp (pHat * wellC) * wellC / (1 + Real.exp (pHat * wellC)) ^ 2 := by positivity
  have n3 := mul_pos n1 (mul_pos (mul_pos two_pos hc) n2)
  rw [neg_div, mul_neg, mul_neg] at e2
  linarith

/-! ## `continuous_resampling` by itself -/

theorem argsort_of_eq {l : List ℝ} {idx : List ℕ} (hp : idx.Perm (List.range l.length)) (hs : idx.Pairwise fun i j => l.getD i 0 < l.getD j 0) : argsort l = idx := by
  have h1 : (argsort l).Pairwise fun i j => l.getD i 0 ≤ l.getD j 0 := by
    have := argsort_map_sorted l
    rwa [List.pairwise_map] at this
  refine List.Perm.eq_of_pairwise (le := fun i j => l.getD i 0 ≤ l.getD j 0) (fun a b ha hb hab hba => ?_) h1 (hs.imp le_of_lt) ((argsort_perm l).trans hp.symm)
  have hb' : b ∈ idx := hb
  have ha' : a ∈ idx := hp.mem_iff.2 ((argsort_perm l).mem_iff.1 ha)
  by_contra hne
  rcases List.pairwise_iff_getElem.1 hs with h
  obtain ⟨i, hi, rfl⟩ := List.getElem_of_mem ha'
  obtain ⟨j, hj, rfl⟩ := List.getElem_of_mem hb'
  rcases lt_trichotomy i j with hij | hij | hij
  · exact absurd (h i j hi hj hij) (not_lt.2 hba)
  · subst hij; exact hne rfl
  · exact absurd (h j i hj hi hij) (not_lt.2 hab)

/-- **C175.** With the weights held fixed, `continuous_resampling` is not continuous in the samples: when two samples with different weights change
places, the resampled values jump. The theorems above rely on weights that are a function of the sample. -/
theorem C175_fixed_weights_refuted {eps : ℝ} (heps' : eps < 1 / 4) :
    ¬ ContinuousAt (fun t : ℝ => (continuousResampling eps [0, 1, 1 + t] [1 / 4, 1 / 4, 1 / 2] 1 fun _ => 1 / 4).getD 0 0) 0 := by
  intro hcont
  have hr : (List.range 1) = [0] := rfl
  have hval : ∀ t : ℝ, 0 < t → (continuousResampling eps [0, 1, 1 + t] [1 / 4, 1 / 4, 1 / 2] 1 fun _ => 1 / 4).getD 0 0 = 1 / 2 := by
    intro t ht
    have ha : argsort [0, 1, 1 + t] = [0, 1, 2] := argsort_of_eq (show [0, 1, 2].Perm (List.range 3) by decide) (by simp; constructor <;> linarith)
    have hcs : (cumsum (avgNNplusone [1 / 4, 1 / 4, 1 / 2])).dropLast = [1 / 8, 3 / 8, 3 / 4] := by
      simp [cumsum, avgNNplusone, List.range_succ]; norm_num
    have hc : ([1 / 8, 3 / 8, 3 / 4] : List ℝ).countP (fun a => decide (a ≤ 1 / 4)) = 1 := by norm_num [List.countP_cons]
    simp only [continuousResampling, ha, hr, List.map_cons, List.map_nil, List.getD_cons_zero, List.getD_cons_succ, hcs, Nat.cast_zero, Nat.cast_one, add_zero, div_one, interp, hc]
    norm_num [abs_of_pos]
    exact heps'
  have hval' : ∀ t : ℝ, t < 0 → -1 < t → (continuousResampling eps [0, 1, 1 + t] [1 / 4, 1 / 4, 1 / 2] 1 fun _ => 1 / 4).getD 0 0 = (1 + t) / 3 := by
    intro t ht ht'
    have ha : argsort [0, 1, 1 + t] = [0, 2, 1] := argsort_of_eq (show [0, 2, 1].Perm (List.range 3) by decide) (by simp; constructor <;> linarith)
    have hcs : (cumsum (avgNNplusone [1 / 4, 1 / 2, 1 / 4])).dropLast = [1 / 8, 1 / 2, 7 / 8] := by
      simp [cumsum, avgNNplusone, List.range_succ]; norm_num
    have hc : ([1 / 8, 1 / 2, 7 / 8] : List ℝ).countP (fun a => decide (a ≤ 1 / 4)) = 1 := by norm_num [List.countP_cons]
    simp only [continuousResampling, ha, hr, List.map_cons, List.map_nil, List.getD_cons_zero, List.getD_cons_succ, hcs, Nat.cast_zero, Nat.cast_one, add_zero, div_one, interp, hc]
    norm_num [abs_of_pos]
    rw [if_neg (by linarith)]
    ring
  have h1 := tendsto_nhds_unique (hcont.tendsto.mono_left (nhdsWithin_le_nhds (s := Set.Ioi 0)))
    (tendsto_const_nhds.congr' (by filter_upwards [self_mem_nhdsWithin] with t ht; exact (hval t ht).symm))
  have h2 := tendsto_nhds_unique (hcont.tendsto.mono_left (nhdsWithin_le_nhds (s := Set.Iio 0)))
    ((((continuous_const.add continuous_id).div_const (3 : ℝ)).continuousAt.tendsto.mono_left nhdsWithin_le_nhds).congr'
      (by filter_upwards [self_mem_nhdsWithin, nhdsWithin_le_nhds (Ioi_mem_nhds (by norm_num : (-1 : ℝ) < 0))] with t ht ht'; exact (hval' t ht ht').symm))
  rw [h1] at h2
  norm_num at h2

/-- hypotheses of C175: a search routine; a density that is positive and continuous. -/
example : (∃ ss, SearchSorted ss) ∧ (∀ y a (θ : ℝ), 0 < wellPmf y a θ) ∧ Continuous fun q : ℝ × ℝ => wellPmf 3 q.2 q.1 :=
  ⟨⟨fun a v => a.countP fun x => decide (x < v), fun _ _ _ => rfl⟩, fun _ _ _ => wellPmf_pos _ _ _, continuous_wellPmf 3 continuous_snd continuous_fst⟩

/-- C175 with a positive tolerance: two particles at `±1/2`, two measurements; at `θ = 0` all weights are one half. -/
example : ContinuousAt (fun θ : ℝ => (Smc.bootstrapFilter (n := 2) (fun s (_ : Unit) => s) (fun (_ : Unit) s i => Real.exp (θ * s i)) [(), ()] (fun _ => ![1 / 2, -(1 / 2)]) ()
    (resampleConti (1 / 10) fun _ _ => 1 / 2) id fun _ m => List.replicate m ()).2) 0 :=
  (C175_conti_continuousAt (Θ := ℝ) (n := 2) (eps := 1 / 10) (by norm_num) (fun _ _ => 1 / 2) (fun _ s _ => s) (fun _ => continuous_snd) (fun θ _ x => Real.exp (θ * x))
    (fun _ => Real.continuous_exp.comp (continuous_fst.mul continuous_snd)) (fun _ _ _ => Real.exp_pos _) [(), ()] (fun _ _ => ![1 / 2, -(1 / 2)]) (fun _ => continuous_const) () id
    (fun _ m => List.replicate m ()) 0
    ⟨fun i => by norm_num, fun i => by norm_num, trivial⟩).1

end Mfs.Props

import Verif.Props.Filter1
import Verif.Lemmas.Converge

/-!
# Property C111: multi-step prediction of polynomial processes is exact
-/

namespace Mfs.Props

open Matrix Mfs.Spec Mfs.Quad1 Mfs.Filter1 Polynomial Mfs.Converge

variable {Y : Type}

/-- the rule computed from the first moments of `affPoly m s` under a functional positive on squares integrates polynomials of
degree below the number of moments as that functional. -/
theorem rule_of_squares (B : Backend) (hB : B.Valid) (L : ℝ[X] →ₗ[ℝ] ℝ) (hL1 : L 1 = 1) (ms : List ℝ)
    (hsq : ∀ q : ℝ[X], q ≠ 0 → q.natDegree < ms.length / 2 → 0 < L (q ^ 2)) (hl : 2 ≤ ms.length) (m s : ℝ) (hs : s ≠ 0)
    (hms : ∀ k < ms.length, ms.getD k 0 = L (affPoly m s ^ k)) (sort ldl : Bool) (p : ℝ[X])
    (hp : p.natDegree < 2 * (ms.length / 2)) : integ (momentQuadrature B ms m s sort ldl) (fun x => p.eval x) = L p := by
  set n := ms.length / 2 with hn
  let L' : ℝ[X] →ₗ[ℝ] ℝ := L.comp (aeval (affPoly m s)).toLinearMap
  have hL' : ∀ p, L' p = L (p.comp (affPoly m s)) := fun p => rfl
  have hms' : ∀ k < 2 * n, ms.getD k 0 = L' (X ^ k) := by
    intro k hk
    rw [hms k (by omega), hL', X_pow_comp]
  have hdegc : ∀ (q : ℝ[X]), (q.comp (affPoly m s)).natDegree ≤ q.natDegree := by
    intro q
    refine natDegree_comp_le.trans ?_
    have : (affPoly m s).natDegree ≤ 1 := by
      rw [affPoly]
      exact (natDegree_C_mul_le _ _).trans (natDegree_X_sub_C_le _)
    nlinarith
  have hpd : (hankelMat n fun k => ms.getD k 0).PosDef := by
    refine (posDef_hankel_iff L' n _ hms').2 fun q hq hdq => ?_
    rw [hL', pow_comp]
    refine hsq _ ?_ ((hdegc q).trans_lt hdq)
    intro h0
    apply hq
    have : q = (q.comp (affPoly m s)).comp (C s * X + C m) := by
      rw [comp_assoc, affPoly_comp m hs, comp_X]
    rw [this, h0, zero_comp]
  have hrep := momentQuadrature_reproduces B hB ms hpd sort ldl
  have hm0 : ms.getD 0 0 = 1 := by rw [hms 0 (by omega), pow_zero, hL1]
  rw [(C10_affine B hB ms m s sort ldl).1]
  have hd : (p.comp (C s * X + C m)).natDegree < 2 * n := by
    refine lt_of_le_of_lt natDegree_comp_le ?_
    have : (C s * X + C m : ℝ[X]).natDegree ≤ 1 := natDegree_linear_le
    nlinarith
  have h1 := hrep.poly _ hd
  rw [momFun_functional L' _ (2 * n) (fun k hk => by rw [← hms' k hk, hm0, div_one]) _ hd, hL', comp_assoc, comp_affPoly m hs,
    comp_X] at h1
  rw [← h1, integ]
  refine Finset.sum_congr rfl fun i _ => ?_
  rw [eval_comp]
  simp

/-- a run all of whose steps are known. -/
theorem run_known {S : Type} {next : S → Y → S} {lik : S → Y → ℝ} (Inv : ℕ → S → Prop) (out : ℕ → S) (c : Y → ℝ)
    (s : S) (ys : List Y) (h0 : Inv 0 s)
    (step : ∀ t < ys.length, ∀ s y, Inv t s → next s y = out t ∧ lik s y = c y) (hout : ∀ t < ys.length, Inv (t + 1) (out t)) :
    traj next s ys = (List.range ys.length).map out ∧ liks next lik s ys = ys.map c := by
  induction ys generalizing s Inv out with
  | nil => simp [traj, liks]
  | cons y ys ih =>
    obtain ⟨h1, h2⟩ := step 0 (by simp) s y h0
    obtain ⟨i1, i2⟩ := ih (fun t => Inv (t + 1)) (fun t => out (t + 1)) (out 0) (hout 0 (by simp))
      (fun t ht => step (t + 1) (by simpa using ht)) (fun t ht => hout (t + 1) (by simpa using ht))
    rw [traj, liks, h1, h2, i1, i2, List.length_cons, List.range_succ_eq_map, List.map_cons, List.map_map, List.map_cons]
    exact ⟨rfl, rfl⟩

theorem natDegree_affPoly_pow (m s : ℝ) (k : ℕ) : (affPoly m s ^ k).natDegree ≤ k := by
  refine natDegree_pow_le.trans ?_
  have : (affPoly m s).natDegree ≤ 1 := by
    rw [affPoly]
    exact (natDegree_C_mul_le _ _).trans (natDegree_X_sub_C_le _)
  nlinarith

theorem affPoly_one (m : ℝ) : affPoly m 1 = X - C m := by simp [affPoly]

theorem affPoly_zero_one : affPoly 0 1 = X := by simp [affPoly]

/-- **C111.** Let the transition map polynomials to polynomials without raising the degree (`A p` is the conditional
expectation of `p(X_k)` as a function of `X_{k-1}`; affine autoregressions with any noise, and all *polynomial processes*, are
of this kind), let `L` be the law of the initial state, and let the laws `L ∘ A^t` have positive definite Hankel matrices. If
the measurements carry no information (`p(y | x)` does not depend on `x`), the three filters given `2n` initial moments
return, after every step, exactly the true moments of the state at that time: no error accumulates over the re-quadratures.
The conditional mean and the positive conditional variance passed to the central and scaled filters are arbitrary. -/
theorem C111_polynomial_process_exact (B : Backend) (hB : B.Valid) (stable : Bool) (A : ℝ[X] →ₗ[ℝ] ℝ[X]) (hA1 : A 1 = 1)
    (hA : ∀ p, (A p).natDegree ≤ p.natDegree) (L : ℝ[X] →ₗ[ℝ] ℝ) (hL1 : L 1 = 1) (n : ℕ) (hn : 1 ≤ n) (c : Y → ℝ)
    (hc : ∀ y, 0 < c y) (pdf : Y → ℝ → ℝ) (hpdf : ∀ y x, pdf y x = c y) (ys : List Y)
    (hv : ∀ t ≤ ys.length, ∀ q : ℝ[X], q ≠ 0 → q.natDegree < n → 0 < L ((A ^ t) (q ^ 2))) :
    let M : ℕ → ℝ[X] → ℝ := fun t p => L ((A ^ (t + 1)) p)
    let nell := -((ys.map fun y => Real.log (c y)).sum)
    (∀ (P : ℝ → ℕ → ℝ) (rms0 : List ℝ), rms0.length = 2 * n → (∀ k < 2 * n, rms0.getD k 0 = L (X ^ k)) →
      (∀ x k, P x k = (A (X ^ k)).eval x) →
      filterRms B P pdf rms0 ys stable
        = ((List.range ys.length).map fun t => (List.range (2 * n)).map fun k => M t (X ^ k), nell)) ∧
    (∀ (P : ℝ → ℕ → ℝ → ℝ) (cm : ℝ → ℝ) (cms0 : List ℝ) (m0 : ℝ), cms0.length = 2 * n →
      (∀ k < 2 * n, cms0.getD k 0 = L ((X - C m0) ^ k)) → (∀ x k m, P x k m = (A ((X - C m) ^ k)).eval x) →
      filterCms B P cm pdf cms0 m0 ys stable
        = ((List.range ys.length).map fun t => ((List.range (2 * n)).map fun k => M t ((X - C (M t X)) ^ k), M t X), nell)) ∧
    (2 ≤ n → ∀ (P : ℝ → ℕ → ℝ → ℝ → ℝ) (cm cv : ℝ → ℝ) (scms0 : List ℝ) (m0 s0 : ℝ), scms0.length = 2 * n → s0 ≠ 0 →
      (∀ k < 2 * n, scms0.getD k 0 = L ((C s0⁻¹ * (X - C m0)) ^ k)) → (∀ x, 0 < cv x) →
      (∀ x k m s, P x k m s = (A ((C s⁻¹ * (X - C m)) ^ k)).eval x) →
      let sd : ℕ → ℝ := fun t => Real.sqrt (M t ((X - C (M t X)) ^ 2))
      filterScms B P cm cv pdf scms0 m0 s0 ys stable
        = ((List.range ys.length).map fun t =>
            ((List.range (2 * n)).map fun k => M t ((C (sd t)⁻¹ * (X - C (M t X))) ^ k), M t X, sd t), nell)) := by
  intro M nell
  -- the law after `t` steps
  let Lt : ℕ → ℝ[X] →ₗ[ℝ] ℝ := fun t => L.comp (A ^ t)
  have hLt : ∀ t p, Lt t p = L ((A ^ t) p) := fun _ _ => rfl
  have hM : ∀ t p, M t p = Lt (t + 1) p := fun _ _ => rfl
  have hsucc : ∀ t p, Lt t (A p) = Lt (t + 1) p := by
    intro t p
    rw [hLt, hLt, pow_succ]
    rfl
  have hone : ∀ t, Lt t 1 = 1 := by
    intro t
    induction t with
    | zero => simp [hLt, hL1]
    | succ t ih => rw [← hsucc, hA1, ih]
  have hlog : nell = -((ys.map c).map Real.log).sum := by simp only [nell, List.map_map, Function.comp_def]
  have hZ : ∀ {n : ℕ} (r : (Fin n → ℝ) × (Fin n → ℝ)) y, integ r (pdf y) = integ r (fun _ => c y) := by
    intro n r y; simp only [integ, hpdf]
  have hmul : ∀ {n : ℕ} (r : (Fin n → ℝ) × (Fin n → ℝ)) (f : ℝ → ℝ) y, integ r (fun x => f x * pdf y x) / c y = integ r f := by
    intro n r f y
    rw [div_eq_iff (hc y).ne']
    simp only [integ, hpdf, Finset.sum_mul]
    exact Finset.sum_congr rfl fun i _ => by ring
  -- a list of moments of `Lt t` in the coordinate `affPoly m s` gives the rule of `Lt t`
  have hrule : ∀ t ≤ ys.length, ∀ (ms : List ℝ) (m s : ℝ), s ≠ 0 → ms.length = 2 * n →
      (∀ k < 2 * n, ms.getD k 0 = Lt t (affPoly m s ^ k)) → ∀ p : ℝ[X], p.natDegree < 2 * n →
      integ (momentQuadrature B ms m s false stable) (fun x => p.eval x) = Lt t p := by
    intro t ht ms m s hs hl hms p hp
    have hl2 : ms.length / 2 = n := by omega
    exact rule_of_squares B hB (Lt t) (hone t) ms (by rw [hl2]; exact hv t ht) (by omega) m s hs (by rw [hl]; exact hms) false
      stable p (by omega)
  have hpredMom : ∀ t ≤ ys.length, ∀ (ms : List ℝ) (m s : ℝ), s ≠ 0 → ms.length = 2 * n →
      (∀ k < 2 * n, ms.getD k 0 = Lt t (affPoly m s ^ k)) → ∀ (m' s' : ℝ), ∀ k < 2 * n,
      integ (momentQuadrature B ms m s false stable) (fun x => (A (affPoly m' s' ^ k)).eval x) = Lt (t + 1) (affPoly m' s' ^ k) := by
    intro t ht ms m s hs hl hms m' s' k hk
    rw [hrule t ht ms m s hs hl hms _ (((hA _).trans (natDegree_affPoly_pow m' s' k)).trans_lt hk), hsucc]
  refine ⟨?_, ?_, ?_⟩
  · intro P rms0 hl h0 hP
    rw [filterRms_eq, hl]
    have hP' : ∀ k, (fun x => P x k) = fun x => (A (affPoly 0 1 ^ k)).eval x := fun k => by
      funext x; rw [hP, affPoly_zero_one]
    have key := run_known (next := nextRms B stable P pdf (2 * n)) (lik := likRms B stable P pdf (2 * n))
      (fun t s => s.length = 2 * n ∧ ∀ k < 2 * n, s.getD k 0 = Lt t (affPoly 0 1 ^ k))
      (fun t => (List.range (2 * n)).map fun k => M t (X ^ k)) c rms0 ys
      ⟨hl, fun k hk => by rw [h0 k hk, affPoly_zero_one]; simp [hLt]⟩ ?_ ?_
    · rw [key.1, key.2, hlog]
    · rintro t ht s y ⟨hsl, hs⟩
      have hpl : (predRms B stable P (2 * n) s).length = 2 * n := by simp [predRms]
      have hpm : ∀ k < 2 * n, (predRms B stable P (2 * n) s).getD k 0 = Lt (t + 1) (affPoly 0 1 ^ k) := by
        intro k hk
        rw [predRms, getD_map_range _ hk, hP']
        exact hpredMom t ht.le s 0 1 one_ne_zero hsl hs 0 1 k hk
      have hlik : likRms B stable P pdf (2 * n) s y = c y := by
        rw [likRms, hZ, integ_const B hB _ (by omega)]
      refine ⟨?_, hlik⟩
      rw [nextRms]
      refine List.map_congr_left fun k hk => ?_
      have hk := List.mem_range.1 hk
      rw [hlik, hmul, hM, ← hrule (t + 1) ht _ 0 1 one_ne_zero hpl hpm (X ^ k) (by rw [natDegree_X_pow]; exact hk)]
      simp only [eval_pow, eval_X]
    · intro t ht
      refine ⟨by simp, fun k hk => ?_⟩
      rw [getD_map_range _ hk, hM, affPoly_zero_one]
  · intro P cm cms0 m0 hl h0 hP
    rw [filterCms_eq, hl]
    have hP' : ∀ k m, (fun x => P x k m) = fun x => (A (affPoly m 1 ^ k)).eval x := fun k m => by
      funext x; rw [hP, affPoly_one]
    have key := run_known (next := nextCms B stable P cm pdf (2 * n)) (lik := likCms B stable P cm pdf (2 * n))
      (fun t s => s.1.length = 2 * n ∧ ∀ k < 2 * n, s.1.getD k 0 = Lt t (affPoly s.2 1 ^ k))
      (fun t => ((List.range (2 * n)).map fun k => M t ((X - C (M t X)) ^ k), M t X)) c (cms0, m0) ys
      ⟨hl, fun k hk => by simp only [h0 k hk, affPoly_one]; simp [hLt]⟩ ?_ ?_
    · rw [key.1, key.2, hlog]
    · rintro t ht s y ⟨hsl, hs⟩
      set pr := predCms B stable P cm (2 * n) s with hpr
      have hpl : pr.1.length = 2 * n := by simp [hpr, predCms]
      have hpm : ∀ k < 2 * n, pr.1.getD k 0 = Lt (t + 1) (affPoly pr.2 1 ^ k) := by
        intro k hk
        have : pr.1.getD k 0 = integ (momentQuadrature B s.1 s.2 1 false stable) fun x => P x k pr.2 := getD_map_range _ hk
        rw [this, hP']
        exact hpredMom t ht.le s.1 s.2 1 one_ne_zero hsl hs pr.2 1 k hk
      have hr := hrule (t + 1) ht pr.1 pr.2 1 one_ne_zero hpl hpm
      have hlik : likCms B stable P cm pdf (2 * n) s y = c y := by
        have : likCms B stable P cm pdf (2 * n) s y = integ (momentQuadrature B pr.1 pr.2 1 false stable) (pdf y) := rfl
        rw [this, hZ, integ_const B hB _ (by omega)]
      refine ⟨?_, hlik⟩
      set nx := nextCms B stable P cm pdf (2 * n) s y with hnx
      have hm : nx.2 = M t X := by
        have : nx.2 = integ (momentQuadrature B pr.1 pr.2 1 false stable) (fun x => (x - 0) ^ 1 * pdf y x)
          / likCms B stable P cm pdf (2 * n) s y := rfl
        rw [this, hlik, hmul, hM, ← hr X (by rw [natDegree_X]; omega)]
        simp only [sub_zero, pow_one, eval_X]
      have hlist : nx.1 = (List.range (2 * n)).map fun k => integ (momentQuadrature B pr.1 pr.2 1 false stable)
          (fun x => (x - nx.2) ^ k * pdf y x) / likCms B stable P cm pdf (2 * n) s y := rfl
      refine Prod.ext ?_ hm
      simp only
      rw [hlist]
      refine List.map_congr_left fun k hk => ?_
      have hk := List.mem_range.1 hk
      rw [hlik, hmul, hM, ← hr ((X - C (M t X)) ^ k) (by rw [natDegree_pow, natDegree_X_sub_C]; omega), hm]
      simp only [eval_pow, eval_X, eval_sub, eval_C]
    · intro t ht
      refine ⟨by simp, fun k hk => ?_⟩
      simp only
      rw [getD_map_range _ hk, hM, affPoly_one]
  · intro hn2 P cm cv scms0 m0 s0 hl hs0 h0 hcv hP sd
    rw [filterScms_eq, hl]
    have hP' : ∀ k m s, (fun x => P x k m s) = fun x => (A (affPoly m s ^ k)).eval x := fun k m s => by
      funext x; rw [hP, affPoly]
    have hvarpos : ∀ t < ys.length, 0 < M t ((X - C (M t X)) ^ 2) := fun t ht =>
      hv (t + 1) ht (X - C (M t X)) (X_sub_C_ne_zero _) (by rw [natDegree_X_sub_C]; omega)
    have key := run_known (next := nextScms B stable P cm cv pdf (2 * n)) (lik := likScms B stable P cm cv pdf (2 * n))
      (fun t s => s.1.length = 2 * n ∧ s.2.2 ≠ 0 ∧ ∀ k < 2 * n, s.1.getD k 0 = Lt t (affPoly s.2.1 s.2.2 ^ k))
      (fun t => ((List.range (2 * n)).map fun k => M t ((C (sd t)⁻¹ * (X - C (M t X))) ^ k), M t X, sd t)) c (scms0, m0, s0) ys
      ⟨hl, hs0, fun k hk => by simp only [h0 k hk]; simp [hLt, affPoly]⟩ ?_ ?_
    · rw [key.1, key.2, hlog]
    · rintro t ht s y ⟨hsl, hs1, hs⟩
      set pr := predScms B stable P cm cv (2 * n) s with hpr
      have hpl : pr.1.length = 2 * n := by simp [hpr, predScms]
      have hsc : pr.2.2 ≠ 0 := by
        have e : pr.2.2 = Real.sqrt (integ (momentQuadrature B s.1 s.2.1 s.2.2 false stable) cv) := rfl
        rw [e, Real.sqrt_ne_zero']
        have hw := C09_weights_probability B hB s.1 (by omega) s.2.1 s.2.2 false stable
        rw [integ]
        refine lt_of_le_of_ne (Finset.sum_nonneg fun i _ => mul_nonneg (hw.1 i) (hcv _).le) ?_
        intro h0
        have h1 := (Finset.sum_eq_zero_iff_of_nonneg fun i _ => mul_nonneg (hw.1 i) (hcv _).le).1 h0.symm
        have h2 : ∑ i, (momentQuadrature B s.1 s.2.1 s.2.2 false stable).1 i = 0 := by
          refine Finset.sum_eq_zero fun i hi => ?_
          rcases mul_eq_zero.1 (h1 i hi) with h3 | h3
          · exact h3
          · exact absurd h3 (hcv _).ne'
        rw [hw.2] at h2
        exact one_ne_zero h2
      have hpm : ∀ k < 2 * n, pr.1.getD k 0 = Lt (t + 1) (affPoly pr.2.1 pr.2.2 ^ k) := by
        intro k hk
        have : pr.1.getD k 0 = integ (momentQuadrature B s.1 s.2.1 s.2.2 false stable) fun x => P x k pr.2.1 pr.2.2 :=
          getD_map_range _ hk
        rw [this, hP']
        exact hpredMom t ht.le s.1 s.2.1 s.2.2 hs1 hsl hs pr.2.1 pr.2.2 k hk
      have hr := hrule (t + 1) ht pr.1 pr.2.1 pr.2.2 hsc hpl hpm
      have hlik : likScms B stable P cm cv pdf (2 * n) s y = c y := by
        have : likScms B stable P cm cv pdf (2 * n) s y
          = integ (momentQuadrature B pr.1 pr.2.1 pr.2.2 false stable) (pdf y) := rfl
        rw [this, hZ, integ_const B hB _ (by omega)]
      refine ⟨?_, hlik⟩
      set nx := nextScms B stable P cm cv pdf (2 * n) s y with hnx
      have hm : nx.2.1 = M t X := by
        have : nx.2.1 = integ (momentQuadrature B pr.1 pr.2.1 pr.2.2 false stable) (fun x => ((x - 0) / 1) ^ 1 * pdf y x)
          / likScms B stable P cm cv pdf (2 * n) s y := rfl
        rw [this, hlik, hmul, hM, ← hr X (by rw [natDegree_X]; omega)]
        simp only [sub_zero, div_one, pow_one, eval_X]
      have hs2 : nx.2.2 = sd t := by
        have : nx.2.2 = Real.sqrt (integ (momentQuadrature B pr.1 pr.2.1 pr.2.2 false stable)
          (fun x => ((x - nx.2.1) / 1) ^ 2 * pdf y x) / likScms B stable P cm cv pdf (2 * n) s y) := rfl
        rw [this, hlik, hmul, hm]
        simp only [sd]
        rw [hM t ((X - C (M t X)) ^ 2), ← hr ((X - C (M t X)) ^ 2) (by rw [natDegree_pow, natDegree_X_sub_C]; omega)]
        simp only [div_one, eval_pow, eval_X, eval_sub, eval_C]
      have hlist : nx.1 = (List.range (2 * n)).map fun k => integ (momentQuadrature B pr.1 pr.2.1 pr.2.2 false stable)
          (fun x => ((x - nx.2.1) / nx.2.2) ^ k * pdf y x) / likScms B stable P cm cv pdf (2 * n) s y := rfl
      refine Prod.ext ?_ (Prod.ext hm hs2)
      simp only
      rw [hlist]
      refine List.map_congr_left fun k hk => ?_
      have hk := List.mem_range.1 hk
      have hd := natDegree_affPoly_pow (M t X) (sd t) k
      rw [hlik, hmul, hM t ((C (sd t)⁻¹ * (X - C (M t X))) ^ k), ← affPoly, ← hr _ (hd.trans_lt hk), hm, hs2]
      simp only [eval_pow, affPoly_eval]
    · intro t ht
      refine ⟨by simp, (Real.sqrt_pos.2 (hvarpos t ht)).ne', fun k hk => ?_⟩
      simp only
      rw [getD_map_range _ hk, hM, affPoly]

/-- a process meeting the hypotheses: `X_k = X_{k-1} / 2 ± 1/2` with a fair sign, started from a fair `±1`, and `n = 2`. -/
example : ∃ (A : ℝ[X] →ₗ[ℝ] ℝ[X]) (L : ℝ[X] →ₗ[ℝ] ℝ),
    (∀ p x, (A p).eval x = (p.eval (x / 2 + 1 / 2) + p.eval (x / 2 - 1 / 2)) / 2) ∧
    (∀ p, L p = (p.eval 1 + p.eval (-1)) / 2) ∧ A 1 = 1 ∧ (∀ p, (A p).natDegree ≤ p.natDegree) ∧ L 1 = 1 ∧
    ∀ t, ∀ q : ℝ[X], q ≠ 0 → q.natDegree < 2 → 0 < L ((A ^ t) (q ^ 2)) := by
  let A : ℝ[X] →ₗ[ℝ] ℝ[X] := (1 / 2 : ℝ) • ((aeval (C (1 / 2) * X + C (1 / 2))).toLinearMap
    + (aeval (C (1 / 2) * X + C (-1 / 2))).toLinearMap)
  let L : ℝ[X] →ₗ[ℝ] ℝ := (1 / 2 : ℝ) • (leval 1 + leval (-1))
  have hAdef : ∀ p, A p = (1 / 2 : ℝ) • (p.comp (C (1 / 2) * X + C (1 / 2)) + p.comp (C (1 / 2) * X + C (-1 / 2))) :=
    fun p => rfl
  have hLdef : ∀ p, L p = (1 / 2 : ℝ) * (p.eval 1 + p.eval (-1)) := fun p => rfl
  have hA1 : A 1 = 1 := by
    rw [hAdef]
    simp only [one_comp]
    rw [← two_smul ℝ (1 : ℝ[X]), smul_smul]; norm_num
  have hev : ∀ p x, (A p).eval x = (p.eval (x / 2 + 1 / 2) + p.eval (x / 2 - 1 / 2)) / 2 := by
    intro p x
    rw [hAdef]
    simp only [eval_smul, eval_add, eval_comp, eval_mul, eval_C, eval_X, smul_eq_mul]
    rw [show 1 / 2 * x + 1 / 2 = x / 2 + 1 / 2 by ring, show 1 / 2 * x + -1 / 2 = x / 2 - 1 / 2 by ring]
    ring
  have hAX : A X = C (1 / 2) * X := by
    apply Polynomial.funext
    intro x
    rw [hev]; simp only [eval_X, eval_mul, eval_C]; ring
  have hAX2 : A (X ^ 2) = C (1 / 4) * X ^ 2 + C (1 / 4) * 1 := by
    apply Polynomial.funext
    intro x
    rw [hev]; simp only [eval_X, eval_mul, eval_C, eval_pow, eval_add, eval_one]; ring
  refine ⟨A, L, hev, fun p => by rw [hLdef]; ring, hA1, ?_, by rw [hLdef]; norm_num, ?_⟩
  · intro p
    rw [hAdef]
    refine (natDegree_smul_le _ _).trans ((natDegree_add_le _ _).trans (max_le ?_ ?_)) <;>
    · refine natDegree_comp_le.trans ?_
      have := natDegree_linear_le (a := (1 / 2 : ℝ)) (b := (1 / 2 : ℝ))
      have := natDegree_linear_le (a := (1 / 2 : ℝ)) (b := (-1 / 2 : ℝ))
      nlinarith
  · intro t q hq hd
    have key : L ((A ^ t) 1) = 1 ∧ L ((A ^ t) X) = 0 ∧ 0 < L ((A ^ t) (X ^ 2)) := by
      induction t with
      | zero => simp [hLdef]; norm_num
      | succ t ih =>
        obtain ⟨i0, i1, i2⟩ := ih
        have e : ∀ p, (A ^ (t + 1)) p = (A ^ t) (A p) := fun p => by rw [pow_succ]; rfl
        refine ⟨by rw [e, hA1, i0], ?_, ?_⟩
        · rw [e, hAX, ← smul_eq_C_mul, map_smul, map_smul, i1, smul_zero]
        · rw [e, hAX2, ← smul_eq_C_mul, ← smul_eq_C_mul, map_add, map_add, map_smul, map_smul, map_smul, map_smul, i0,
            smul_eq_mul, smul_eq_mul]
          linarith
    obtain ⟨i0, i1, i2⟩ := key
    obtain ⟨a, b, rfl⟩ := exists_eq_X_add_C_of_natDegree_le_one (p := q) (by omega)
    have hsq : (C a * X + C b : ℝ[X]) ^ 2 = (a ^ 2) • X ^ 2 + (2 * a * b) • X + (b ^ 2) • 1 := by
      simp only [smul_eq_C_mul, C_mul, C_pow, C_ofNat]; ring
    rw [hsq]
    simp only [map_add, map_smul, smul_eq_mul, i0, i1, mul_zero, add_zero, mul_one]
    by_cases ha : a = 0
    · have hb : b ≠ 0 := by rintro rfl; subst ha; simp at hq
      subst ha; positivity
    · have := mul_pos (sq_pos_of_ne_zero ha) i2
      positivity

end Mfs.Props

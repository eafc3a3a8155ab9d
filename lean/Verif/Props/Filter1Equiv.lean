import Verif.Props.Filter1
import Verif.Lemmas.Functional

/-!
# Properties C27 and C33: the three one-dimensional filters compared
-/

namespace Mfs.Props

open Matrix Mfs.Spec Mfs.Quad1 Mfs.Filter1 Polynomial

variable {Y : Type}

/-! ## C27 -/

/-- the raw moments `r`, the central moments `c.1` about the mean `c.2`, and the scaled moments `s.1` with mean `s.2.1`
and scale `s.2.2` are the first `n` moments of one and the same law `L` (a linear functional on polynomials). -/
structure SameLaw (n : ℕ) (L : ℝ[X] →ₗ[ℝ] ℝ) (r : List ℝ) (c : List ℝ × ℝ) (s : List ℝ × ℝ × ℝ) : Prop where
  one : L 1 = 1
  len_raw : r.length = n
  len_central : c.1.length = n
  len_scaled : s.1.length = n
  mean_eq : s.2.1 = c.2
  scale_ne : s.2.2 ≠ 0
  raw : ∀ k < n, r.getD k 0 = L (X ^ k)
  central : ∀ k < n, c.1.getD k 0 = L ((X - C c.2) ^ k)
  scaled : ∀ k < n, s.1.getD k 0 = L ((C s.2.2⁻¹ * (X - C c.2)) ^ k)

theorem SameLaw.rule {n : ℕ} {L : ℝ[X] →ₗ[ℝ] ℝ} {r : List ℝ} {c : List ℝ × ℝ} {s : List ℝ × ℝ × ℝ}
    (h : SameLaw n L r c s) (B : Backend) (hB : B.Valid) (hpd : (gramOf r).PosDef) (l₁ l₂ l₃ : Bool) (f : ℝ → ℝ) :
    integ (momentQuadrature B c.1 c.2 1 false l₂) f = integ (momentQuadrature B r 0 1 false l₁) f ∧
    integ (momentQuadrature B s.1 s.2.1 s.2.2 false l₃) f = integ (momentQuadrature B r 0 1 false l₁) f := by
  have := C11_raw_central_scaled B hB L h.one r c.1 s.1 c.2 s.2.2 h.scale_ne (by rw [h.len_central, h.len_raw])
    (by rw [h.len_scaled, h.len_raw]) (by rw [h.len_raw]; exact h.raw) (by rw [h.len_raw]; exact h.central)
    (by rw [h.len_raw]; exact h.scaled) hpd false false false l₁ l₂ l₃ f
  rw [h.mean_eq]
  exact ⟨this.1.symm, this.2.symm⟩

/-- the law obtained by averaging the conditional laws `E x` over a rule. -/
noncomputable def mixLaw {n : ℕ} (r : (Fin n → ℝ) × (Fin n → ℝ)) (E : ℝ → ℝ[X] →ₗ[ℝ] ℝ) : ℝ[X] →ₗ[ℝ] ℝ :=
  ∑ i, r.1 i • E (r.2 i)

theorem mixLaw_apply {n : ℕ} (r : (Fin n → ℝ) × (Fin n → ℝ)) (E : ℝ → ℝ[X] →ₗ[ℝ] ℝ) (p : ℝ[X]) :
    mixLaw r E p = integ r (fun x => E x p) := by
  simp [mixLaw, integ, LinearMap.sum_apply]

/-- the law with weights proportional to `r.1 i * g (r.2 i)`. -/
noncomputable def postLaw {n : ℕ} (r : (Fin n → ℝ) × (Fin n → ℝ)) (g : ℝ → ℝ) (Z : ℝ) : ℝ[X] →ₗ[ℝ] ℝ :=
  Z⁻¹ • ∑ i, (r.1 i * g (r.2 i)) • Polynomial.leval (r.2 i)

theorem postLaw_apply {n : ℕ} (r : (Fin n → ℝ) × (Fin n → ℝ)) (g : ℝ → ℝ) (Z : ℝ) (p : ℝ[X]) :
    postLaw r g Z p = integ r (fun x => p.eval x * g x) / Z := by
  simp only [postLaw, integ, LinearMap.smul_apply, LinearMap.sum_apply, smul_eq_mul, leval_apply, div_eq_inv_mul]
  congr 1
  exact Finset.sum_congr rfl fun i _ => by ring

section

variable (B : Backend) (E : ℝ → ℝ[X] →ₗ[ℝ] ℝ) (cv : ℝ → ℝ) (pdf : Y → ℝ → ℝ)

/-- conditional moments of the transition law `E`, in the three forms the filters ask for. -/
noncomputable def rawOf : ℝ → ℕ → ℝ := fun x k => E x (X ^ k)
noncomputable def centralOf : ℝ → ℕ → ℝ → ℝ := fun x k m => E x ((X - C m) ^ k)
noncomputable def scaledOf : ℝ → ℕ → ℝ → ℝ → ℝ := fun x k m s => E x ((C s⁻¹ * (X - C m)) ^ k)
noncomputable def meanOf : ℝ → ℝ := fun x => E x X

variable {B E cv pdf}

theorem SameLaw.predict {n : ℕ} {L : ℝ[X] →ₗ[ℝ] ℝ} {r : List ℝ} {c : List ℝ × ℝ} {s : List ℝ × ℝ × ℝ}
    (h : SameLaw n L r c s) (hn : 2 ≤ n) (hB : B.Valid) (hE : ∀ x, E x 1 = 1) (hcv : ∀ x, 0 < cv x)
    (hpd : (gramOf r).PosDef) (l₁ l₂ l₃ : Bool) :
    SameLaw n (mixLaw (momentQuadrature B r 0 1 false l₁) E) (predRms B l₁ (rawOf E) n r)
      (predCms B l₂ (centralOf E) (meanOf E) n c) (predScms B l₃ (scaledOf E) (meanOf E) cv n s) := by
  have hr := h.rule B hB hpd l₁ l₂ l₃
  have hmean : integ (momentQuadrature B s.1 s.2.1 s.2.2 false l₃) (meanOf E)
      = integ (momentQuadrature B c.1 c.2 1 false l₂) (meanOf E) := by rw [(hr _).1, (hr _).2]
  refine ⟨?_, by simp [predRms], by simp [predCms], by simp [predScms], hmean, ?_, ?_, ?_, ?_⟩
  · rw [mixLaw_apply]
    simp only [hE]
    exact integ_const B hB r (by rw [h.len_raw]; exact hn) _ _ _ _ _
  · simp only [predScms]
    rw [Real.sqrt_ne_zero']
    have hw := C09_weights_probability B hB s.1 (by rw [h.len_scaled]; exact hn) s.2.1 s.2.2 false l₃
    rw [integ]
    refine lt_of_le_of_ne (Finset.sum_nonneg fun i _ => mul_nonneg (hw.1 i) (hcv _).le) ?_
    intro h0
    have h1 := (Finset.sum_eq_zero_iff_of_nonneg fun i _ => mul_nonneg (hw.1 i) (hcv _).le).1 h0.symm
    have h2 : ∑ i, (momentQuadrature B s.1 s.2.1 s.2.2 false l₃).1 i = 0 := by
      refine Finset.sum_eq_zero fun i hi => ?_
      rcases mul_eq_zero.1 (h1 i hi) with h3 | h3
      · exact h3
      · exact absurd h3 (hcv _).ne'
    rw [hw.2] at h2
    exact one_ne_zero h2
  · intro k hk
    rw [predRms, getD_map_range _ hk, mixLaw_apply]
    rfl
  · intro k hk
    simp only [predCms]
    rw [getD_map_range _ hk, mixLaw_apply, (hr _).1]
    rfl
  · intro k hk
    simp only [predScms, predCms]
    rw [getD_map_range _ hk, mixLaw_apply, (hr _).2, hmean]
    rfl

theorem SameLaw.update {n : ℕ} {L : ℝ[X] →ₗ[ℝ] ℝ} {r : List ℝ} {c : List ℝ × ℝ} {s : List ℝ × ℝ × ℝ}
    {Pr : ℝ → ℕ → ℝ} {Pc : ℝ → ℕ → ℝ → ℝ} {Ps : ℝ → ℕ → ℝ → ℝ → ℝ} {cm : ℝ → ℝ} {l₁ l₂ l₃ : Bool}
    (h : SameLaw n L (predRms B l₁ Pr n r) (predCms B l₂ Pc cm n c) (predScms B l₃ Ps cm cv n s)) (hn : 4 ≤ n)
    (hB : B.Valid) (hpd : (gramOf (predRms B l₁ Pr n r)).PosDef) (y : Y) (hZ : likRms B l₁ Pr pdf n r y ≠ 0)
    (hpd' : (gramOf (nextRms B l₁ Pr pdf n r y)).PosDef) :
    likCms B l₂ Pc cm pdf n c y = likRms B l₁ Pr pdf n r y ∧
    likScms B l₃ Ps cm cv pdf n s y = likRms B l₁ Pr pdf n r y ∧
    ∃ L', SameLaw n L' (nextRms B l₁ Pr pdf n r y) (nextCms B l₂ Pc cm pdf n c y) (nextScms B l₃ Ps cm cv pdf n s y) ∧
      (nextCms B l₂ Pc cm pdf n c y).2 = L' X ∧ 0 < (nextScms B l₃ Ps cm cv pdf n s y).2.2 ∧
      (nextScms B l₃ Ps cm cv pdf n s y).2.2 ^ 2 = L' ((X - C (L' X)) ^ 2) := by
  have hr := h.rule B hB hpd l₁ l₂ l₃
  have hZc : likCms B l₂ Pc cm pdf n c y = likRms B l₁ Pr pdf n r y := (hr (pdf y)).1
  have hZs : likScms B l₃ Ps cm cv pdf n s y = likRms B l₁ Pr pdf n r y := (hr (pdf y)).2
  refine ⟨hZc, hZs, ?_⟩
  set Z := likRms B l₁ Pr pdf n r y with hZd
  set ru := momentQuadrature B (predRms B l₁ Pr n r) 0 1 false l₁ with hru
  set o := nextRms B l₁ Pr pdf n r y with ho
  set oc := nextCms B l₂ Pc cm pdf n c y with hoc
  set os := nextScms B l₃ Ps cm cv pdf n s y with hos
  have hraw : ∀ k < n, o.getD k 0 = postLaw ru (pdf y) Z (X ^ k) := by
    intro k hk
    rw [ho, nextRms, getD_map_range _ hk, postLaw_apply]
    simp only [eval_pow, eval_X, hru, hZd]
  have hmc : oc.2 = postLaw ru (pdf y) Z X := by
    simp only [hoc, nextCms]
    rw [(hr _).1, hZc, postLaw_apply]
    simp only [sub_zero, pow_one, eval_X, hru, hZd]
  have hms : os.2.1 = postLaw ru (pdf y) Z X := by
    simp only [hos, nextScms]
    rw [(hr _).2, hZs, postLaw_apply]
    simp only [sub_zero, pow_one, eval_X, hru, hZd, div_one]
  have hsc : os.2.2 = Real.sqrt (postLaw ru (pdf y) Z ((X - C os.2.1) ^ 2)) := by
    have : os.2.2 = Real.sqrt (integ (momentQuadrature B (predScms B l₃ Ps cm cv n s).1 (predScms B l₃ Ps cm cv n s).2.1
      (predScms B l₃ Ps cm cv n s).2.2 false l₃) (fun x => ((x - os.2.1) / 1) ^ 2 * pdf y x)
        / likScms B l₃ Ps cm cv pdf n s y) := rfl
    rw [this, (hr _).2, hZs, postLaw_apply]
    simp only [eval_pow, eval_sub, eval_X, eval_C, div_one, hru, hZd]
  have hlen : o.length = n := by simp [ho, nextRms]
  have hpos : 0 < postLaw ru (pdf y) Z ((X - C os.2.1) ^ 2) := by
    refine (posDef_hankel_iff (postLaw ru (pdf y) Z) (o.length / 2) (fun k => o.getD k 0)
      (fun k hk => hraw k (by omega))).1 hpd' (X - C os.2.1) (X_sub_C_ne_zero _) ?_
    rw [natDegree_X_sub_C, hlen]
    omega
  have hspos : 0 < os.2.2 := by rw [hsc]; exact Real.sqrt_pos.2 hpos
  refine ⟨postLaw ru (pdf y) Z, ⟨?_, hlen, by simp [hoc, nextCms], by simp [hos, nextScms], by rw [hms, hmc], hspos.ne',
    hraw, ?_, ?_⟩, hmc, hspos, ?_⟩
  · rw [postLaw_apply]
    simp only [eval_one, one_mul]
    exact div_self hZ
  · intro k hk
    have : oc.1.getD k 0 = integ (momentQuadrature B (predCms B l₂ Pc cm n c).1 (predCms B l₂ Pc cm n c).2 1 false l₂)
        (fun x => (x - oc.2) ^ k * pdf y x) / likCms B l₂ Pc cm pdf n c y := getD_map_range _ hk
    rw [this, (hr _).1, hZc, postLaw_apply]
    simp only [eval_pow, eval_sub, eval_X, eval_C, hru, hZd]
  · intro k hk
    have : os.1.getD k 0 = integ (momentQuadrature B (predScms B l₃ Ps cm cv n s).1 (predScms B l₃ Ps cm cv n s).2.1
      (predScms B l₃ Ps cm cv n s).2.2 false l₃)
        (fun x => ((x - os.2.1) / os.2.2) ^ k * pdf y x) / likScms B l₃ Ps cm cv pdf n s y := getD_map_range _ hk
    rw [this, (hr _).2, hZs, postLaw_apply, hms, ← hmc]
    simp only [eval_pow, eval_sub, eval_X, eval_C, eval_mul, div_eq_inv_mul, hru, hZd]
  · rw [hsc, Real.sq_sqrt hpos.le, hms]

variable (B E pdf)

/-- the Gram matrices met by the raw filter along a run are positive definite, and no predictive likelihood vanishes. -/
def StaysValid (stable : Bool) (n : ℕ) : List ℝ → List Y → Prop
  | r, [] => (gramOf r).PosDef
  | r, y :: ys => (gramOf r).PosDef ∧ (gramOf (predRms B stable (rawOf E) n r)).PosDef ∧
      likRms B stable (rawOf E) pdf n r y ≠ 0 ∧ StaysValid stable n (nextRms B stable (rawOf E) pdf n r y) ys

variable {B E pdf}

theorem StaysValid.head {stable : Bool} {n : ℕ} {r : List ℝ} {ys : List Y} (h : StaysValid B E pdf stable n r ys) :
    (gramOf r).PosDef := by
  cases ys with
  | nil => exact h
  | cons y ys => exact h.1

/-- **C27.** Let the transition law be given by `E x` (`E x p` is the conditional expectation of `p(X_k)` given
`X_{k-1} = x`) and let the initial raw, central and scaled moments be those of one law. As long as the Gram matrices of
the raw filter stay positive definite (and likelihoods non-zero), the three filters return the same negative
log-likelihood and, at each step, the raw, central and scaled moments of one and the same law; the returned mean is the
mean of that law and the returned scale its standard deviation. This holds for any positive conditional variance function
passed to the scaled filter (correct or not) and any values of the `stable` options. -/
theorem C27_same_filter (hB : B.Valid) (hE : ∀ x, E x 1 = 1) (hcv : ∀ x, 0 < cv x) (l₁ l₂ l₃ : Bool)
    (rms0 cms0 scms0 : List ℝ) (m0 s0 : ℝ) (L : ℝ[X] →ₗ[ℝ] ℝ) (hn : 4 ≤ rms0.length)
    (h : SameLaw rms0.length L rms0 (cms0, m0) (scms0, m0, s0)) (ys : List Y)
    (hv : StaysValid B E pdf l₁ rms0.length rms0 ys) :
    let a := filterRms B (rawOf E) pdf rms0 ys l₁
    let b := filterCms B (centralOf E) (meanOf E) pdf cms0 m0 ys l₂
    let c := filterScms B (scaledOf E) (meanOf E) cv pdf scms0 m0 s0 ys l₃
    b.2 = a.2 ∧ c.2 = a.2 ∧ a.1.length = ys.length ∧ b.1.length = ys.length ∧ c.1.length = ys.length ∧
    ∀ (k : ℕ) r ce sc, a.1[k]? = some r → b.1[k]? = some ce → c.1[k]? = some sc →
      ∃ L', SameLaw rms0.length L' r ce sc ∧ ce.2 = L' X ∧ 0 < sc.2.2 ∧ sc.2.2 ^ 2 = L' ((X - C (L' X)) ^ 2) := by
  simp only [filterRms_eq, filterCms_eq, filterScms_eq, length_traj, true_and]
  have hc : cms0.length = rms0.length := h.len_central
  have hs : scms0.length = rms0.length := h.len_scaled
  rw [hc, hs]
  generalize rms0.length = n at *
  generalize (cms0, m0) = c0 at *
  generalize (scms0, m0, s0) = sc0 at *
  clear hc hs
  suffices H : liks (nextCms B l₂ (centralOf E) (meanOf E) pdf n) (likCms B l₂ (centralOf E) (meanOf E) pdf n) c0 ys
        = liks (nextRms B l₁ (rawOf E) pdf n) (likRms B l₁ (rawOf E) pdf n) rms0 ys ∧
      liks (nextScms B l₃ (scaledOf E) (meanOf E) cv pdf n) (likScms B l₃ (scaledOf E) (meanOf E) cv pdf n) sc0 ys
        = liks (nextRms B l₁ (rawOf E) pdf n) (likRms B l₁ (rawOf E) pdf n) rms0 ys ∧
      ∀ (k : ℕ) r ce sc, (traj (nextRms B l₁ (rawOf E) pdf n) rms0 ys)[k]? = some r →
        (traj (nextCms B l₂ (centralOf E) (meanOf E) pdf n) c0 ys)[k]? = some ce →
        (traj (nextScms B l₃ (scaledOf E) (meanOf E) cv pdf n) sc0 ys)[k]? = some sc →
        ∃ L', SameLaw n L' r ce sc ∧ ce.2 = L' X ∧ 0 < sc.2.2 ∧ sc.2.2 ^ 2 = L' ((X - C (L' X)) ^ 2) by
    rw [H.1, H.2.1]
    exact ⟨rfl, rfl, H.2.2⟩
  induction ys generalizing rms0 c0 sc0 L with
  | nil => simp [liks, traj]
  | cons y ys ih =>
    obtain ⟨h1, h2, h3, h4⟩ := hv
    obtain ⟨e1, e2, L', hL', e3, e4, e5⟩ := (h.predict (by omega) hB hE hcv h1 l₁ l₂ l₃).update hn hB h2 y h3 h4.head
    obtain ⟨i1, i2, i3⟩ := ih _ _ h4 _ _ hL'
    refine ⟨?_, ?_, ?_⟩
    · rw [liks, liks, i1, e1]
    · rw [liks, liks, i2, e2]
    · intro k r ce sc hr hce hsc
      cases k with
      | zero =>
        simp only [traj, List.getElem?_cons_zero, Option.some.injEq] at hr hce hsc
        subst hr hce hsc
        exact ⟨L', hL', e3, e4, e5⟩
      | succ k =>
        simp only [traj, List.getElem?_cons_succ] at hr hce hsc
        exact i3 k r ce sc hr hce hsc

theorem gramOf_posDef_of_atoms {m : ℕ} (p x : Fin m → ℝ) (hp : ∀ i, 0 < p i) (hx : Function.Injective x) (ms : List ℝ)
    (hm : ms.length / 2 = m) (h : ∀ k < ms.length, ms.getD k 0 = ∑ i, p i * x i ^ k) : (gramOf ms).PosDef := by
  subst hm
  exact (C16_discrete_recovery theBackend theBackend_valid ms p x hp hx h false false).1

/-- a positive measurement density keeps the posterior Gram matrix positive definite. -/
theorem next_posDef (hB : B.Valid) {P : ℝ → ℕ → ℝ} {stable : Bool} {n : ℕ} (hn : 2 ≤ n) {r : List ℝ}
    (hpd : (gramOf (predRms B stable P n r)).PosDef) (y : Y) (hpdf : ∀ x, 0 < pdf y x) :
    0 < likRms B stable P pdf n r y ∧ (gramOf (nextRms B stable P pdf n r y)).PosDef := by
  have hlen : (predRms B stable P n r).length = n := by simp [predRms]
  have hrep := momentQuadrature_reproduces B hB _ hpd false stable
  have hw := hrep.weight_pos (posDef_normalised _ hpd)
  have hinj := hrep.injective (posDef_normalised _ hpd)
  have hZ : 0 < likRms B stable P pdf n r y := by
    rw [likRms, integ]
    have : Nonempty (Fin ((predRms B stable P n r).length / 2)) := ⟨⟨0, by omega⟩⟩
    exact Finset.sum_pos (fun i _ => mul_pos (hw i) (hpdf _)) Finset.univ_nonempty
  refine ⟨hZ, ?_⟩
  refine gramOf_posDef_of_atoms (fun i => (momentQuadrature B (predRms B stable P n r) 0 1 false stable).1 i
    * pdf y ((momentQuadrature B (predRms B stable P n r) 0 1 false stable).2 i) / likRms B stable P pdf n r y) _ ?_ hinj
    _ ?_ ?_
  · intro i
    exact div_pos (mul_pos (hw i) (hpdf _)) hZ
  · simp [nextRms, predRms]
  · intro k hk
    have hk' : k < n := by simpa [nextRms] using hk
    rw [nextRms, getD_map_range _ hk', integ, Finset.sum_div]
    exact Finset.sum_congr rfl fun i _ => by ring

variable (B E pdf)

/-- the *predicted* Gram matrices along a run of the raw filter are positive definite. -/
def PredictionsValid (stable : Bool) (n : ℕ) : List ℝ → List Y → Prop
  | _, [] => True
  | r, y :: ys => (gramOf (predRms B stable (rawOf E) n r)).PosDef ∧
      PredictionsValid stable n (nextRms B stable (rawOf E) pdf n r y) ys

variable {B E pdf}

theorem staysValid_of_pos (hB : B.Valid) {stable : Bool} {n : ℕ} (hn : 2 ≤ n) (hpdf : ∀ (y : Y) x, 0 < pdf y x)
    {r : List ℝ} {ys : List Y} (h0 : (gramOf r).PosDef) (h : PredictionsValid B E pdf stable n r ys) :
    StaysValid B E pdf stable n r ys := by
  induction ys generalizing r with
  | nil => exact h0
  | cons y ys ih =>
    obtain ⟨h1, h2⟩ := next_posDef hB hn h.1 y (hpdf y)
    exact ⟨h0, h.1, h1.ne', ih h2 h.2⟩

/-- **C27, positive densities.** If the measurement density is positive everywhere, the hypothesis of C27 on the run
reduces to the predicted Gram matrices being positive definite: updates preserve validity. -/
theorem C27_same_filter_pos (hB : B.Valid) (hE : ∀ x, E x 1 = 1) (hcv : ∀ x, 0 < cv x) (l₁ l₂ l₃ : Bool)
    (rms0 cms0 scms0 : List ℝ) (m0 s0 : ℝ) (L : ℝ[X] →ₗ[ℝ] ℝ) (hn : 4 ≤ rms0.length)
    (h : SameLaw rms0.length L rms0 (cms0, m0) (scms0, m0, s0)) (ys : List Y) (hpdf : ∀ (y : Y) x, 0 < pdf y x)
    (h0 : (gramOf rms0).PosDef) (hv : PredictionsValid B E pdf l₁ rms0.length rms0 ys) :
    let a := filterRms B (rawOf E) pdf rms0 ys l₁
    let b := filterCms B (centralOf E) (meanOf E) pdf cms0 m0 ys l₂
    let c := filterScms B (scaledOf E) (meanOf E) cv pdf scms0 m0 s0 ys l₃
    b.2 = a.2 ∧ c.2 = a.2 ∧ a.1.length = ys.length ∧ b.1.length = ys.length ∧ c.1.length = ys.length ∧
    ∀ (k : ℕ) r ce sc, a.1[k]? = some r → b.1[k]? = some ce → c.1[k]? = some sc →
      ∃ L', SameLaw rms0.length L' r ce sc ∧ ce.2 = L' X ∧ 0 < sc.2.2 ∧ sc.2.2 ^ 2 = L' ((X - C (L' X)) ^ 2) :=
  C27_same_filter hB hE hcv l₁ l₂ l₃ rms0 cms0 scms0 m0 s0 L hn h ys (staysValid_of_pos hB (by omega) hpdf h0 hv)

end

/-- a run meeting the hypotheses of C27: a state that does not move, observed once with a positive density. -/
example : SameLaw 4 (postLaw (n := 2) (![1 / 2, 1 / 2], ![-1, 1]) (fun _ => 1) 1) [1, 0, 1, 0] ([1, 0, 1, 0], 0)
      ([1, 0, 1 / 4, 0], 0, 2) ∧ (gramOf [1, 0, 1, 0]).PosDef ∧ (∀ x, (Polynomial.leval x : ℝ[X] →ₗ[ℝ] ℝ) 1 = 1) ∧
    PredictionsValid theBackend (fun x => Polynomial.leval x) (fun (y x : ℝ) => Real.exp (-(y - x) ^ 2)) false 4
      [1, 0, 1, 0] [3] := by
  refine ⟨⟨?_, rfl, rfl, rfl, rfl, by norm_num, ?_, ?_, ?_⟩, gramOf_example, by simp, ?_, trivial⟩
  · rw [postLaw_apply]; norm_num [integ, Fin.sum_univ_two]
  · intro k hk
    interval_cases k <;> rw [postLaw_apply] <;> norm_num [integ, Fin.sum_univ_two]
  · intro k hk
    interval_cases k <;> rw [postLaw_apply] <;> norm_num [integ, Fin.sum_univ_two]
  · intro k hk
    interval_cases k <;> rw [postLaw_apply] <;> norm_num [integ, Fin.sum_univ_two]
  · have := predRms_identity theBackend theBackend_valid false [1, 0, 1, 0] gramOf_example rfl rfl
    simp only [List.length_cons, List.length_nil] at this
    have h2 : (rawOf fun x => (Polynomial.leval x : ℝ[X] →ₗ[ℝ] ℝ)) = fun x k => x ^ k := by
      funext x k; simp [rawOf]
    rw [h2, this]
    exact gramOf_example

/-! ## C33 -/

/-- the conditional variance of the transition law. -/
noncomputable def varOf (E : ℝ → ℝ[X] →ₗ[ℝ] ℝ) : ℝ → ℝ := fun x => E x ((X - C (meanOf E x)) ^ 2)

/-- **C33, exact relation.** With the correct conditional mean and variance, the scale used after prediction satisfies
`scale² = Var(predicted law) - Σᵢ wᵢ (E[X | xᵢ] - mean)²`: the variance of the conditional means is left out. -/
theorem C33_predicted_scale_relation (B : Backend) (stable : Bool) (E : ℝ → ℝ[X] →ₗ[ℝ] ℝ)
    (hE : ∀ x, E x 1 = 1) (hv : ∀ x, 0 ≤ varOf E x) (n : ℕ) (s : List ℝ × ℝ × ℝ) :
    let r := momentQuadrature B s.1 s.2.1 s.2.2 false stable
    let q := predScms B stable (scaledOf E) (meanOf E) (varOf E) n s
    q.2.1 = mixLaw r E X ∧
    q.2.2 ^ 2 = mixLaw r E ((X - C q.2.1) ^ 2) - integ r (fun x => (meanOf E x - q.2.1) ^ 2) ∧
    (3 ≤ n → q.2.2 ≠ 0 → q.1.getD 2 0 = 1 + integ r (fun x => (meanOf E x - q.2.1) ^ 2) / q.2.2 ^ 2) := by
  intro r q
  have h1 : q.2.1 = mixLaw r E X := by rw [mixLaw_apply]; rfl
  have hnn : 0 ≤ integ r (varOf E) := Finset.sum_nonneg fun i _ => mul_nonneg (sq_nonneg _) (hv _)
  have hq : q.2.2 ^ 2 = integ r (varOf E) := Real.sq_sqrt hnn
  have hsplit : ∀ x m, E x ((X - C m) ^ 2) = varOf E x + (meanOf E x - m) ^ 2 := by
    intro x m
    have e1 : (X - C m : ℝ[X]) ^ 2 = X ^ 2 + (-2 * m) • X + (m ^ 2) • (1 : ℝ[X]) := by
      rw [smul_eq_C_mul, smul_eq_C_mul]; simp only [C_mul, C_pow, map_neg, map_ofNat]; ring
    have e2 : (X - C (meanOf E x) : ℝ[X]) ^ 2
        = X ^ 2 + (-2 * meanOf E x) • X + (meanOf E x ^ 2) • (1 : ℝ[X]) := by
      rw [smul_eq_C_mul, smul_eq_C_mul]; simp only [C_mul, C_pow, map_neg, map_ofNat]; ring
    rw [varOf, e1, e2]
    simp only [map_add, map_smul, hE, smul_eq_mul]
    have : E x X = meanOf E x := rfl
    rw [this]; ring
  have hvar : mixLaw r E ((X - C q.2.1) ^ 2) = integ r (varOf E) + integ r (fun x => (meanOf E x - q.2.1) ^ 2) := by
    rw [mixLaw_apply]
    simp only [hsplit, integ, mul_add, Finset.sum_add_distrib]
  refine ⟨h1, by rw [hvar, hq]; ring, ?_⟩
  intro hn hs
  have : q.1.getD 2 0 = integ r (fun x => E x ((C q.2.2⁻¹ * (X - C q.2.1)) ^ 2)) := getD_map_range _ (by omega)
  rw [this]
  have e : ∀ x, E x ((C q.2.2⁻¹ * (X - C q.2.1)) ^ 2) = (q.2.2 ^ 2)⁻¹ * E x ((X - C q.2.1) ^ 2) := by
    intro x
    rw [mul_pow, ← C_pow, ← smul_eq_C_mul, map_smul, smul_eq_mul, inv_pow]
  simp only [e]
  rw [integ_mul_left, ← mixLaw_apply, hvar, mul_add, ← hq, inv_mul_cancel₀ (pow_ne_zero _ hs)]
  ring

/-- **C33, what is true.** The predicted scale is the predictive standard deviation if the conditional mean takes the
same value at all nodes. Missing: the claim for other models, which is false (`C33_predicted_scale_wrong`). -/
theorem C33_predicted_scale_partial (B : Backend) (hB : B.Valid) (stable : Bool) (E : ℝ → ℝ[X] →ₗ[ℝ] ℝ)
    (hE : ∀ x, E x 1 = 1) (hv : ∀ x, 0 ≤ varOf E x) (n : ℕ) (s : List ℝ × ℝ × ℝ) (hl : 2 ≤ s.1.length) (a : ℝ)
    (hc : ∀ i, meanOf E ((momentQuadrature B s.1 s.2.1 s.2.2 false stable).2 i) = a) :
    let r := momentQuadrature B s.1 s.2.1 s.2.2 false stable
    let q := predScms B stable (scaledOf E) (meanOf E) (varOf E) n s
    q.2.2 = Real.sqrt (mixLaw r E ((X - C q.2.1) ^ 2)) := by
  intro r q
  obtain ⟨_, h2, _⟩ := C33_predicted_scale_relation B stable E hE hv n s
  have hm : q.2.1 = a := by
    have : q.2.1 = integ r (fun _ => a) := by
      change integ r (meanOf E) = _
      simp only [integ]
      exact Finset.sum_congr rfl fun i _ => by rw [hc i]
    rw [this]
    exact integ_const B hB _ hl _ _ _ _ _
  have h0 : integ r (fun x => (meanOf E x - q.2.1) ^ 2) = 0 := by
    simp only [integ]
    refine Finset.sum_eq_zero fun i _ => ?_
    rw [hc i, hm]; ring
  have h3 : q.2.2 ^ 2 = mixLaw r E ((X - C q.2.1) ^ 2) := by
    have := h2
    change q.2.2 ^ 2 = mixLaw r E ((X - C q.2.1) ^ 2) - integ r (fun x => (meanOf E x - q.2.1) ^ 2) at this
    rw [this, h0, sub_zero]
  rw [← h3]
  exact (Real.sqrt_sq (Real.sqrt_nonneg _)).symm

/-- the random walk with steps `±1`. -/
noncomputable def walk (x : ℝ) : ℝ[X] →ₗ[ℝ] ℝ := (1 / 2 : ℝ) • (Polynomial.leval (x + 1) + Polynomial.leval (x - 1))

/-- **C33 (the claim is false).** For the `±1` random walk and the state with mean `0`, variance `1`: the predictive
variance is `2`, but the filter uses scale `1`, and the predicted second scaled moment is `2`, not `1`. -/
theorem C33_predicted_scale_wrong (B : Backend) (hB : B.Valid) (stable : Bool) :
    (∀ x, walk x 1 = 1) ∧ (∀ x, varOf walk x = 1) ∧
    let r := momentQuadrature B [1, 0, 1, 0] 0 1 false stable
    let q := predScms B stable (scaledOf walk) (meanOf walk) (varOf walk) 4 ([1, 0, 1, 0], 0, 1)
    mixLaw r walk ((X - C q.2.1) ^ 2) = 2 ∧ q.2.2 = 1 ∧ q.1.getD 2 0 = 2 := by
  have h1 : ∀ x, walk x 1 = 1 := by intro x; simp [walk]; norm_num
  have hm : ∀ x, meanOf walk x = x := by intro x; simp [walk, meanOf]; ring
  have hv : ∀ x, varOf walk x = 1 := by intro x; simp [walk, varOf, hm]; norm_num
  refine ⟨h1, hv, ?_⟩
  intro r q
  obtain ⟨e1, e2, e3⟩ := C33_predicted_scale_relation B stable walk h1 (fun x => by rw [hv]; norm_num) 4
    ([1, 0, 1, 0], 0, 1)
  change q.2.1 = mixLaw r walk X at e1
  change q.2.2 ^ 2 = mixLaw r walk ((X - C q.2.1) ^ 2) - integ r (fun x => (meanOf walk x - q.2.1) ^ 2) at e2
  change 3 ≤ 4 → q.2.2 ≠ 0 → q.1.getD 2 0 = 1 + integ r (fun x => (meanOf walk x - q.2.1) ^ 2) / q.2.2 ^ 2 at e3
  have hq0 : q.2.1 = 0 := by
    rw [e1, mixLaw_apply]
    have := C08_reproduces_moments B hB [1, 0, 1, 0] gramOf_example false stable 1 (by norm_num)
    simpa [pow_one, meanOf, show ∀ x, walk x X = x from hm] using this
  have hi : integ r (fun x => (meanOf walk x - q.2.1) ^ 2) = 1 := by
    have := C08_reproduces_moments B hB [1, 0, 1, 0] gramOf_example false stable 2 (by norm_num)
    simpa [hm, hq0] using this
  have hs : q.2.2 = 1 := by
    change Real.sqrt (integ r (varOf walk)) = 1
    have : varOf walk = fun _ => 1 := by funext x; exact hv x
    rw [this, integ_const B hB _ (by norm_num)]
    simp
  refine ⟨?_, hs, ?_⟩
  · rw [hi, hs] at e2
    linarith
  · rw [e3 (by norm_num) (by rw [hs]; norm_num), hi, hs]; norm_num

/-- the hypothesis of the partial theorem is met by a model with constant conditional mean: i.i.d. signs. -/
example (B : Backend) (stable : Bool) : ∀ i, meanOf (fun _ => walk 0)
    ((momentQuadrature B [1, 0, 1, 0] 0 1 false stable).2 i) = 0 := by
  intro i; simp [meanOf, walk]

end Mfs.Props

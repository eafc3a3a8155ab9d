import Verif.Lemmas.Hmm
import Verif.Props.Filter1

/-!
# Property C97: on a finite state space the moment filters are the exact Bayes filter
-/

namespace Mfs.Props

open Matrix Mfs.Spec Mfs.Quad1 Mfs.Filter1

variable {Y : Type}

/-- the rule computed from the moments of `(X - m) / s`, where `X` has `n` atoms, integrates as the law of `X`. -/
theorem rule_of_atoms (B : Backend) (hB : B.Valid) {n : ℕ} {x : Fin n → ℝ} (hx : Function.Injective x) {p : Fin n → ℝ}
    (hp : ∀ i, 0 < p i) (hn : 0 < n) (ms : List ℝ) (hl : ms.length / 2 = n) (m s : ℝ) (hs : s ≠ 0)
    (hms : ∀ k < ms.length, ms.getD k 0 = lawE p fun i => ((x i - m) / s) ^ k) (sort ldl : Bool) (f : ℝ → ℝ) :
    integ (momentQuadrature B ms m s sort ldl) f = lawE p fun i => f (x i) := by
  subst hl
  have hne : (Finset.univ : Finset (Fin (ms.length / 2))).Nonempty := ⟨⟨0, hn⟩, Finset.mem_univ _⟩
  have hsum : 0 < ∑ i, p i := Finset.sum_pos (fun i _ => hp i) hne
  rw [(C10_affine B hB ms m s sort ldl).1]
  have h := (C16_discrete_recovery B hB ms (fun i => p i / ∑ j, p j) (fun i => (x i - m) / s)
    (fun i => div_pos (hp i) hsum) (fun i j hij => hx (by
      have := (div_left_inj' hs).1 hij
      linarith)) (fun k hk => by
        rw [hms k hk, lawE, Finset.sum_div]
        exact Finset.sum_congr rfl fun i _ => by ring) sort ldl).2 (fun y => f (s * y + m))
  rw [h, ← Finset.sum_div, div_self hsum.ne', div_one, lawE, Finset.sum_div]
  refine Finset.sum_congr rfl fun i _ => ?_
  have : s * ((x i - m) / s) + m = x i := by field_simp; ring
  simp only [this]
  ring

section step

variable {n : ℕ} {x : Fin n → ℝ} {p : Fin n → ℝ} {T : Fin n → Fin n → ℝ} {g : Fin n → ℝ}

theorem lawE_pred (hTr : ∀ i, ∑ j, T i j = 1) (f : Fin n → ℝ) :
    lawE p (fun i => ∑ j, T i j * f j) = lawE (fun j => ∑ i, p i * T i j) f := by
  have e1 : ∑ i, p i * ∑ j, T i j * f j = ∑ j, (∑ i, p i * T i j) * f j := by
    simp only [Finset.mul_sum, Finset.sum_mul]
    rw [Finset.sum_comm]
    exact Finset.sum_congr rfl fun _ _ => Finset.sum_congr rfl fun _ _ => by ring
  have e2 : ∑ j, ∑ i, p i * T i j = ∑ i, p i := by
    rw [Finset.sum_comm]
    exact Finset.sum_congr rfl fun i _ => by rw [← Finset.mul_sum, hTr, mul_one]
  rw [lawE, lawE, e1, e2]

theorem lawE_update {q : Fin n → ℝ} (hq : ∑ j, q j ≠ 0) (f : Fin n → ℝ) :
    lawE q (fun j => f j * g j) / lawE q g = lawE (fun j => q j * g j) f := by
  simp only [lawE]
  rw [div_div_div_cancel_right₀ hq]
  congr 1
  exact Finset.sum_congr rfl fun i _ => by ring

end step

/-- **C97.** Let the state take `n` values `x i`, start with positive probabilities `p`, and move with a stochastic matrix
`T` none of whose columns vanishes; let the conditional moment functions agree, at those values, with the moments of `T`,
and let the likelihood be positive at those values. Then each of the three filters, run with `2n` (or `2n + 1`) exact
initial moments, returns the exact negative logarithm of the marginal likelihood (the sum over all hidden paths), and after
every measurement the exact moments of the Bayesian posterior. The centre and scale used inside the prediction do not
matter: the central and scaled filters may be given any conditional mean and any positive conditional variance. -/
theorem C97_finite_state_exact (B : Backend) (hB : B.Valid) (stable : Bool) {n : ℕ} (x : Fin n → ℝ)
    (hx : Function.Injective x) (p : Fin n → ℝ) (hp : ∀ i, 0 < p i) (hp1 : ∑ i, p i = 1) (T : Fin n → Fin n → ℝ)
    (hT : ∀ i j, 0 ≤ T i j) (hTr : ∀ i, ∑ j, T i j = 1) (hTc : ∀ j, ∃ i, 0 < T i j) (pdf : Y → ℝ → ℝ)
    (hpdf : ∀ y j, 0 < pdf y (x j)) (ys : List Y) :
    let g : Y → Fin n → ℝ := fun y j => pdf y (x j)
    let E : ℕ → (Fin n → ℝ) → ℝ := fun t f => hmmPost p T g (ys.take (t + 1)) f
    (∀ (P : ℝ → ℕ → ℝ) (rms0 : List ℝ), rms0.length / 2 = n → (∀ k < rms0.length, rms0.getD k 0 = ∑ i, p i * x i ^ k) →
      (∀ i k, P (x i) k = ∑ j, T i j * x j ^ k) →
      (filterRms B P pdf rms0 ys stable).2 = -Real.log (hmmLik p T g ys) ∧
      ∀ (t : ℕ) o, (filterRms B P pdf rms0 ys stable).1[t]? = some o →
        o.length = rms0.length ∧ ∀ k < rms0.length, o.getD k 0 = E t fun i => x i ^ k) ∧
    (∀ (P : ℝ → ℕ → ℝ → ℝ) (cm : ℝ → ℝ) (cms0 : List ℝ) (m0 : ℝ), cms0.length / 2 = n →
      (∀ k < cms0.length, cms0.getD k 0 = ∑ i, p i * (x i - m0) ^ k) →
      (∀ i k m, P (x i) k m = ∑ j, T i j * (x j - m) ^ k) →
      (filterCms B P cm pdf cms0 m0 ys stable).2 = -Real.log (hmmLik p T g ys) ∧
      ∀ (t : ℕ) o, (filterCms B P cm pdf cms0 m0 ys stable).1[t]? = some o →
        o.1.length = cms0.length ∧ o.2 = E t x ∧ ∀ k < cms0.length, o.1.getD k 0 = E t fun i => (x i - E t x) ^ k) ∧
    (2 ≤ n → ∀ (P : ℝ → ℕ → ℝ → ℝ → ℝ) (cm cv : ℝ → ℝ) (scms0 : List ℝ) (m0 s0 : ℝ), scms0.length / 2 = n → s0 ≠ 0 →
      (∀ k < scms0.length, scms0.getD k 0 = ∑ i, p i * ((x i - m0) / s0) ^ k) →
      (∀ i k m s, P (x i) k m s = ∑ j, T i j * ((x j - m) / s) ^ k) → (∀ i, 0 < cv (x i)) →
      (filterScms B P cm cv pdf scms0 m0 s0 ys stable).2 = -Real.log (hmmLik p T g ys) ∧
      ∀ (t : ℕ) o, (filterScms B P cm cv pdf scms0 m0 s0 ys stable).1[t]? = some o →
        o.1.length = scms0.length ∧ o.2.1 = E t x ∧ 0 < o.2.2 ∧ o.2.2 ^ 2 = E t (fun i => (x i - E t x) ^ 2) ∧
        ∀ k < scms0.length, o.1.getD k 0 = E t fun i => ((x i - E t x) / o.2.2) ^ k) := by
  intro g E
  have hn : 0 < n := by
    by_contra h
    obtain rfl : n = 0 := by omega
    simp at hp1
  have hne : (Finset.univ : Finset (Fin n)).Nonempty := ⟨⟨0, hn⟩, Finset.mem_univ _⟩
  have hlaw : ∀ f : Fin n → ℝ, ∑ i, p i * f i = lawE p f := fun f => by rw [lawE, hp1, div_one]
  have hqpos : ∀ q : Fin n → ℝ, (∀ i, 0 < q i) → ∀ j, 0 < ∑ i, q i * T i j := by
    intro q hq j
    obtain ⟨i, hi⟩ := hTc j
    exact Finset.sum_pos' (fun i _ => mul_nonneg (hq i).le (hT i j)) ⟨i, Finset.mem_univ _, mul_pos (hq i) hi⟩
  have hqsum : ∀ q : Fin n → ℝ, ∑ j, ∑ i, q i * T i j = ∑ i, q i := by
    intro q
    rw [Finset.sum_comm]
    exact Finset.sum_congr rfl fun i _ => by rw [← Finset.mul_sum, hTr, mul_one]
  have hsum : ∀ q : Fin n → ℝ, (∀ i, 0 < q i) → ∑ i, q i ≠ 0 := fun q hq => (Finset.sum_pos (fun i _ => hq i) hne).ne'
  -- likelihood and posterior in terms of the predicted law
  have hlik : ∀ (q : Fin n → ℝ) (y : Y), lawE (fun j => ∑ i, q i * T i j) (g y) = (∑ j, fwd T g q y j) / ∑ j, q j := by
    intro q y; rw [lawE, hqsum]; rfl
  have hpost : ∀ (q : Fin n → ℝ) (y : Y) (f : Fin n → ℝ), (∀ i, 0 < q i) →
      lawE (fun j => ∑ i, q i * T i j) (fun j => f j * g y j) / lawE (fun j => ∑ i, q i * T i j) (g y)
        = lawE (fwd T g q y) f := fun q y f hq => lawE_update (by rw [hqsum]; exact hsum q hq) f
  refine ⟨?_, ?_, ?_⟩
  · intro P rms0 hl h0 hP
    rw [filterRms_eq]
    set N := rms0.length with hN
    have key := represents (T := T) (g := g) (next := nextRms B stable P pdf N) (lik := likRms B stable P pdf N)
      (fun s q => s.length = N ∧ ∀ k < N, s.getD k 0 = lawE q fun i => ((x i - 0) / 1) ^ k)
      (fun s q => s.length = N ∧ ∀ k < N, s.getD k 0 = lawE q fun i => x i ^ k) hn hT hTc hpdf ?_ rms0 p hp
      ⟨rfl, fun k hk => by rw [h0 k hk, hlaw]; simp⟩ ys
    · rw [hp1, div_one] at key
      refine ⟨by rw [key.1, hmmLik_eq], fun t o ho => ⟨(key.2 t o ho).1, fun k hk => ?_⟩⟩
      rw [(key.2 t o ho).2 k hk]
      simp only [E, hmmPost_eq]
    · rintro s q y hq ⟨hsl, hs⟩
      have r1 := rule_of_atoms B hB hx hq hn s (by rw [hsl, hl]) 0 1 one_ne_zero (by rw [hsl]; exact hs) false stable
      have hpl : (predRms B stable P N s).length = N := by simp [predRms]
      have r2 := rule_of_atoms B hB hx (hqpos q hq) hn (predRms B stable P N s) (by rw [hpl, hl]) 0 1 one_ne_zero
        (by
          intro k hk
          rw [hpl] at hk
          rw [predRms, getD_map_range _ hk, r1]
          simp only [hP, lawE_pred hTr, sub_zero, div_one]) false stable
      have hZ : likRms B stable P pdf N s y = lawE (fun j => ∑ i, q i * T i j) (g y) := r2 _
      have hout : ∀ k < N, (nextRms B stable P pdf N s y).getD k 0 = lawE (fwd T g q y) fun i => x i ^ k := by
        intro k hk
        rw [nextRms, getD_map_range _ hk, r2, hZ, hpost q y (fun i => x i ^ k) hq]
      refine ⟨⟨by simp [nextRms], fun k hk => by rw [hout k hk]; simp⟩, ⟨by simp [nextRms], hout⟩, by rw [hZ, hlik]⟩
  · intro P cm cms0 m0 hl h0 hP
    rw [filterCms_eq]
    set N := cms0.length with hN
    have key := represents (T := T) (g := g) (next := nextCms B stable P cm pdf N) (lik := likCms B stable P cm pdf N)
      (fun s q => s.1.length = N ∧ ∀ k < N, s.1.getD k 0 = lawE q fun i => ((x i - s.2) / 1) ^ k)
      (fun s q => s.1.length = N ∧ s.2 = lawE q x ∧ ∀ k < N, s.1.getD k 0 = lawE q fun i => (x i - lawE q x) ^ k)
      hn hT hTc hpdf ?_ (cms0, m0) p hp ⟨rfl, fun k hk => by simp only [h0 k hk, hlaw, div_one]⟩ ys
    · rw [hp1, div_one] at key
      refine ⟨by rw [key.1, hmmLik_eq], fun t o ho => ?_⟩
      simp only [E, hmmPost_eq]
      exact key.2 t o ho
    · rintro s q y hq ⟨hsl, hs⟩
      have r1 := rule_of_atoms B hB hx hq hn s.1 (by rw [hsl, hl]) s.2 1 one_ne_zero (by rw [hsl]; exact hs) false stable
      set pr := predCms B stable P cm N s with hpr
      have hpl : pr.1.length = N := by simp [hpr, predCms]
      have r2 := rule_of_atoms B hB hx (hqpos q hq) hn pr.1 (by rw [hpl, hl]) pr.2 1 one_ne_zero
        (by
          intro k hk
          rw [hpl] at hk
          have : pr.1.getD k 0 = integ (momentQuadrature B s.1 s.2 1 false stable) fun x => P x k pr.2 :=
            getD_map_range _ hk
          rw [this, r1]
          simp only [hP, lawE_pred hTr, div_one]) false stable
      have hZ : likCms B stable P cm pdf N s y = lawE (fun j => ∑ i, q i * T i j) (g y) := r2 _
      set nx := nextCms B stable P cm pdf N s y with hnx
      have hm : nx.2 = lawE (fwd T g q y) x := by
        have : nx.2 = integ (momentQuadrature B pr.1 pr.2 1 false stable) (fun x => (x - 0) ^ 1 * pdf y x)
          / likCms B stable P cm pdf N s y := rfl
        rw [this, r2, hZ]
        simp only [sub_zero, pow_one]
        exact hpost q y x hq
      have hout : ∀ k < N, nx.1.getD k 0 = lawE (fwd T g q y) fun i => (x i - lawE (fwd T g q y) x) ^ k := by
        intro k hk
        have : nx.1.getD k 0 = integ (momentQuadrature B pr.1 pr.2 1 false stable) (fun x => (x - nx.2) ^ k * pdf y x)
          / likCms B stable P cm pdf N s y := getD_map_range _ hk
        rw [this, r2, hZ, hpost q y (fun i => (x i - nx.2) ^ k) hq, hm]
      have hlen : nx.1.length = N := by simp [hnx, nextCms]
      exact ⟨⟨hlen, fun k hk => by rw [hout k hk, hm]; simp only [div_one]⟩, ⟨hlen, hm, hout⟩, by rw [hZ, hlik]⟩
  · intro hn2 P cm cv scms0 m0 s0 hl hs0 h0 hP hcv
    rw [filterScms_eq]
    set N := scms0.length with hN
    have key := represents (T := T) (g := g) (next := nextScms B stable P cm cv pdf N)
      (lik := likScms B stable P cm cv pdf N)
      (fun s q => s.1.length = N ∧ s.2.2 ≠ 0 ∧ ∀ k < N, s.1.getD k 0 = lawE q fun i => ((x i - s.2.1) / s.2.2) ^ k)
      (fun s q => s.1.length = N ∧ s.2.1 = lawE q x ∧ 0 < s.2.2 ∧ s.2.2 ^ 2 = lawE q (fun i => (x i - lawE q x) ^ 2) ∧
        ∀ k < N, s.1.getD k 0 = lawE q fun i => ((x i - lawE q x) / s.2.2) ^ k)
      hn hT hTc hpdf ?_ (scms0, m0, s0) p hp ⟨rfl, hs0, fun k hk => by simp only [h0 k hk, hlaw]⟩ ys
    · rw [hp1, div_one] at key
      refine ⟨by rw [key.1, hmmLik_eq], fun t o ho => ?_⟩
      simp only [E, hmmPost_eq]
      exact key.2 t o ho
    · rintro s q y hq ⟨hsl, hs1, hs⟩
      have r1 := rule_of_atoms B hB hx hq hn s.1 (by rw [hsl, hl]) s.2.1 s.2.2 hs1 (by rw [hsl]; exact hs) false stable
      set pr := predScms B stable P cm cv N s with hpr
      have hpl : pr.1.length = N := by simp [hpr, predScms]
      have hsc : pr.2.2 ≠ 0 := by
        have : pr.2.2 = Real.sqrt (integ (momentQuadrature B s.1 s.2.1 s.2.2 false stable) cv) := rfl
        rw [this, Real.sqrt_ne_zero', r1, lawE]
        exact div_pos (Finset.sum_pos (fun i _ => mul_pos (hq i) (hcv i)) hne) (Finset.sum_pos (fun i _ => hq i) hne)
      have r2 := rule_of_atoms B hB hx (hqpos q hq) hn pr.1 (by rw [hpl, hl]) pr.2.1 pr.2.2 hsc
        (by
          intro k hk
          rw [hpl] at hk
          have : pr.1.getD k 0 = integ (momentQuadrature B s.1 s.2.1 s.2.2 false stable) fun x => P x k pr.2.1 pr.2.2 :=
            getD_map_range _ hk
          rw [this, r1]
          simp only [hP, lawE_pred hTr]) false stable
      have hZ : likScms B stable P cm cv pdf N s y = lawE (fun j => ∑ i, q i * T i j) (g y) := r2 _
      set nx := nextScms B stable P cm cv pdf N s y with hnx
      have hm : nx.2.1 = lawE (fwd T g q y) x := by
        have : nx.2.1 = integ (momentQuadrature B pr.1 pr.2.1 pr.2.2 false stable) (fun x => ((x - 0) / 1) ^ 1 * pdf y x)
          / likScms B stable P cm cv pdf N s y := rfl
        rw [this, r2, hZ]
        simp only [sub_zero, pow_one, div_one]
        exact hpost q y x hq
      have hf := foldl_fwd_pos hT hTc hpdf hq y
      have hvar : 0 < lawE (fwd T g q y) fun i => (x i - lawE (fwd T g q y) x) ^ 2 := by
        refine div_pos (Finset.sum_pos' (fun i _ => mul_nonneg (hf i).le (sq_nonneg _)) ?_)
          (Finset.sum_pos (fun i _ => hf i) hne)
        by_contra hall
        push Not at hall
        have hall' : ∀ i, x i = lawE (fwd T g q y) x := by
          intro i
          have h1 := hall i (Finset.mem_univ _)
          have h2 : (x i - lawE (fwd T g q y) x) ^ 2 ≤ 0 := nonpos_of_mul_nonpos_right h1 (hf i)
          have h3 := pow_eq_zero_iff (two_ne_zero) |>.1 (le_antisymm h2 (sq_nonneg _))
          linarith
        have := hx ((hall' ⟨0, hn⟩).trans (hall' ⟨1, hn2⟩).symm)
        simp at this
      have hs2 : nx.2.2 = Real.sqrt (lawE (fwd T g q y) fun i => (x i - lawE (fwd T g q y) x) ^ 2) := by
        have : nx.2.2 = Real.sqrt (integ (momentQuadrature B pr.1 pr.2.1 pr.2.2 false stable)
          (fun x => ((x - nx.2.1) / 1) ^ 2 * pdf y x) / likScms B stable P cm cv pdf N s y) := rfl
        rw [this, r2, hZ, hpost q y (fun i => ((x i - nx.2.1) / 1) ^ 2) hq, hm]
        simp only [div_one]
      have hout : ∀ k < N, nx.1.getD k 0 = lawE (fwd T g q y) fun i => ((x i - lawE (fwd T g q y) x) / nx.2.2) ^ k := by
        intro k hk
        have : nx.1.getD k 0 = integ (momentQuadrature B pr.1 pr.2.1 pr.2.2 false stable)
          (fun x => ((x - nx.2.1) / nx.2.2) ^ k * pdf y x) / likScms B stable P cm cv pdf N s y := getD_map_range _ hk
        rw [this, r2, hZ, hpost q y (fun i => ((x i - nx.2.1) / nx.2.2) ^ k) hq, hm]
      have hlen : nx.1.length = N := by simp [hnx, nextScms]
      have hpos2 : 0 < nx.2.2 := by rw [hs2]; exact Real.sqrt_pos.2 hvar
      exact ⟨⟨hlen, hpos2.ne', fun k hk => by rw [hout k hk, hm]⟩,
        ⟨hlen, hm, hpos2, by rw [hs2, Real.sq_sqrt hvar.le], hout⟩, by rw [hZ, hlik]⟩

/-- a chain meeting the hypotheses: two states `-1, 1`, staying with probability `3/4`, observed through a Gaussian-shaped
likelihood, together with its conditional moment function. -/
example : Function.Injective (![-1, 1] : Fin 2 → ℝ) ∧ (∀ i, 0 < (![1 / 2, 1 / 2] : Fin 2 → ℝ) i) ∧
    ∑ i, (![1 / 2, 1 / 2] : Fin 2 → ℝ) i = 1 ∧
    (∀ i, ∑ j, (![![3 / 4, 1 / 4], ![1 / 4, 3 / 4]] : Fin 2 → Fin 2 → ℝ) i j = 1) ∧
    (∀ j, ∃ i, 0 < (![![3 / 4, 1 / 4], ![1 / 4, 3 / 4]] : Fin 2 → Fin 2 → ℝ) i j) ∧
    (∀ (y : ℝ) j, 0 < (fun y x : ℝ => Real.exp (-(y - x) ^ 2)) y ((![-1, 1] : Fin 2 → ℝ) j)) ∧
    (∀ k < 4, ([1, 0, 1, 0] : List ℝ).getD k 0 = ∑ i, (![1 / 2, 1 / 2] : Fin 2 → ℝ) i * (![-1, 1] : Fin 2 → ℝ) i ^ k) ∧
    (∀ (i : Fin 2) (k : ℕ), (fun (x : ℝ) (k : ℕ) => if k % 2 = 0 then 1 else x / 2) ((![-1, 1] : Fin 2 → ℝ) i) k
      = ∑ j, (![![3 / 4, 1 / 4], ![1 / 4, 3 / 4]] : Fin 2 → Fin 2 → ℝ) i j * (![-1, 1] : Fin 2 → ℝ) j ^ k) := by
  refine ⟨?_, ?_, ?_, ?_, ?_, ?_, ?_, ?_⟩
  · intro i j h
    fin_cases i <;> fin_cases j <;> simp_all <;> norm_num at h
  · intro i; fin_cases i <;> simp
  · simp [Fin.sum_univ_two]; norm_num
  · intro i; fin_cases i <;> simp [Fin.sum_univ_two] <;> norm_num
  · intro j; fin_cases j <;> exact ⟨0, by simp⟩
  · intro y j; exact Real.exp_pos _
  · intro k hk
    interval_cases k <;> simp [Fin.sum_univ_two] <;> norm_num
  · intro i k
    rcases Nat.even_or_odd k with hk | hk
    · have : k % 2 = 0 := Nat.even_iff.1 hk
      fin_cases i <;> simp [Fin.sum_univ_two, this, hk.neg_one_pow] <;> norm_num
    · have : k % 2 = 1 := Nat.odd_iff.1 hk
      fin_cases i <;> simp [Fin.sum_univ_two, this, hk.neg_one_pow] <;> norm_num

end Mfs.Props

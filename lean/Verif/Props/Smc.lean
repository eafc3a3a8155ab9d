import Verif.Model.Smc
import Verif.Props.Resampling

/-!
# C80, C91: particle filters
-/

namespace Mfs.Props

open Mfs.Smc Mfs.Resampling

variable {X Y K : Type} {n : ℕ} [NeZero n]

/-- induction along `scan` when the carry is a pair whose first entry is the output. -/
theorem scan_pair_spec {C E : Type} (f : C × ℝ → E → (C × ℝ) × C) (step : C → E → C) (cost : C → E → ℝ)
    (hf : ∀ c e, f c e = ((step c.1 e, c.2 - cost c.1 e), step c.1 e)) (c0 : C) (r0 : ℝ) (es : List E) :
    (scan f (c0, r0) es).2.length = es.length ∧
    (∀ (t : ℕ) (prev o : C) (e : E), (c0 :: (scan f (c0, r0) es).2)[t]? = some prev → es[t]? = some e →
      (scan f (c0, r0) es).2[t]? = some o → o = step prev e) ∧
    (scan f (c0, r0) es).1.2 = r0 - (List.zipWith cost (c0 :: (scan f (c0, r0) es).2) es).sum := by
  induction es generalizing c0 r0 with
  | nil => simp [scan]
  | cons e es ih =>
    have hs : scan f (c0, r0) (e :: es)
        = ((scan f (step c0 e, r0 - cost c0 e) es).1, step c0 e :: (scan f (step c0 e, r0 - cost c0 e) es).2) := by
      show ((scan f (f (c0, r0) e).1 es).1, (f (c0, r0) e).2 :: (scan f (f (c0, r0) e).1 es).2) = _
      rw [hf]
    obtain ⟨h1, h2, h3⟩ := ih (step c0 e) (r0 - cost c0 e)
    rw [hs]
    refine ⟨by simp [h1], ?_, ?_⟩
    · intro t prev o e' hp he ho
      cases t with
      | zero =>
        simp only [List.getElem?_cons_zero, Option.some.injEq] at hp he ho
        rw [← hp, ← he, ← ho]
      | succ t =>
        rw [List.getElem?_cons_succ] at hp he ho
        exact h2 t prev o e' hp he ho
    · rw [h3, List.zipWith_cons_cons, List.sum_cons]; ring

omit [NeZero n] in
theorem bootstrap_spec (transition : (Fin n → X) → K → Fin n → X) (pdf : Y → (Fin n → X) → Fin n → ℝ)
    (resample : (Fin n → X) → (Fin n → ℝ) → K → Fin n → X) (splitFst : K → K) (x0 : Fin n → X) (es : List (Y × K))
    (r : ((Fin n → X) × ℝ) × List (Fin n → X)) (hr : scan (bootstrapBody transition pdf resample splitFst) (x0, 0) es = r) :
    r.2.length = es.length ∧
    (∀ (t : ℕ) (prev o : Fin n → X) (e : Y × K), (x0 :: r.2)[t]? = some prev → es[t]? = some e → r.2[t]? = some o →
      o = resample (transition prev e.2) (fun i => pdf e.1 (transition prev e.2) i / ∑ i, pdf e.1 (transition prev e.2) i) (splitFst e.2)) ∧
    r.1.2 = 0 - (List.zipWith (fun s e => Real.log ((∑ i, pdf e.1 (transition s e.2) i) / n)) (x0 :: r.2) es).sum := by
  subst hr
  exact scan_pair_spec (bootstrapBody transition pdf resample splitFst)
      (fun s e => resample (transition s e.2) (fun i => pdf e.1 (transition s e.2) i / ∑ i, pdf e.1 (transition s e.2) i) (splitFst e.2))
      (fun s e => Real.log ((∑ i, pdf e.1 (transition s e.2) i) / n)) (fun _ _ => rfl) x0 0 es

/-- **C80 (ancestors).** One cloud is returned per measurement; with index resampling, whatever the scheme returns, every particle
at time `t` is one of those that `transition_sampler` produced from the previous cloud; it is particle number `i` there with `i` the
index returned by the scheme on the normalised likelihoods (when in range). -/
theorem C80_ancestors (transition : (Fin n → X) → K → Fin n → X) (pdf : Y → (Fin n → X) → Fin n → ℝ) (ys : List Y)
    (init : K → Fin n → X) (key : K) (resampling : (Fin n → ℝ) → K → Fin n → ℕ) (splitFst : K → K) (splitN : K → ℕ → List K)
    (hsplit : (splitN key ys.length).length = ys.length) (out : List (Fin n → X)) (nell : ℝ)
    (hout : bootstrapFilter transition pdf ys init key (resampleIdx resampling) splitFst splitN = (out, nell)) :
    out.length = ys.length ∧
    ∀ (t : ℕ) (prev o : Fin n → X) (y : Y) (k : K), (init key :: out)[t]? = some prev → ys[t]? = some y →
      (splitN key ys.length)[t]? = some k → out[t]? = some o →
      (∀ j, ∃ i, o j = transition prev k i) ∧
      ∀ (j i : Fin n), resampling (fun i => pdf y (transition prev k) i / ∑ i, pdf y (transition prev k) i) (splitFst k) j = i →
        o j = transition prev k i := by
  obtain ⟨rfl, -⟩ := Prod.mk.inj hout
  obtain ⟨h1, h2, -⟩ := bootstrap_spec transition pdf (resampleIdx resampling) splitFst (init key) (ys.zip (splitN key ys.length)) _ rfl
  refine ⟨by rw [h1, List.length_zip, hsplit, min_self], ?_⟩
  intro t prev o y k hp hy hk ho
  have hz : (ys.zip (splitN key ys.length))[t]? = some (y, k) := List.getElem?_zip_eq_some.2 ⟨hy, hk⟩
  have := h2 t prev o (y, k) hp hz ho
  rw [this]
  refine ⟨fun j => ⟨_, rfl⟩, fun j i hi => ?_⟩
  simp only [resampleIdx, gather]
  rw [hi]
  congr 1
  ext
  have := i.2
  simp only [Fin.val_ofNat]
  rw [Nat.min_eq_left (by omega), Nat.mod_eq_of_lt this]

omit [NeZero n] in
/-- **C80 (likelihood estimate).** `nell` is minus the sum over time of the logarithm of the mean likelihood of the proposed
particles, for index and continuous resampling alike. -/
theorem C80_nell (transition : (Fin n → X) → K → Fin n → X) (pdf : Y → (Fin n → X) → Fin n → ℝ) (ys : List Y)
    (init : K → Fin n → X) (key : K) (resample : (Fin n → X) → (Fin n → ℝ) → K → Fin n → X) (splitFst : K → K)
    (splitN : K → ℕ → List K) (out : List (Fin n → X)) (nell : ℝ)
    (hout : bootstrapFilter transition pdf ys init key resample splitFst splitN = (out, nell)) :
    nell = -(List.zipWith (fun prev (e : Y × K) => Real.log ((∑ i, pdf e.1 (transition prev e.2) i) / n)) (init key :: out)
      (ys.zip (splitN key ys.length))).sum := by
  obtain ⟨rfl, rfl⟩ := Prod.mk.inj hout
  rw [(bootstrap_spec transition pdf resample splitFst (init key) (ys.zip (splitN key ys.length)) _ rfl).2.2, zero_sub]

/-- **C80 (scaling).** Multiplying the likelihood by `c > 0` changes no particle and shifts `nell` by `-T log c`, provided the
likelihoods never sum to zero. -/
theorem C80_scale (transition : (Fin n → X) → K → Fin n → X) (pdf : Y → (Fin n → X) → Fin n → ℝ) (ys : List Y)
    (init : K → Fin n → X) (key : K) (resample : (Fin n → X) → (Fin n → ℝ) → K → Fin n → X) (splitFst : K → K)
    (splitN : K → ℕ → List K) (hsplit : (splitN key ys.length).length = ys.length)
    (hpos : ∀ y s, ∑ i, pdf y s i ≠ 0) (c : ℝ) (hc : 0 < c) :
    (bootstrapFilter transition (fun y s i => c * pdf y s i) ys init key resample splitFst splitN).1
        = (bootstrapFilter transition pdf ys init key resample splitFst splitN).1 ∧
      (bootstrapFilter transition (fun y s i => c * pdf y s i) ys init key resample splitFst splitN).2
        = (bootstrapFilter transition pdf ys init key resample splitFst splitN).2 - ys.length * Real.log c := by
  have key' : ∀ (es : List (Y × K)) (x : Fin n → X) (r r' : ℝ),
      (scan (bootstrapBody transition (fun y s i => c * pdf y s i) resample splitFst) (x, r) es).2
        = (scan (bootstrapBody transition pdf resample splitFst) (x, r') es).2 ∧
      (scan (bootstrapBody transition (fun y s i => c * pdf y s i) resample splitFst) (x, r) es).1.2 - r
        = (scan (bootstrapBody transition pdf resample splitFst) (x, r') es).1.2 - r' - es.length * Real.log c := by
    intro es
    induction es with
    | nil => intro x r r'; simp [scan]
    | cons e es ih =>
      intro x r r'
      set s := transition x e.2 with hs
      set W := ∑ i, pdf e.1 s i with hW
      have hWc : ∑ i, c * pdf e.1 s i = c * W := by rw [← Finset.mul_sum]
      have hn : (n : ℝ) ≠ 0 := Nat.cast_ne_zero.2 (NeZero.ne n)
      have hlog : Real.log (c * W / n) = Real.log c + Real.log (W / n) := by
        rw [mul_div_assoc, Real.log_mul hc.ne' (div_ne_zero (hpos _ _) hn)]
      have hw : (fun i => c * pdf e.1 s i / (c * W)) = fun i => pdf e.1 s i / W :=
        funext fun i => mul_div_mul_left _ _ hc.ne'
      have b1 : bootstrapBody transition (fun y s i => c * pdf y s i) resample splitFst (x, r) e
          = ((resample s (fun i => pdf e.1 s i / W) (splitFst e.2), r - (Real.log c + Real.log (W / n))),
            resample s (fun i => pdf e.1 s i / W) (splitFst e.2)) := by
        simp only [bootstrapBody, ← hs, hWc, hlog, hw]
      have b2 : bootstrapBody transition pdf resample splitFst (x, r') e
          = ((resample s (fun i => pdf e.1 s i / W) (splitFst e.2), r' - Real.log (W / n)),
            resample s (fun i => pdf e.1 s i / W) (splitFst e.2)) := rfl
      obtain ⟨h1, h2⟩ := ih (resample s (fun i => pdf e.1 s i / W) (splitFst e.2)) (r - (Real.log c + Real.log (W / n)))
        (r' - Real.log (W / n))
      constructor
      · show (bootstrapBody _ _ _ _ (x, r) e).2 :: (scan _ (bootstrapBody _ _ _ _ (x, r) e).1 es).2
          = (bootstrapBody _ _ _ _ (x, r') e).2 :: (scan _ (bootstrapBody _ _ _ _ (x, r') e).1 es).2
        rw [b1, b2, h1]
      · show (scan _ (bootstrapBody _ _ _ _ (x, r) e).1 es).1.2 - r = (scan _ (bootstrapBody _ _ _ _ (x, r') e).1 es).1.2 - r' - _
        rw [b1, b2, List.length_cons]
        push_cast
        linarith
  obtain ⟨h1, h2⟩ := key' (ys.zip (splitN key ys.length)) (init key) 0 0
  refine ⟨h1, ?_⟩
  rw [List.length_zip, hsplit, min_self, sub_zero, sub_zero] at h2
  exact h2

/-- **C80 (positive likelihood).** If the scheme never selects zero weights (C78), every returned particle has non-zero likelihood. -/
theorem C80_positive_likelihood (transition : (Fin n → X) → K → Fin n → X) (pdf : Y → (Fin n → X) → Fin n → ℝ) (ys : List Y)
    (init : K → Fin n → X) (key : K) (resampling : (Fin n → ℝ) → K → Fin n → ℕ) (splitFst : K → K) (splitN : K → ℕ → List K)
    (hsplit : (splitN key ys.length).length = ys.length)
    (hpdf : ∀ y s i, 0 ≤ pdf y s i) (hpos : ∀ y s, ∑ i, pdf y s i ≠ 0)
    (hres : ∀ (w : Fin n → ℝ) (k : K), (∀ i, 0 ≤ w i) → ∑ i, w i = 1 → ∀ j, ∃ i : Fin n, resampling w k j = i ∧ w i ≠ 0)
    (out : List (Fin n → X)) (nell : ℝ)
    (hout : bootstrapFilter transition pdf ys init key (resampleIdx resampling) splitFst splitN = (out, nell)) :
    ∀ (t : ℕ) (prev o : Fin n → X) (y : Y) (k : K), (init key :: out)[t]? = some prev → ys[t]? = some y →
      (splitN key ys.length)[t]? = some k → out[t]? = some o → ∀ j, ∃ i, o j = transition prev k i ∧ 0 < pdf y (transition prev k) i := by
  intro t prev o y k hp hy hk ho j
  have hsumpos : 0 < ∑ i, pdf y (transition prev k) i :=
    lt_of_le_of_ne (Finset.sum_nonneg fun i _ => hpdf _ _ _) (hpos _ _).symm
  obtain ⟨i, hi, hne⟩ := hres (fun i => pdf y (transition prev k) i / ∑ i, pdf y (transition prev k) i) (splitFst k)
    (fun i => div_nonneg (hpdf _ _ _) hsumpos.le) (by rw [← Finset.sum_div, div_self hsumpos.ne']) j
  refine ⟨i, ((C80_ancestors transition pdf ys init key resampling splitFst splitN hsplit out nell hout).2 t prev o y k hp hy hk ho).2
    j i hi, ?_⟩
  refine lt_of_le_of_ne (hpdf _ _ _) fun h => hne ?_
  rw [← h, zero_div]

/-- the schemes of `resampling.py` meet the hypothesis of `C80_positive_likelihood` for positive draws. -/
example (ss : List ℝ → ℝ → ℕ) (hss : SearchSorted ss) (u : K → ℝ) (hu : ∀ k, 0 < u k ∧ u k < 1) (w : Fin n → ℝ) (k : K)
    (hw : ∀ i, 0 ≤ w i) (hsum : ∑ i, w i = 1) (j : Fin n) :
    ∃ i : Fin n, (systematic ss (List.ofFn w) (u k)).getD j 0 = i ∧ w i ≠ 0 := by
  have hlen : (List.ofFn w).length = n := List.length_ofFn
  have hr := (C76_in_range ss (List.ofFn w) (u k) (fun _ => 0) (List.replicate (n + 1) 0) (by simp)).1
  have hj : (j : ℕ) < (systematic ss (List.ofFn w) (u k)).length := by rw [hr.1, hlen]; exact j.2
  have hmem := List.getElem_mem hj
  have hlt := hr.2 _ hmem
  rw [hlen] at hlt
  refine ⟨⟨_, hlt⟩, by rw [List.getD_eq_getElem _ _ hj], fun h0 => ?_⟩
  have := (C78_zero_weight_partial hss (List.ofFn w) (by intro a ha; obtain ⟨i, rfl⟩ := (List.mem_ofFn' _ _).1 ha; exact hw i)
    (by rw [List.sum_ofFn, hsum]) (u k) (hu k) (fun _ => 1 / 2) (by norm_num) (fun _ => by norm_num) [] (by simp)
    (systematic ss (List.ofFn w) (u k))[(j : ℕ)] (by rw [hlen]; exact hlt) (by rw [List.getElem_ofFn]; exact h0)).1
  exact this hmem

/-- **C80 (`particle_filter`).** Every particle is one of the proposed ones. -/
theorem C80_particle_filter (proposal : (Fin n → X) → Y → K → Fin n → X) (qd : (Fin n → X) → (Fin n → X) → Y → Fin n → ℝ)
    (td : (Fin n → X) → (Fin n → X) → Fin n → ℝ) (pdf : Y → (Fin n → X) → Fin n → ℝ) (ys : List Y)
    (init : K → Fin n → X) (key : K) (resampling : (Fin n → ℝ) → K → Fin n → ℕ) (splitFst : K → K) (splitN : K → ℕ → List K)
    (hsplit : (splitN key ys.length).length = ys.length) (out : List (Fin n → X))
    (hout : particleFilter proposal qd td pdf ys init key resampling splitFst splitN = out) :
    out.length = ys.length ∧
    ∀ (t : ℕ) (prev o : Fin n → X) (y : Y) (k : K), (init key :: out)[t]? = some prev → ys[t]? = some y →
      (splitN key ys.length)[t]? = some k → out[t]? = some o → ∀ j, ∃ i, o j = proposal prev y k i := by
  subst hout
  have key' : ∀ (es : List (Y × K)) (x : Fin n → X),
      (scan (particleBody proposal qd td pdf resampling splitFst) x es).2.length = es.length ∧
      ∀ (t : ℕ) (prev o : Fin n → X) (e : Y × K), (x :: (scan (particleBody proposal qd td pdf resampling splitFst) x es).2)[t]? = some prev →
        es[t]? = some e → (scan (particleBody proposal qd td pdf resampling splitFst) x es).2[t]? = some o →
        ∀ j, ∃ i, o j = proposal prev e.1 e.2 i := by
    intro es
    induction es with
    | nil => intro x; simp [scan]
    | cons e es ih =>
      intro x
      have hs : (scan (particleBody proposal qd td pdf resampling splitFst) x (e :: es)).2
          = (particleBody proposal qd td pdf resampling splitFst x e).2
            :: (scan (particleBody proposal qd td pdf resampling splitFst) (particleBody proposal qd td pdf resampling splitFst x e).1 es).2 := rfl
      rw [hs]
      obtain ⟨h1, h2⟩ := ih (particleBody proposal qd td pdf resampling splitFst x e).1
      refine ⟨by simp [h1], ?_⟩
      intro t prev o e' hp he ho
      cases t with
      | zero =>
        simp only [List.getElem?_cons_zero, Option.some.injEq] at hp he ho
        rw [← hp, ← he, ← ho]
        exact fun j => ⟨_, rfl⟩
      | succ t =>
        rw [List.getElem?_cons_succ] at hp he ho
        exact h2 t prev o e' hp he ho
  obtain ⟨h1, h2⟩ := key' (ys.zip (splitN key ys.length)) (init key)
  refine ⟨by rw [particleFilter, h1, List.length_zip, hsplit, min_self], ?_⟩
  intro t prev o y k hp hy hk ho
  exact h2 t prev o (y, k) hp (List.getElem?_zip_eq_some.2 ⟨hy, hk⟩) ho

/-- **C80 (continuous resampling).** Every particle lies between two of the proposed ones. -/
theorem C80_continuous (transition : (Fin n → ℝ) → K → Fin n → ℝ) (pdf : Y → (Fin n → ℝ) → Fin n → ℝ) (ys : List Y)
    (init : K → Fin n → ℝ) (key : K) (eps : ℝ) (heps : 0 ≤ eps) (draw : K → ℕ → ℝ) (hdraw : ∀ k i, 0 ≤ draw k i ∧ draw k i < 1)
    (splitFst : K → K) (splitN : K → ℕ → List K) (hpdf : ∀ y s i, 0 ≤ pdf y s i) (out : List (Fin n → ℝ)) (nell : ℝ)
    (hout : bootstrapFilter transition pdf ys init key (resampleConti eps draw) splitFst splitN = (out, nell)) :
    ∀ (t : ℕ) (prev o : Fin n → ℝ) (y : Y) (k : K), (init key :: out)[t]? = some prev → ys[t]? = some y →
      (splitN key ys.length)[t]? = some k → out[t]? = some o →
      Monotone o ∧ ∀ j, ∃ i i', transition prev k i ≤ o j ∧ o j ≤ transition prev k i' := by
  obtain ⟨rfl, -⟩ := Prod.mk.inj hout
  obtain ⟨-, h2, -⟩ := bootstrap_spec transition pdf (resampleConti eps draw) splitFst (init key) (ys.zip (splitN key ys.length)) _ rfl
  intro t prev o y k hp hy hk ho
  have hz : (ys.zip (splitN key ys.length))[t]? = some (y, k) := List.getElem?_zip_eq_some.2 ⟨hy, hk⟩
  have := h2 t prev o (y, k) hp hz ho
  rw [this]
  have hne : List.ofFn (transition prev k) ≠ [] := by
    intro h
    have := congrArg List.length h
    rw [List.length_ofFn] at this
    exact NeZero.ne n this
  obtain ⟨g1, g2, g3⟩ := C79_continuous eps heps (List.ofFn (transition prev k))
    (List.ofFn fun i => pdf y (transition prev k) i / ∑ i, pdf y (transition prev k) i) hne
    (by
      intro a ha
      obtain ⟨i, rfl⟩ := (List.mem_ofFn' _ _).1 ha
      exact div_nonneg (hpdf _ _ _) (Finset.sum_nonneg fun i _ => hpdf _ _ _)) n (draw (splitFst k)) (hdraw _)
  constructor
  · intro i j hij
    exact sorted_getD g2 hij (by rw [g1]; exact j.2)
  · intro j
    have hj : (j : ℕ) < _ := lt_of_lt_of_eq j.2 g1.symm
    obtain ⟨⟨s, hs, h3⟩, ⟨s', hs', h4⟩⟩ := g3 _ (List.getElem_mem hj)
    obtain ⟨i, rfl⟩ := (List.mem_ofFn' _ _).1 hs
    obtain ⟨i', rfl⟩ := (List.mem_ofFn' _ _).1 hs'
    refine ⟨i, i', ?_, ?_⟩
    · show _ ≤ List.getD _ _ _
      rw [List.getD_eq_getElem _ _ hj]; exact h3
    · show List.getD _ _ _ ≤ _
      rw [List.getD_eq_getElem _ _ hj]; exact h4

/-! ## C91 -/

/-- **C91.** With the transition as proposal (and the same non-vanishing density for both) `particle_filter` returns the particles
of `bootstrap_filter`. -/
theorem C91_particle_eq_bootstrap (transition : (Fin n → X) → K → Fin n → X) (td : (Fin n → X) → (Fin n → X) → Fin n → ℝ)
    (htd : ∀ a k i, td (transition a k) a i ≠ 0) (pdf : Y → (Fin n → X) → Fin n → ℝ) (ys : List Y)
    (init : K → Fin n → X) (key : K) (resampling : (Fin n → ℝ) → K → Fin n → ℕ) (splitFst : K → K) (splitN : K → ℕ → List K) :
    particleFilter (fun a _ k => transition a k) (fun s a _ => td s a) td pdf ys init key resampling splitFst splitN
      = (bootstrapFilter transition pdf ys init key (resampleIdx resampling) splitFst splitN).1 := by
  rw [particleFilter, bootstrapFilter]
  generalize init key = x
  show _ = (scan (bootstrapBody transition pdf (resampleIdx resampling) splitFst) (x, 0) _).2
  generalize (0 : ℝ) = r
  generalize ys.zip (splitN key ys.length) = es
  induction es generalizing x r with
  | nil => rfl
  | cons e es ih =>
    have hb : particleBody (fun a _ k => transition a k) (fun s a _ => td s a) td pdf resampling splitFst x e
        = ((bootstrapBody transition pdf (resampleIdx resampling) splitFst (x, r) e).2,
          (bootstrapBody transition pdf (resampleIdx resampling) splitFst (x, r) e).2) := by
      simp only [particleBody, bootstrapBody, resampleIdx]
      have : ∀ i, pdf e.1 (transition x e.2) i * td (transition x e.2) x i / td (transition x e.2) x i = pdf e.1 (transition x e.2) i :=
        fun i => mul_div_cancel_right₀ _ (htd x e.2 i)
      simp only [this]
    show (particleBody _ _ _ _ _ _ x e).2 :: (scan _ (particleBody _ _ _ _ _ _ x e).1 es).2
      = (bootstrapBody _ _ _ _ (x, r) e).2 :: (scan _ (bootstrapBody _ _ _ _ (x, r) e).1 es).2
    rw [hb]
    exact congrArg _ (ih _ _)

/-- a concrete run: two particles, identity dynamics, one measurement. -/
example : (bootstrapFilter (n := 2) (K := Unit) (fun s _ => s) (fun (y : ℝ) s i => y * (s i) ^ 2) [3] (fun _ i => (i : ℝ) + 1) ()
    (resampleIdx fun _ _ _ => 1) id (fun _ T => List.replicate T ())).2 = -Real.log (15 / 2) := by
  simp [bootstrapFilter, bootstrapBody, scan, Fin.sum_univ_two]
  norm_num

end Mfs.Props

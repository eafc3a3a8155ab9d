import Verif.Model.Prng
import Mathlib.Probability.Independence.Basic
import Mathlib.Data.List.GetD

/-!
# The random keys of the particle filter (C159)
-/

namespace Mfs.Props

open Mfs.Prng

variable {K : Type}

/-- the keys at which `bootstrap_filter` draws, in order: the components and the normals of the initial sampler, then the transition and
the resampling of every step. -/
def drawKeys (G : Gen K) (T : ℕ) (key : K) : List K := [key, G.fst key] ++ (G.split key T).flatMap fun k => [k, G.fst k]

/-- keys in which the `i`-th of `num` children depends on both numbers, and no two derivations give the same key. -/
inductive FreeKey where
  | seed (s : ℕ)
  | child (k : FreeKey) (num i : ℕ)

/-- keys in which the `i`-th child does not depend on how many are asked for. -/
inductive PrefixKey where
  | seed (s : ℕ)
  | child (k : PrefixKey) (i : ℕ)

/-- the depth of a key. -/
def FreeKey.depth : FreeKey → ℕ
  | .seed _ => 0
  | .child k _ _ => k.depth + 1

/-- the depth of a key. -/
def PrefixKey.depth : PrefixKey → ℕ
  | .seed _ => 0
  | .child k _ => k.depth + 1

/-- The `i`-th key and the `i`-th draw do not depend on how many are asked for. -/
def PrefixStable (G : Gen K) : Prop :=
  (∀ k n n' i, i < n → i < n' → G.key k n i = G.key k n' i) ∧
  (∀ k n n' i, i < n → i < n' → G.uniform k n i = G.uniform k n' i ∧ G.normal k n i = G.normal k n' i)

theorem scan_congr_mem {A B C : Type} (f g : A → B → A × C) (l : List B) (h : ∀ b ∈ l, ∀ a, f a b = g a b) (a : A) :
    scan f a l = scan g a l := by
  induction l generalizing a with
  | nil => rfl
  | cons b l ih =>
    have hb := h b (by simp) a
    have ht := fun a => ih (fun b' hb' => h b' (by simp [hb'])) a
    simp only [scan, hb, ht]

theorem bootstrap_congr {X Y : Type} {n : ℕ} [NeZero n] (G G' : Gen K) (hs : G.split = G'.split)
    (tr tr' : (Fin n → X) → K → Fin n → X) (pdf : Y → (Fin n → X) → Fin n → ℝ) (ys : List Y) (init init' : K → Fin n → X) (key : K)
    (rs rs' : (Fin n → X) → (Fin n → ℝ) → K → Fin n → X) (hi : init key = init' key)
    (h : ∀ k ∈ G.split key ys.length, (∀ x, tr x k = tr' x k) ∧ ∀ x w, rs x w (G.fst k) = rs' x w (G.fst k)) :
    bootstrapFilter G tr pdf ys init key rs = bootstrapFilter G' tr' pdf ys init' key rs' := by
  have hf : G.fst = G'.fst := by funext k; simp [Gen.fst, Gen.key, hs]
  have hb := scan_congr_mem (Smc.bootstrapBody tr pdf rs G.fst) (Smc.bootstrapBody tr' pdf rs' G.fst)
    (ys.zip (G.split key ys.length)) (by
      rintro ⟨y, k⟩ hk a
      have hk' := h k (List.of_mem_zip hk).2
      simp only [Smc.bootstrapBody, hk'.1, hk'.2])
  simp only [bootstrapFilter, Smc.bootstrapFilter, hi, hb, ← hf, ← hs]

/-- the three resampling schemes. -/
inductive Scheme where
  | systematic
  | stratified
  | multinomial

/-- the resampling function of a scheme. -/
noncomputable def Scheme.run (G : Gen K) (ss : List ℝ → ℝ → ℕ) {n : ℕ} : Scheme → (Fin n → ℝ) → K → Fin n → ℕ
  | .systematic => Prng.systematicOrStratified G ss true
  | .stratified => Prng.systematicOrStratified G ss false
  | .multinomial => Prng.multinomial G ss

theorem scheme_congr (G G' : Gen K) (ss : List ℝ → ℝ → ℕ) {n : ℕ} (b : Scheme) (k : K) (h : G.uniform k = G'.uniform k)
    (w : Fin n → ℝ) : b.run G ss w k = b.run G' ss w k := by
  cases b <;> funext j <;> simp only [Scheme.run, Prng.systematicOrStratified, Prng.multinomial, h]

/-- **C159.** The output of the filter depends on the generator only through the splits and the draws at the listed keys. -/
theorem C159_draws {Y : Type} {n : ℕ} [NeZero n] (G G' : Gen K) (ss : List ℝ → ℝ → ℕ) (comps : List Moments1.Component) (m v : ℝ → ℝ)
    (pdf : Y → (Fin n → ℝ) → Fin n → ℝ) (ys : List Y) (key : K) (b : Scheme) (hs : G.split = G'.split)
    (h1 : G.uniform key = G'.uniform key) (h2 : G.normal (G.fst key) = G'.normal (G.fst key))
    (h3 : ∀ k ∈ G.split key ys.length, G.normal k = G'.normal k ∧ G.uniform (G.fst k) = G'.uniform (G.fst k)) :
    bootstrapFilter G (scriptTransition G m v) pdf ys (sampler1 G ss comps) key (Smc.resampleIdx (b.run G ss)) =
    bootstrapFilter G' (scriptTransition G' m v) pdf ys (sampler1 G' ss comps) key (Smc.resampleIdx (b.run G' ss)) := by
  have hf : G.fst = G'.fst := by funext k; simp [Gen.fst, Gen.key, hs]
  refine bootstrap_congr G G' hs _ _ pdf ys _ _ key _ _ ?_ fun k hk => ⟨fun x => ?_, fun x w => ?_⟩
  · funext i; simp only [sampler1, choice, h1, h2, ← hf]
  · funext i; simp only [scriptTransition, (h3 k hk).1]
  · simp only [Smc.resampleIdx, scheme_congr G G' ss b _ (h3 k hk).2]

/-- **C159.** The same in several dimensions. -/
theorem C159_draws_nd {Y : Type} {d n : ℕ} [NeZero n] (G G' : Gen K) (ss : List ℝ → ℝ → ℕ) (B : Backend)
    (comps : List (MomentsND.Component d)) (m : (Fin d → ℝ) → Fin d → ℝ) (cov : (Fin d → ℝ) → Matrix (Fin d) (Fin d) ℝ)
    (pdf : Y → (Fin n → Fin d → ℝ) → Fin n → ℝ) (ys : List Y) (key : K) (b : Scheme) (hs : G.split = G'.split)
    (h1 : G.uniform key = G'.uniform key) (h2 : G.normal (G.fst key) = G'.normal (G.fst key))
    (h3 : ∀ k ∈ G.split key ys.length, G.normal k = G'.normal k ∧ G.uniform (G.fst k) = G'.uniform (G.fst k)) :
    bootstrapFilter G (scriptTransitionND G B m cov) pdf ys (samplerND G ss B comps) key (Smc.resampleIdx (b.run G ss)) =
    bootstrapFilter G' (scriptTransitionND G' B m cov) pdf ys (samplerND G' ss B comps) key (Smc.resampleIdx (b.run G' ss)) := by
  have hf : G.fst = G'.fst := by funext k; simp [Gen.fst, Gen.key, hs]
  refine bootstrap_congr G G' hs _ _ pdf ys _ _ key _ _ ?_ fun k hk => ⟨fun x => ?_, fun x w => ?_⟩
  · funext i; simp only [samplerND, choice, h1, h2, ← hf]
  · funext i; simp only [scriptTransitionND, (h3 k hk).1]
  · simp only [Smc.resampleIdx, scheme_congr G G' ss b _ (h3 k hk).2]

/-- **C159.** With keys that never coincide by accident the listed keys are pairwise different for every number of measurements but two. -/
theorem C159_free (G : Gen FreeKey) (hG : ∀ k n, G.split k n = (List.range n).map (FreeKey.child k n)) (T : ℕ) (key : FreeKey) :
    (drawKeys G T key).Nodup ↔ T ≠ 2 := by
  have hf : ∀ k, G.fst k = .child k 2 0 := fun k => by simp [Gen.fst, Gen.key, hG]
  have hd : ∀ k l : FreeKey, k.depth ≠ l.depth → k ≠ l := fun k l h e => h (by rw [e])
  constructor
  · rintro h rfl
    simp [drawKeys, hG, hf, List.range_succ] at h
  · intro hT
    simp only [drawKeys, hG, hf, List.flatMap_map]
    rw [List.nodup_append]
    refine ⟨?_, ?_, ?_⟩
    · simpa using hd _ _ (by simp [FreeKey.depth])
    · rw [List.nodup_flatMap]
      refine ⟨fun t _ => by simpa using hd (.child key T t) (.child (.child key T t) 2 0) (by simp [FreeKey.depth]), ?_⟩
      refine List.Pairwise.imp ?_ (List.nodup_range (n := T))
      intro s t hst x hx hy
      simp only [List.mem_cons, List.not_mem_nil, or_false] at hx hy
      rcases hx with rfl | rfl <;> rcases hy with hy | hy
      · exact hst (by injection hy)
      · exact hd _ _ (by simp [FreeKey.depth]) hy
      · exact hd _ _ (by simp [FreeKey.depth]) hy
      · injection hy with hy; exact hst (by injection hy)
    · intro a ha b hb
      simp only [List.mem_cons, List.not_mem_nil, or_false] at ha
      obtain ⟨t, -, hb⟩ := List.mem_flatMap.1 hb
      simp only [List.mem_cons, List.not_mem_nil, or_false] at hb
      rcases ha with rfl | rfl <;> rcases hb with rfl | rfl
      · exact hd _ _ (by simp [FreeKey.depth])
      · exact hd _ _ (by simp only [FreeKey.depth]; omega)
      · intro e; injection e with _ e; exact hT e.symm
      · exact hd _ _ (by simp [FreeKey.depth])

/-- **C159, refuted.** When the number of keys asked for does not change the first one, some key is used twice as soon as there is one
measurement. -/
theorem C159_prefix_refuted (G : Gen K) (hG : PrefixStable G) (hl : ∀ k n, (G.split k n).length = n) (T : ℕ) (hT : T ≠ 0) (key : K) :
    ¬ (drawKeys G T key).Nodup := by
  intro h
  have h0 : G.key key T 0 = G.fst key := hG.1 key T 2 0 (by omega) (by omega)
  have hm : G.fst key ∈ G.split key T := by
    rw [← h0, Gen.key, List.getD_eq_getElem _ _ (by rw [hl]; omega)]
    exact List.getElem_mem _
  rw [drawKeys, List.nodup_append] at h
  exact h.2.2 (G.fst key) (by simp) (G.fst key) (List.mem_flatMap.2 ⟨_, hm, by simp⟩) rfl

/-- **C159.** Draws at pairwise different keys are independent when the draws of different keys are. -/
theorem C159_independent {Ω E : Type} [MeasurableSpace Ω] [MeasurableSpace E] (μ : MeasureTheory.Measure Ω) (draw : K → Ω → E)
    (h : ProbabilityTheory.iIndepFun draw μ) (l : List K) (hl : l.Nodup) :
    ProbabilityTheory.iIndepFun (fun i : Fin l.length => draw l[i]) μ :=
  h.precomp (g := fun i : Fin l.length => l[i]) (List.nodup_iff_injective_get.1 hl)

/-- **C159, refuted.** When the key of the first transition is that of the initial normal draws, every particle of the first filtered
cloud is a function of one initial particle and its mixture component: it carries no noise of its own. -/
theorem C159_reuse_refuted {Y : Type} {n : ℕ} [NeZero n] (G : Gen K) (ss : List ℝ → ℝ → ℕ) (comps : List Moments1.Component)
    (hne : comps ≠ []) (hv : ∀ c ∈ comps, 0 < c.variance) (m v : ℝ → ℝ) (pdf : Y → (Fin n → ℝ) → Fin n → ℝ) (y : Y) (ys : List Y) (key : K)
    (resampling : (Fin n → ℝ) → K → Fin n → ℕ) (hl : (G.split key (ys.length + 1)).length = ys.length + 1)
    (hk : G.key key (ys.length + 1) 0 = G.fst key) (j : Fin n) :
    ∃ i : Fin n, ∃ c ∈ comps,
      (bootstrapFilter G (scriptTransition G m v) pdf (y :: ys) (sampler1 G ss comps) key (Smc.resampleIdx resampling)).1.getD 0 0 j =
        m (sampler1 G ss comps key i) + Real.sqrt (v (sampler1 G ss comps key i)) *
          ((sampler1 G ss comps key i - c.mean) / Real.sqrt c.variance) := by
  obtain ⟨k, ks, hks⟩ : ∃ k ks, G.split key (ys.length + 1) = k :: ks := by
    cases h : G.split key (ys.length + 1) with
    | nil => simp [h] at hl
    | cons k ks => exact ⟨k, ks, rfl⟩
  have hk' : k = G.fst key := by rw [← hk, Gen.key, hks]; rfl
  set w : Fin n → ℝ := fun i => pdf y (scriptTransition G m v (sampler1 G ss comps key) k) i /
    ∑ i, pdf y (scriptTransition G m v (sampler1 G ss comps key) k) i with hw
  let i : Fin n := Fin.ofNat n (min (resampling w (G.fst k) j) (n - 1))
  let q := min (choice G ss key (comps.map (·.weight)) n i) (comps.length - 1)
  have hpos : 0 < comps.length := List.length_pos_iff.2 hne
  have hq : q < comps.length := by have : q ≤ comps.length - 1 := min_le_right _ _; omega
  have hc : comps.getD q ⟨0, 0, 0⟩ = comps[q] := List.getD_eq_getElem _ _ hq
  refine ⟨i, comps[q], List.getElem_mem _, ?_⟩
  have hx : sampler1 G ss comps key i = comps[q].mean + Real.sqrt comps[q].variance * G.normal (G.fst key) n i := by
    rw [← hc]; rfl
  have hz : (sampler1 G ss comps key i - comps[q].mean) / Real.sqrt comps[q].variance = G.normal (G.fst key) n i := by
    have := Real.sqrt_pos.2 (hv _ (List.getElem_mem hq))
    rw [hx]; field_simp; ring
  rw [hz]
  have : (bootstrapFilter G (scriptTransition G m v) pdf (y :: ys) (sampler1 G ss comps) key
      (Smc.resampleIdx resampling)).1.getD 0 0 j = scriptTransition G m v (sampler1 G ss comps key) k i := by
    simp only [bootstrapFilter, Smc.bootstrapFilter, List.length_cons, hks, List.zip_cons_cons, scan]
    rfl
  rw [this, scriptTransition, hk']

/-- **C159, refuted.** So it is with two measurements whatever the generator. -/
theorem C159_two_refuted {Y : Type} {n : ℕ} [NeZero n] (G : Gen K) (hl : ∀ k n, (G.split k n).length = n) (ss : List ℝ → ℝ → ℕ)
    (c : Moments1.Component) (hv : 0 < c.variance) (m v : ℝ → ℝ) (pdf : Y → (Fin n → ℝ) → Fin n → ℝ) (y₁ y₂ : Y) (key : K)
    (resampling : (Fin n → ℝ) → K → Fin n → ℕ) (j : Fin n) :
    ∃ i : Fin n,
      (bootstrapFilter G (scriptTransition G m v) pdf [y₁, y₂] (sampler1 G ss [c]) key (Smc.resampleIdx resampling)).1.getD 0 0 j =
        m (sampler1 G ss [c] key i) + Real.sqrt (v (sampler1 G ss [c] key i)) *
          ((sampler1 G ss [c] key i - c.mean) / Real.sqrt c.variance) := by
  obtain ⟨i, c', hc', h⟩ := C159_reuse_refuted G ss [c] (by simp) (by simpa using hv) m v pdf y₁ [y₂] key resampling (hl _ _) rfl j
  obtain rfl : c' = c := by simpa using hc'
  exact ⟨i, h⟩

/-- **C159, refuted.** And with any number of measurements when the first key does not depend on how many are asked for. -/
theorem C159_prefix_cloud_refuted {Y : Type} {n : ℕ} [NeZero n] (G : Gen K) (hG : PrefixStable G) (hl : ∀ k n, (G.split k n).length = n)
    (ss : List ℝ → ℝ → ℕ) (c : Moments1.Component) (hv : 0 < c.variance) (m v : ℝ → ℝ) (pdf : Y → (Fin n → ℝ) → Fin n → ℝ) (y : Y)
    (ys : List Y) (key : K) (resampling : (Fin n → ℝ) → K → Fin n → ℕ) (j : Fin n) :
    ∃ i : Fin n,
      (bootstrapFilter G (scriptTransition G m v) pdf (y :: ys) (sampler1 G ss [c]) key (Smc.resampleIdx resampling)).1.getD 0 0 j =
        m (sampler1 G ss [c] key i) + Real.sqrt (v (sampler1 G ss [c] key i)) *
          ((sampler1 G ss [c] key i - c.mean) / Real.sqrt c.variance) := by
  obtain ⟨i, c', hc', h⟩ := C159_reuse_refuted G ss [c] (by simp) (by simpa using hv) m v pdf y ys key resampling (hl _ _)
    (hG.1 _ _ _ _ (by omega) (by omega)) j
  obtain rfl : c' = c := by simpa using hc'
  exact ⟨i, h⟩

/-- a generator on the keys that never coincide. -/
noncomputable def freeGen : Gen FreeKey := ⟨fun k n => (List.range n).map (.child k n), fun k _ i => 1 / (k.depth + i + 2), fun k _ i => k.depth - i⟩

/-- a generator whose keys and draws do not depend on how many are asked for. -/
noncomputable def prefixGen : Gen PrefixKey := ⟨fun k n => (List.range n).map (.child k), fun k _ i => 1 / (k.depth + i + 2), fun k _ i => k.depth - i⟩

theorem prefixGen_stable : PrefixStable prefixGen := by
  refine ⟨fun k n n' i h h' => ?_, fun k n n' i _ _ => ⟨rfl, rfl⟩⟩
  simp [Gen.key, prefixGen, List.getD_eq_getElem?_getD, h, h']

-- the hypotheses are met: three measurements are safe with the free keys, and not with the others
example : (drawKeys freeGen 3 (.seed 7)).Nodup := (C159_free freeGen (fun _ _ => rfl) 3 _).2 (by decide)
example : ¬ (drawKeys freeGen 2 (.seed 7)).Nodup := fun h => (C159_free freeGen (fun _ _ => rfl) 2 _).1 h rfl
example : ¬ (drawKeys prefixGen 3 (.seed 7)).Nodup :=
  C159_prefix_refuted prefixGen prefixGen_stable (fun _ _ => by simp [prefixGen]) 3 (by decide) _
example (j : Fin 4) := C159_two_refuted freeGen (fun _ _ => by simp [freeGen]) (fun _ _ => 0) ⟨1, 2, 1⟩ (by norm_num) (fun x => x / 2)
  (fun _ => 1) (fun (y : ℝ) s i => y + s i ^ 2) 1 2 (.seed 7) (fun _ _ j => j) j

end Mfs.Props

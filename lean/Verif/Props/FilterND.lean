import Verif.Lemmas.FilterND
import Verif.Props.Filter1

/-!
# Properties C34, C35, C37, C38: multidimensional moment filters

As in the one-dimensional case, `predX`, `ruleX`, `likX` are the predicted moments, the quadrature rule built from them
and the predictive likelihood (sum over the rule) of a given state.
-/

namespace Mfs.Props

open Mfs.Spec Mfs.QuadND Mfs.FilterND Mfs.MultiIndex

variable {Y : Type}

/-! ## C34 -/

/-- **C34.** Each filter raises `ValueError` exactly if the table of multi-indices and the initial moment vector differ in
length, and otherwise returns one record per measurement. -/
theorem C34_wrong_size (B : Backend) (stable : Bool) (pdf : Y → List ℝ → ℝ) (ys : List Y) (mis : List (List ℕ))
    (inds : List (List (List ℤ))) (m0 s0 ms0 : List ℝ) (Pr : CondMoments Unit) (Pc : CondMoments (List ℝ))
    (Ps : CondMoments (List ℝ × List ℝ)) (cm : List ℝ → List ℝ) (cmv : List ℝ → List ℝ × List ℝ) :
    (FilterND.filterRms B Pr pdf ys (mis, inds) ms0 stable = .error "ValueError" ↔ mis.length ≠ ms0.length) ∧
    (FilterND.filterCms B Pc cm pdf ys (mis, inds) ms0 m0 stable = .error "ValueError" ↔ mis.length ≠ ms0.length) ∧
    (FilterND.filterScms B Ps cmv pdf ys (mis, inds) ms0 m0 s0 stable = .error "ValueError" ↔ mis.length ≠ ms0.length) ∧
    (mis.length = ms0.length → ∃ a b c, FilterND.filterRms B Pr pdf ys (mis, inds) ms0 stable = .ok a ∧
      FilterND.filterCms B Pc cm pdf ys (mis, inds) ms0 m0 stable = .ok b ∧
      FilterND.filterScms B Ps cmv pdf ys (mis, inds) ms0 m0 s0 stable = .ok c ∧
      a.1.length = ys.length ∧ b.1.length = ys.length ∧ c.1.length = ys.length) := by
  rw [FilterND.filterRms_eq, FilterND.filterCms_eq, FilterND.filterScms_eq]
  refine ⟨?_, ?_, ?_, ?_⟩
  · by_cases h : mis.length ≠ ms0.length <;> simp [h]
  · by_cases h : mis.length ≠ ms0.length <;> simp [h]
  · by_cases h : mis.length ≠ ms0.length <;> simp [h]
  · intro h
    simp only [h, ne_eq, not_true_eq_false, if_false]
    exact ⟨_, _, _, rfl, rfl, rfl, length_traj _ _, length_traj _ _, length_traj _ _⟩

example : ([[0, 0], [0, 1], [1, 0]] : List (List ℕ)).length ≠ ([1, 0] : List ℝ).length := by simp

/-! ## C35 -/

theorem monomial_axis {d : ℕ} (x : List ℝ) (hx : x.length = d) (j k : ℕ) (hj : j < d) :
    monomial x (axisIndex d j k) = x.getD j 0 ^ k := by
  subst hx
  have : List.zipWith (· ^ ·) x (axisIndex x.length j k) = List.ofFn fun i : Fin x.length => if (i : ℕ) = j then x.getD j 0 ^ k else 1 := by
    apply List.ext_getElem
    · simp [axisIndex]
    · intro i h1 h2
      simp only [axisIndex, List.getElem_zipWith, List.getElem_map, List.getElem_range, List.getElem_ofFn]
      by_cases h : i = j
      · subst h; simp [List.getD_eq_getElem?_getD, hj]
      · simp [h]
  rw [monomial, this, List.prod_ofFn, Finset.prod_eq_single (⟨j, hj⟩ : Fin x.length)]
  · simp
  · intro b _ hb
    rw [if_neg]
    exact fun h => hb (Fin.ext h)
  · simp

theorem unitIndex_eq (d j : ℕ) : unitIndex d j = axisIndex d j 1 := rfl

theorem axisIndex_double (d j k : ℕ) : (axisIndex d j k).map (· * 2) = axisIndex d j (k * 2) := by
  simp only [axisIndex, List.map_map]
  apply List.map_congr_left
  intro l _
  simp only [Function.comp_def]
  split <;> simp

theorem eyeRows_eq (d : ℕ) : eyeRows d = (List.range d).map fun j => axisIndex d j 1 := rfl

theorem momentQuadratureND_node_length (B : Backend) (ms : List ℝ) (inds : List (List (List ℤ))) (d : ℕ)
    (h : inds.length = d + 1) (mean scale : Option (List ℝ)) (hm : ∀ m ∈ mean, m.length = d) (hs : ∀ s ∈ scale, s.length = d)
    (sort ldl : Bool) : ∀ p ∈ momentQuadratureND B ms inds mean scale sort ldl, p.2.length = d := by
  intro p hp
  rw [momentQuadratureND, quadCore_affine, List.mem_map] at hp
  obtain ⟨q, hq, rfl⟩ := hp
  have hl : inds.length - 1 = (inds.tail.map fun M => gatherL ms (inds.getD 0 []).length M).length := by simp
  rw [hl] at hq
  have := nodes_length B _ _ sort ldl q hq
  simp only [List.length_map, List.length_tail, h, Nat.add_sub_cancel] at this
  cases mean with
  | none => exact this
  | some m =>
    have hm := hm m rfl
    cases scale with
    | none => simp [affineNode, this, hm]
    | some s => have hs := hs s rfl; simp [affineNode, this, hm, hs]

theorem integND_mul_left (r : List (ℝ × List ℝ)) (c : ℝ) (f : List ℝ → ℝ) :
    integND r (fun x => c * f x) = c * integND r f := by
  simp only [integND, ← List.sum_map_mul_left]
  congr 1
  exact List.map_congr_left fun p _ => by ring

theorem integND_sub (r : List (ℝ × List ℝ)) (f g : List ℝ → ℝ) :
    integND r (fun x => f x - g x) = integND r f - integND r g := by
  induction r with
  | nil => simp [integND]
  | cons p r ih =>
    simp only [integND, List.map_cons, List.sum_cons] at ih ⊢
    rw [ih]; ring

theorem getD_zipWith_sub {x m : List ℝ} {d j : ℕ} (hx : x.length = d) (hm : m.length = d) :
    (List.zipWith (· - ·) x m).getD j 0 = x.getD j 0 - m.getD j 0 := by
  by_cases h : j < d
  · simp [List.getD_eq_getElem?_getD, hx, hm, h]
  · simp [List.getD_eq_getElem?_getD, hx, hm, h]

theorem getD_map_range' {d j : ℕ} (f : ℕ → ℝ) (h : j < d) : ((List.range d).map f).getD j 0 = f j := by
  simp [List.getD_eq_getElem?_getD, h]

/-- **C35.** Let the multi-indices be `d`-dimensional and the index matrices `d + 1` many (for instance those of
`generate_graded_lexico_multi_indices` and `gram_and_hankel_indices_graded_lexico`). At every step whose predictive
likelihood is non-zero: the moment of multi-index `0` is one; in the central and scaled filters the moments of the unit
multi-indices are zero; in the scaled filter the moment of `2 e_j` is one whenever the returned scale of coordinate `j` is
non-zero. -/
theorem C35_nd_normalised (B : Backend) (stable : Bool) (pdf : Y → List ℝ → ℝ) (ys : List Y) (d : ℕ)
    (mis : List (List ℕ)) (inds : List (List (List ℤ))) (hd : (mis.headD []).length = d) (hi : inds.length = d + 1)
    (k : ℕ) (y : Y) (hy : ys[k]? = some y) :
    (∀ (P : CondMoments Unit) (rms0 : List ℝ) (a : List (List ℝ) × ℝ) (o p : List ℝ),
      FilterND.filterRms B P pdf ys (mis, inds) rms0 stable = .ok a → a.1[k]? = some o → (rms0 :: a.1)[k]? = some p →
      FilterND.likRms B stable pdf mis inds P p y ≠ 0 →
      ∀ i : ℕ, mis[i]? = some (List.replicate d 0) → o[i]? = some 1) ∧
    (∀ (P : CondMoments (List ℝ)) (cm : List ℝ → List ℝ) (cms0 m0 : List ℝ) (a : List (List ℝ × List ℝ) × ℝ)
      (o p : List ℝ × List ℝ),
      FilterND.filterCms B P cm pdf ys (mis, inds) cms0 m0 stable = .ok a → a.1[k]? = some o →
      ((cms0, m0) :: a.1)[k]? = some p → FilterND.likCms B stable pdf d mis inds P cm p y ≠ 0 →
      o.2.length = d ∧
      (∀ i : ℕ, mis[i]? = some (List.replicate d 0) → o.1[i]? = some 1) ∧
      (∀ i j : ℕ, j < d → mis[i]? = some (axisIndex d j 1) → o.1[i]? = some 0)) ∧
    (∀ (P : CondMoments (List ℝ × List ℝ)) (cmv : List ℝ → List ℝ × List ℝ) (scms0 m0 s0 : List ℝ)
      (a : List (List ℝ × List ℝ × List ℝ) × ℝ) (o p : List ℝ × List ℝ × List ℝ),
      FilterND.filterScms B P cmv pdf ys (mis, inds) scms0 m0 s0 stable = .ok a → a.1[k]? = some o →
      ((scms0, m0, s0) :: a.1)[k]? = some p → FilterND.likScms B stable pdf d mis inds P cmv p y ≠ 0 →
      o.2.1.length = d ∧ o.2.2.length = d ∧
      (∀ i : ℕ, mis[i]? = some (List.replicate d 0) → o.1[i]? = some 1) ∧
      (∀ i j : ℕ, j < d → mis[i]? = some (axisIndex d j 1) → o.1[i]? = some 0) ∧
      (∀ i j : ℕ, j < d → mis[i]? = some (axisIndex d j 2) → o.2.2.getD j 0 ≠ 0 → o.1[i]? = some 1)) := by
  have hzero : ∀ x : List ℝ, monomial x (List.replicate d 0) = 1 := by
    intro x
    have : ∀ (n : ℕ) (x : List ℝ), monomial x (List.replicate n 0) = 1 := by
      intro n
      induction n with
      | zero => intro x; simp [monomial]
      | succ n ih =>
        intro x
        cases x with
        | nil => simp [monomial]
        | cons a x =>
          have := ih x
          simp only [monomial, List.replicate_succ, List.zipWith_cons_cons, pow_zero, List.prod_cons, one_mul] at this ⊢
          exact this
    exact this d x
  refine ⟨?_, ?_, ?_⟩
  · intro P rms0 a o p ha ho hp hl i hi0
    rw [FilterND.filterRms_eq] at ha
    split at ha
    · cases ha
    · cases ha
      obtain ⟨p', hp', rfl⟩ := traj_getElem _ _ _ _ _ ho hy
      obtain rfl : p' = p := Option.some.inj (hp'.symm.trans hp)
      simp only [FilterND.nextRms, List.getElem?_map, hi0, Option.map_some, hzero, one_mul, Option.some.injEq]
      exact div_self hl
  · intro P cm cms0 m0 a o p ha ho hp hl
    rw [FilterND.filterCms_eq] at ha
    split at ha
    · cases ha
    · cases ha
      obtain ⟨p', hp', rfl⟩ := traj_getElem _ _ _ _ _ ho hy
      obtain rfl : p' = p := Option.some.inj (hp'.symm.trans hp)
      rw [hd]
      refine ⟨by simp [FilterND.nextCms, eyeRows], ?_, ?_⟩
      · intro i hi0
        simp only [FilterND.nextCms, List.getElem?_map, hi0, Option.map_some, hzero, one_mul, Option.some.injEq]
        exact div_self hl
      · intro i j hj hij
        simp only [FilterND.nextCms, List.getElem?_map, hij, Option.map_some, Option.some.injEq]
        have hZ : integND (ruleCms B stable d mis inds P cm p') (pdf y) = FilterND.likCms B stable pdf d mis inds P cm p' y := rfl
        have hlen : ∀ q ∈ ruleCms B stable d mis inds P cm p', q.2.length = d :=
          momentQuadratureND_node_length B _ _ d hi _ _ (by simp [FilterND.predCms, wsumVec]) (by simp) _ _
        generalize FilterND.likCms B stable pdf d mis inds P cm p' y = Z at hl hZ ⊢
        generalize ruleCms B stable d mis inds P cm p' = r at hZ hlen ⊢
        have hmean : ((eyeRows d).map fun α => integND r (fun x => monomial (x.map (· - 0)) α * pdf y x) / Z)
            = (List.range d).map fun j => integND r (fun x => x.getD j 0 * pdf y x) / Z := by
          rw [eyeRows_eq, List.map_map]
          apply List.map_congr_left
          intro l hl
          simp only [Function.comp_def]
          congr 1
          apply integND_congr
          intro q hq
          rw [monomial_axis _ (by simp [hlen q hq]) l 1 (by simpa using hl)]
          simp
        rw [hmean]
        have : ∀ m : List ℝ, m.length = d → integND r (fun x => monomial (List.zipWith (· - ·) x m) (axisIndex d j 1) * pdf y x)
            = integND r (fun x => x.getD j 0 * pdf y x) - m.getD j 0 * integND r (pdf y) := by
          intro m hm
          rw [← integND_mul_left, ← integND_sub]
          apply integND_congr
          intro q hq
          rw [monomial_axis _ (by simp [hlen q hq, hm]) j 1 hj, getD_zipWith_sub (hlen q hq) hm]
          ring
        rw [this _ (by simp), getD_map_range' _ hj, hZ, div_mul_cancel₀ _ hl]
        simp
  · intro P cmv scms0 m0 s0 a o p ha ho hp hl
    rw [FilterND.filterScms_eq] at ha
    split at ha
    · cases ha
    · cases ha
      obtain ⟨p', hp', rfl⟩ := traj_getElem _ _ _ _ _ ho hy
      obtain rfl : p' = p := Option.some.inj (hp'.symm.trans hp)
      rw [hd]
      refine ⟨by simp [FilterND.nextScms, eyeRows], by simp [FilterND.nextScms, eyeRows], ?_, ?_⟩
      · intro i hi0
        simp only [FilterND.nextScms, List.getElem?_map, hi0, Option.map_some, hzero, one_mul, Option.some.injEq]
        exact div_self hl
      · have hZ : integND (ruleScms B stable d mis inds P cmv p') (pdf y)
          = FilterND.likScms B stable pdf d mis inds P cmv p' y := rfl
        have hlen : ∀ q ∈ ruleScms B stable d mis inds P cmv p', q.2.length = d :=
          momentQuadratureND_node_length B _ _ d hi _ _ (by simp [FilterND.predScms, wsumVec])
            (by simp [FilterND.predScms, wsumVec]) _ _
        simp only [FilterND.nextScms]
        generalize FilterND.likScms B stable pdf d mis inds P cmv p' y = Z at hl hZ ⊢
        generalize ruleScms B stable d mis inds P cmv p' = r at hZ hlen ⊢
        have hmean : ((eyeRows d).map fun α => integND r (fun x => monomial (x.map fun t => (t - 0) / 1) α * pdf y x) / Z)
            = (List.range d).map fun j => integND r (fun x => x.getD j 0 * pdf y x) / Z := by
          rw [eyeRows_eq, List.map_map]
          apply List.map_congr_left
          intro l hl
          simp only [Function.comp_def]
          congr 1
          apply integND_congr
          intro q hq
          rw [monomial_axis _ (by simp [hlen q hq]) l 1 (by simpa using hl)]
          simp
        rw [hmean]
        have hml : ((List.range d).map fun j => integND r (fun x => x.getD j 0 * pdf y x) / Z).length = d := by simp
        have hmg : ∀ j < d, ((List.range d).map fun j => integND r (fun x => x.getD j 0 * pdf y x) / Z).getD j 0
            = integND r (fun x => x.getD j 0 * pdf y x) / Z := fun j hj => getD_map_range' _ hj
        generalize ((List.range d).map fun j => integND r (fun x => x.getD j 0 * pdf y x) / Z) = m at hml hmg ⊢
        have hscale : ((eyeRows d).map fun α => Real.sqrt (integND r (fun x =>
              monomial (List.zipWith (fun t m => (t - m) / 1) x m) (α.map (· * 2)) * pdf y x) / Z))
            = (List.range d).map fun j => Real.sqrt (integND r (fun x => (x.getD j 0 - m.getD j 0) ^ 2 * pdf y x) / Z) := by
          rw [eyeRows_eq, List.map_map]
          apply List.map_congr_left
          intro l hl
          simp only [Function.comp_def, div_one]
          congr 2
          apply integND_congr
          intro q hq
          rw [axisIndex_double, one_mul, monomial_axis _ (by simp [hlen q hq, hml]) l 2 (by simpa using hl),
            getD_zipWith_sub (hlen q hq) hml]
        rw [hscale]
        have hsl : ((List.range d).map fun j => Real.sqrt (integND r (fun x => (x.getD j 0 - m.getD j 0) ^ 2 * pdf y x) / Z)).length = d := by
          simp
        have hsg : ∀ j < d, ((List.range d).map fun j => Real.sqrt (integND r (fun x => (x.getD j 0 - m.getD j 0) ^ 2 * pdf y x) / Z)).getD j 0
            = Real.sqrt (integND r (fun x => (x.getD j 0 - m.getD j 0) ^ 2 * pdf y x) / Z) := fun j hj => getD_map_range' _ hj
        generalize ((List.range d).map fun j => Real.sqrt (integND r (fun x => (x.getD j 0 - m.getD j 0) ^ 2 * pdf y x) / Z))
          = s at hsl hsg ⊢
        have key : ∀ j k, j < d → integND r (fun x =>
            monomial (List.zipWith (· / ·) (List.zipWith (· - ·) x m) s) (axisIndex d j k) * pdf y x)
            = ((s.getD j 0) ^ k)⁻¹ * integND r (fun x => (x.getD j 0 - m.getD j 0) ^ k * pdf y x) := by
          intro j k hj
          rw [← integND_mul_left]
          apply integND_congr
          intro q hq
          have hq := hlen q hq
          rw [monomial_axis _ (by simp [hq, hml, hsl]) j k hj]
          have : (List.zipWith (· / ·) (List.zipWith (· - ·) q.2 m) s).getD j 0
              = (q.2.getD j 0 - m.getD j 0) / s.getD j 0 := by
            simp [List.getD_eq_getElem?_getD, hq, hml, hsl, hj]
          rw [this, div_pow]
          ring
        constructor
        · intro i j hj hij
          simp only [List.getElem?_map, hij, Option.map_some, Option.some.injEq]
          rw [key j 1 hj]
          have : integND r (fun x => (x.getD j 0 - m.getD j 0) ^ 1 * pdf y x)
              = integND r (fun x => x.getD j 0 * pdf y x) - m.getD j 0 * integND r (pdf y) := by
            rw [← integND_mul_left, ← integND_sub]
            apply integND_congr
            intro q hq
            ring
          rw [this, hmg j hj, hZ, div_mul_cancel₀ _ hl]
          simp
        · intro i j hj hij hs
          simp only [List.getElem?_map, hij, Option.map_some, Option.some.injEq]
          rw [hsg j hj] at hs
          have hpos := Real.sqrt_ne_zero'.1 hs
          rw [key j 2 hj, hsg j hj, Real.sq_sqrt hpos.le, mul_div_assoc]
          exact inv_mul_cancel₀ hpos.ne'

/-- the tables produced by the library qualify, and contain the multi-indices spoken about. -/
example : generateMultiIndices 2 3 0 = .ok [[0, 0], [0, 1], [1, 0], [0, 2], [1, 1], [2, 0], [0, 3], [1, 2], [2, 1], [3, 0]] ∧
    axisIndex 2 0 1 = [1, 0] ∧ axisIndex 2 1 2 = [0, 2] ∧ List.replicate 2 0 = [0, 0] := ⟨by rfl, by rfl, by rfl, by rfl⟩

/-! ## C37 -/

theorem integND_rule1 (B : Backend) (ms : List ℝ) (m s : ℝ) (sort ldl : Bool) (F : List ℝ → ℝ) :
    integND ((ruleList B ms m s sort ldl).map fun p => (p.1, [p.2])) F
      = integ (Quad1.momentQuadrature B ms m s sort ldl) (fun x => F [x]) := by
  rw [integND, List.map_map, ruleList, List.map_ofFn, List.sum_ofFn]
  rfl

theorem generate_one (u : ℕ) : generateMultiIndices 1 u 0 = .ok ((List.range (u + 1)).map fun k => [k]) := by
  simp [generateMultiIndices, List.range_eq_range']

/-- **C37.** For a scalar state (table `0, …, 2N - 1`), any backend and all inputs, the multidimensional filters return what
the one-dimensional filters return, with numbers wrapped in lists of length one. The conditional moments are given
through the `'multi-index'` signature (by C38 the other one is equivalent). -/
theorem C37_nd_one_dim (B : Backend) (stable : Bool) (N : ℕ) (hN : 1 ≤ N) (mis : List (List ℕ))
    (inds : List (List (List ℤ))) (h1 : generateMultiIndices 1 (2 * N - 1) 0 = .ok mis)
    (h2 : gramAndHankelIndices N 1 = .ok inds) (pdf : Y → ℝ → ℝ) (ys : List Y) (ms0 : List ℝ) (hl : ms0.length = 2 * N)
    (m0 s0 : ℝ) :
    (∀ P : ℝ → ℕ → ℝ,
      FilterND.filterRms B (.multiIndex fun x α _ => P (x.getD 0 0) (α.getD 0 0)) (fun y x => pdf y (x.getD 0 0)) ys
          (mis, inds) ms0 stable
        = .ok (Filter1.filterRms B P pdf ms0 ys stable)) ∧
    (∀ (P : ℝ → ℕ → ℝ → ℝ) (cm : ℝ → ℝ),
      FilterND.filterCms B (.multiIndex fun x α m => P (x.getD 0 0) (α.getD 0 0) (m.getD 0 0)) (fun x => [cm (x.getD 0 0)])
          (fun y x => pdf y (x.getD 0 0)) ys (mis, inds) ms0 [m0] stable
        = .ok ((Filter1.filterCms B P cm pdf ms0 m0 ys stable).1.map (fun o => (o.1, [o.2])),
            (Filter1.filterCms B P cm pdf ms0 m0 ys stable).2)) ∧
    (∀ (P : ℝ → ℕ → ℝ → ℝ → ℝ) (cm cv : ℝ → ℝ),
      FilterND.filterScms B (.multiIndex fun x α a => P (x.getD 0 0) (α.getD 0 0) (a.1.getD 0 0) (a.2.getD 0 0))
          (fun x => ([cm (x.getD 0 0)], [cv (x.getD 0 0)])) (fun y x => pdf y (x.getD 0 0)) ys (mis, inds) ms0 [m0] [s0] stable
        = .ok ((Filter1.filterScms B P cm cv pdf ms0 m0 s0 ys stable).1.map (fun o => (o.1, [o.2.1], [o.2.2])),
            (Filter1.filterScms B P cm cv pdf ms0 m0 s0 ys stable).2)) := by
  have hmis : mis = (List.range (2 * N)).map fun k => [k] := by
    rw [generate_one, show 2 * N - 1 + 1 = 2 * N by omega] at h1
    cases h1; rfl
  have hlen : mis.length = 2 * N := by simp [hmis]
  have hd : (mis.headD []).length = 1 := by
    rw [hmis, show 2 * N = (2 * N - 1) + 1 by omega, List.range_succ_eq_map]
    simp
  have hmon : ∀ (x : ℝ) (k : ℕ), monomial [x] [k] = x ^ k := by intro x k; simp [monomial]
  have hQ : ∀ (ms : List ℝ) (m s : ℝ), ms.length = 2 * N →
      (∀ F, integND (momentQuadratureND B ms inds none none false stable) F
        = integ (Quad1.momentQuadrature B ms 0 1 false stable) (fun x => F [x])) ∧
      (∀ F, integND (momentQuadratureND B ms inds (some [m]) none false stable) F
        = integ (Quad1.momentQuadrature B ms m 1 false stable) (fun x => F [x])) ∧
      (∀ F, integND (momentQuadratureND B ms inds (some [m]) (some [s]) false stable) F
        = integ (Quad1.momentQuadrature B ms m s false stable) (fun x => F [x])) := by
    intro ms m s hms
    obtain ⟨a, b, c⟩ := C23_nd_one_dim B N hN inds h2 ms (by omega) m s false stable
    refine ⟨?_, ?_, ?_⟩ <;> intro F
    · rw [a, integND_rule1]
    · rw [b, integND_rule1]
    · rw [c, integND_rule1]
  have hvec : ∀ {A : Type} (r : List (ℝ × List ℝ)) (f : List ℝ → List ℕ → A → ℝ) (a : A),
      wsumVec mis.length r ((CondMoments.multiIndex f).row mis a)
        = (List.range (2 * N)).map fun k => integND r fun x => f x [k] a := by
    intro A r f a
    rw [wsumVec, hlen]
    apply List.map_congr_left
    intro k hk
    rw [FilterND.wsum_eq]
    apply integND_congr
    intro p _
    have hk : k < 2 * N := by simpa using hk
    simp [CondMoments.row, hmis, List.getD_eq_getElem?_getD, hk]
  have hlift : ∀ {S S' : Type} (e : S → S') (g : S → Y → S) (g' : S' → Y → S') (l : S → Y → ℝ) (l' : S' → Y → ℝ)
      (I : S → Prop) (_ : ∀ s y, I s → I (g s y)) (_ : ∀ s y, I s → g' (e s) y = e (g s y)) (_ : ∀ s y, I s → l' (e s) y = l s y)
      (s : S) (_ : I s), traj g' (e s) ys = (traj g s ys).map e ∧ liks g' l' (e s) ys = liks g l s ys := by
    intro S S' e g g' l l' I hI hg hll s hs
    induction ys generalizing s with
    | nil => simp [traj, liks]
    | cons y ys ih =>
      obtain ⟨i1, i2⟩ := ih (g s y) (hI s y hs)
      simp only [traj, liks, List.map_cons, hg s y hs, hll s y hs, i1, i2, and_self]
  refine ⟨?_, ?_, ?_⟩
  · intro P
    rw [FilterND.filterRms_eq, if_neg (by simp [hlen, hl]), Filter1.filterRms_eq]
    have hpred : ∀ s, s.length = 2 * N → FilterND.predRms B stable mis inds (.multiIndex fun x α _ => P (x.getD 0 0) (α.getD 0 0)) s
        = Filter1.predRms B stable P ms0.length s := by
      intro s hs
      rw [FilterND.predRms, hvec, Filter1.predRms, hl]
      apply List.map_congr_left
      intro k _
      rw [(hQ s 0 0 hs).1]
      simp
    have hpl : ∀ s, (Filter1.predRms B stable P ms0.length s).length = 2 * N := by intro s; simp [Filter1.predRms, hl]
    have hlik : ∀ s (y : Y), s.length = 2 * N → FilterND.likRms B stable (fun y x => pdf y (x.getD 0 0)) mis inds
        (.multiIndex fun x α _ => P (x.getD 0 0) (α.getD 0 0)) s y = Filter1.likRms B stable P pdf ms0.length s y := by
      intro s y hs
      rw [FilterND.likRms, ruleRms, hpred s hs, (hQ _ 0 0 (hpl s)).1]
      rfl
    obtain ⟨t1, t2⟩ := hlift (S := List ℝ) id (Filter1.nextRms B stable P pdf ms0.length)
      (FilterND.nextRms B stable (fun y x => pdf y (x.getD 0 0)) mis inds (.multiIndex fun x α _ => P (x.getD 0 0) (α.getD 0 0)))
      (Filter1.likRms B stable P pdf ms0.length)
      (FilterND.likRms B stable (fun y x => pdf y (x.getD 0 0)) mis inds (.multiIndex fun x α _ => P (x.getD 0 0) (α.getD 0 0)))
      (fun s => s.length = 2 * N) (fun s y _ => by simp [Filter1.nextRms, hl]) (fun s y hs => by
        simp only [id]
        rw [FilterND.nextRms, Filter1.nextRms, hlik s y hs, ruleRms, hpred s hs, hl]
        conv_lhs => rw [hmis]
        rw [List.map_map]
        apply List.map_congr_left
        intro k _
        simp only [Function.comp_def]
        rw [← hl, (hQ _ 0 0 (hpl s)).1]
        simp [hmon]) (fun s y hs => hlik s y hs) ms0 hl
    simp only [id, List.map_id] at t1 t2
    dsimp only
    rw [t1, t2]
  · intro P cm
    rw [FilterND.filterCms_eq, if_neg (by simp [hlen, hl]), Filter1.filterCms_eq, hd]
    have hpred : ∀ s : List ℝ × ℝ, s.1.length = 2 * N → FilterND.predCms B stable 1 mis inds
        (.multiIndex fun x α m => P (x.getD 0 0) (α.getD 0 0) (m.getD 0 0)) (fun x => [cm (x.getD 0 0)]) (s.1, [s.2])
        = ((Filter1.predCms B stable P cm ms0.length s).1, [(Filter1.predCms B stable P cm ms0.length s).2]) := by
      intro s hs
      have hm : wsumVec 1 (momentQuadratureND B s.1 inds (some [s.2]) none false stable) (fun x => [cm (x.getD 0 0)])
          = [integ (Quad1.momentQuadrature B s.1 s.2 1 false stable) cm] := by
        have := (hQ s.1 s.2 0 hs).2.1 (fun x => cm (x.getD 0 0))
        simp only [wsumVec, FilterND.wsum_eq, List.range_one, List.map_cons, List.map_nil, List.getD_cons_zero]
        rw [this]
        simp
      simp only [FilterND.predCms, Filter1.predCms]
      rw [hm, hvec, hl]
      congr 1
      apply List.map_congr_left
      intro k _
      rw [(hQ s.1 s.2 0 hs).2.1]
      simp
    have hpl : ∀ s, (Filter1.predCms B stable P cm ms0.length s).1.length = 2 * N := by intro s; simp [Filter1.predCms, hl]
    have hr : ∀ s : List ℝ × ℝ, s.1.length = 2 * N → ∀ F, integND (FilterND.ruleCms B stable 1 mis inds
        (.multiIndex fun x α m => P (x.getD 0 0) (α.getD 0 0) (m.getD 0 0)) (fun x => [cm (x.getD 0 0)]) (s.1, [s.2])) F
        = integ (Quad1.momentQuadrature B (Filter1.predCms B stable P cm ms0.length s).1
            (Filter1.predCms B stable P cm ms0.length s).2 1 false stable) (fun x => F [x]) := by
      intro s hs F
      simp only [ruleCms]
      rw [hpred s hs, (hQ _ _ 0 (hpl s)).2.1]
    have hlik : ∀ (s : List ℝ × ℝ) (y : Y), s.1.length = 2 * N → FilterND.likCms B stable (fun y x => pdf y (x.getD 0 0)) 1 mis inds
        (.multiIndex fun x α m => P (x.getD 0 0) (α.getD 0 0) (m.getD 0 0)) (fun x => [cm (x.getD 0 0)]) (s.1, [s.2]) y
          = Filter1.likCms B stable P cm pdf ms0.length s y := by
      intro s y hs
      rw [FilterND.likCms, hr s hs]
      rfl
    obtain ⟨t1, t2⟩ := hlift (fun s : List ℝ × ℝ => (s.1, [s.2])) (Filter1.nextCms B stable P cm pdf ms0.length)
      (FilterND.nextCms B stable (fun y x => pdf y (x.getD 0 0)) 1 mis inds
        (.multiIndex fun x α m => P (x.getD 0 0) (α.getD 0 0) (m.getD 0 0)) (fun x => [cm (x.getD 0 0)]))
      (Filter1.likCms B stable P cm pdf ms0.length)
      (FilterND.likCms B stable (fun y x => pdf y (x.getD 0 0)) 1 mis inds
        (.multiIndex fun x α m => P (x.getD 0 0) (α.getD 0 0) (m.getD 0 0)) (fun x => [cm (x.getD 0 0)]))
      (fun s => s.1.length = 2 * N) (fun s y _ => by simp [Filter1.nextCms, hl]) (fun s y hs => by
        simp only [FilterND.nextCms, Filter1.nextCms]
        rw [hlik s y hs]
        simp only [hr s hs]
        have he : eyeRows 1 = [[1]] := by rfl
        rw [he, hl]
        simp only [List.map_cons, List.map_nil, hmon, List.getD_cons_zero]
        congr 1
        conv_lhs => rw [hmis]
        rw [List.map_map]
        apply List.map_congr_left
        intro k _
        simp [Function.comp_def, hmon]) (fun s y hs => hlik s y hs) (ms0, m0) hl
    dsimp only at t1 t2 ⊢
    rw [t1, t2]
  · intro P cm cv
    rw [FilterND.filterScms_eq, if_neg (by simp [hlen, hl]), Filter1.filterScms_eq, hd]
    have hpred : ∀ s : List ℝ × ℝ × ℝ, s.1.length = 2 * N → FilterND.predScms B stable 1 mis inds
        (.multiIndex fun x α a => P (x.getD 0 0) (α.getD 0 0) (a.1.getD 0 0) (a.2.getD 0 0))
          (fun x => ([cm (x.getD 0 0)], [cv (x.getD 0 0)])) (s.1, [s.2.1], [s.2.2])
        = ((Filter1.predScms B stable P cm cv ms0.length s).1, [(Filter1.predScms B stable P cm cv ms0.length s).2.1],
            [(Filter1.predScms B stable P cm cv ms0.length s).2.2]) := by
      intro s hs
      have hm : ∀ cm : ℝ → ℝ, wsumVec 1 (momentQuadratureND B s.1 inds (some [s.2.1]) (some [s.2.2]) false stable) (fun x => [cm (x.getD 0 0)])
          = [integ (Quad1.momentQuadrature B s.1 s.2.1 s.2.2 false stable) cm] := by
        intro cm
        have := (hQ s.1 s.2.1 s.2.2 hs).2.2 (fun x => cm (x.getD 0 0))
        simp only [wsumVec, FilterND.wsum_eq, List.range_one, List.map_cons, List.map_nil, List.getD_cons_zero]
        rw [this]
        simp
      simp only [FilterND.predScms, Filter1.predScms]
      rw [hm, hm, hvec, hl]
      congr 1
      apply List.map_congr_left
      intro k _
      rw [(hQ s.1 s.2.1 s.2.2 hs).2.2]
      simp
    have hpl : ∀ s, (Filter1.predScms B stable P cm cv ms0.length s).1.length = 2 * N := by intro s; simp [Filter1.predScms, hl]
    have hr : ∀ s : List ℝ × ℝ × ℝ, s.1.length = 2 * N → ∀ F, integND (FilterND.ruleScms B stable 1 mis inds
        (.multiIndex fun x α a => P (x.getD 0 0) (α.getD 0 0) (a.1.getD 0 0) (a.2.getD 0 0))
          (fun x => ([cm (x.getD 0 0)], [cv (x.getD 0 0)])) (s.1, [s.2.1], [s.2.2])) F
        = integ (Quad1.momentQuadrature B (Filter1.predScms B stable P cm cv ms0.length s).1
            (Filter1.predScms B stable P cm cv ms0.length s).2.1
            (Filter1.predScms B stable P cm cv ms0.length s).2.2 false stable) (fun x => F [x]) := by
      intro s hs F
      simp only [ruleScms]
      rw [hpred s hs, (hQ _ _ _ (hpl s)).2.2]
    have hlik : ∀ (s : List ℝ × ℝ × ℝ) (y : Y), s.1.length = 2 * N →
        FilterND.likScms B stable (fun y x => pdf y (x.getD 0 0)) 1 mis inds
        (.multiIndex fun x α a => P (x.getD 0 0) (α.getD 0 0) (a.1.getD 0 0) (a.2.getD 0 0))
          (fun x => ([cm (x.getD 0 0)], [cv (x.getD 0 0)])) (s.1, [s.2.1], [s.2.2]) y
          = Filter1.likScms B stable P cm cv pdf ms0.length s y := by
      intro s y hs
      rw [FilterND.likScms, hr s hs]
      rfl
    obtain ⟨t1, t2⟩ := hlift (fun s : List ℝ × ℝ × ℝ => (s.1, [s.2.1], [s.2.2]))
      (Filter1.nextScms B stable P cm cv pdf ms0.length)
      (FilterND.nextScms B stable (fun y x => pdf y (x.getD 0 0)) 1 mis inds
        (.multiIndex fun x α a => P (x.getD 0 0) (α.getD 0 0) (a.1.getD 0 0) (a.2.getD 0 0))
          (fun x => ([cm (x.getD 0 0)], [cv (x.getD 0 0)])))
      (Filter1.likScms B stable P cm cv pdf ms0.length)
      (FilterND.likScms B stable (fun y x => pdf y (x.getD 0 0)) 1 mis inds
        (.multiIndex fun x α a => P (x.getD 0 0) (α.getD 0 0) (a.1.getD 0 0) (a.2.getD 0 0))
          (fun x => ([cm (x.getD 0 0)], [cv (x.getD 0 0)])))
      (fun s => s.1.length = 2 * N) (fun s y _ => by simp [Filter1.nextScms, hl]) (fun s y hs => by
        simp only [FilterND.nextScms, Filter1.nextScms]
        rw [hlik s y hs]
        simp only [hr s hs]
        have he : eyeRows 1 = [[1]] := by rfl
        rw [he, hl]
        simp only [List.map_cons, List.map_nil, hmon, List.getD_cons_zero, List.zipWith_cons_cons, List.zipWith_nil_left,
          one_mul]
        congr 1
        conv_lhs => rw [hmis]
        rw [List.map_map]
        apply List.map_congr_left
        intro k _
        simp [Function.comp_def, hmon]) (fun s y hs => hlik s y hs) (ms0, m0, s0) hl
    dsimp only at t1 t2 ⊢
    rw [t1, t2]

example : generateMultiIndices 1 (2 * 2 - 1) 0 = .ok [[0], [1], [2], [3]] ∧
    gramAndHankelIndices 2 1 = .ok [[[0, 1], [1, 2]], [[1, 2], [2, 3]]] := ⟨by rfl, by rfl⟩

/-! ## C38 -/

/-- **C38.** If `f(x, i, …) = g(x, multi_indices[i], …)` for all positions `i`, passing `(f, 'index')` or
`(g, 'multi-index')` gives the same result, in all three filters. -/
theorem C38_index_signature (B : Backend) (stable : Bool) (pdf : Y → List ℝ → ℝ) (ys : List Y) (mis : List (List ℕ))
    (inds : List (List (List ℤ))) (ms0 m0 s0 : List ℝ) (cm : List ℝ → List ℝ) (cmv : List ℝ → List ℝ × List ℝ) :
    (∀ (f : List ℝ → ℕ → Unit → ℝ) (g : List ℝ → List ℕ → Unit → ℝ),
      (∀ x a (i : ℕ) α, mis[i]? = some α → f x i a = g x α a) →
      FilterND.filterRms B (.index f) pdf ys (mis, inds) ms0 stable
        = FilterND.filterRms B (.multiIndex g) pdf ys (mis, inds) ms0 stable) ∧
    (∀ (f : List ℝ → ℕ → List ℝ → ℝ) (g : List ℝ → List ℕ → List ℝ → ℝ),
      (∀ x a (i : ℕ) α, mis[i]? = some α → f x i a = g x α a) →
      FilterND.filterCms B (.index f) cm pdf ys (mis, inds) ms0 m0 stable
        = FilterND.filterCms B (.multiIndex g) cm pdf ys (mis, inds) ms0 m0 stable) ∧
    (∀ (f : List ℝ → ℕ → List ℝ × List ℝ → ℝ) (g : List ℝ → List ℕ → List ℝ × List ℝ → ℝ),
      (∀ x a (i : ℕ) α, mis[i]? = some α → f x i a = g x α a) →
      FilterND.filterScms B (.index f) cmv pdf ys (mis, inds) ms0 m0 s0 stable
        = FilterND.filterScms B (.multiIndex g) cmv pdf ys (mis, inds) ms0 m0 s0 stable) := by
  have key : ∀ {A : Type} (f : List ℝ → ℕ → A → ℝ) (g : List ℝ → List ℕ → A → ℝ),
      (∀ x a (i : ℕ) α, mis[i]? = some α → f x i a = g x α a) →
      (CondMoments.index f).row mis = (CondMoments.multiIndex g).row mis := by
    intro A f g h
    funext a x
    simp only [CondMoments.row]
    apply List.ext_getElem
    · simp
    · intro i h1 h2
      simp only [List.getElem_map, List.getElem_range]
      exact h x a i _ (by simp)
  refine ⟨?_, ?_, ?_⟩
  · intro f g h
    have : rmsStep B stable (.index f) pdf mis inds = rmsStep B stable (.multiIndex g) pdf mis inds := by
      funext c y
      simp only [rmsStep, key f g h]
    simp only [FilterND.filterRms, this]
  · intro f g h
    have : cmsStep B stable (.index f) cm pdf (mis.headD []).length mis inds
        = cmsStep B stable (.multiIndex g) cm pdf (mis.headD []).length mis inds := by
      funext c y
      simp only [cmsStep, key f g h]
    simp only [FilterND.filterCms, this]
  · intro f g h
    have : scmsStep B stable (.index f) cmv pdf (mis.headD []).length mis inds
        = scmsStep B stable (.multiIndex g) cmv pdf (mis.headD []).length mis inds := by
      funext c y
      simp only [scmsStep, key f g h]
    simp only [FilterND.filterScms, this]

/-- the two signatures of "sum of the multi-index" for a table of three rows. -/
example : ∀ (i : ℕ) α, ([[0, 0], [0, 1], [1, 0]] : List (List ℕ))[i]? = some α → (if i = 0 then (0 : ℝ) else 1) = (α.sum : ℝ) := by
  intro i α h
  match i with
  | 0 => simp at h; subst h; simp
  | 1 => simp at h; subst h; simp
  | 2 => simp at h; subst h; simp
  | i + 3 => simp at h

end Mfs.Props

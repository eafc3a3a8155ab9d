import Verif.Props.NDProduct
import Verif.Props.NoBreak
import Verif.Props.FilterND

/-!
# C198: on decoupled models the multidimensional filters run the one-dimensional filters of the coordinates
-/

namespace Mfs.Props

open Matrix Mfs.MultiIndex Mfs.QuadND Mfs.Spec Mfs.Quad1 Mfs.Filter1 Polynomial

variable {Y : Type} {d : ℕ}

/-- moments of a coordinate as the filters carry them. -/
def CoordOk (N : ℕ) (s : List ℝ) : Prop := s.length = 2 * N ∧ s.getD 0 0 = 1 ∧ (gramOf s).PosDef

/-- products of functions of the coordinates under the rule of independent coordinates. -/
theorem rule_prod (B : Backend) (hB : B.Valid) (N : ℕ) (hN : 1 ≤ N) (hd : 1 ≤ d) (full : List (List ℕ)) (mats : List (List (List ℤ)))
    (hfull : generateMultiIndices d (2 * N - 1) 0 = .ok full) (hmats : gramAndHankelIndices N d = .ok mats)
    (ms : Fin d → List ℝ) (hms : ∀ j, CoordOk N (ms j)) (stable : Bool) (F : List ℝ → ℝ) (f : Fin d → ℝ → ℝ)
    (hF : ∀ x : Fin d → ℝ, F (List.ofFn x) = ∏ j, f j (x j)) :
    integND (momentQuadratureND B (full.map fun α => ∏ j : Fin d, (ms j).getD (α.getD j 0) 0) mats none none false stable) F
      = ∏ j, integ (momentQuadrature B (ms j) 0 1 false stable) (f j) ∧
    (∀ m : Fin d → ℝ, integND (momentQuadratureND B (full.map fun α => ∏ j : Fin d, (ms j).getD (α.getD j 0) 0) mats
        (some (List.ofFn m)) none false stable) F = ∏ j, integ (momentQuadrature B (ms j) (m j) 1 false stable) (f j)) ∧
    (∀ m s : Fin d → ℝ, integND (momentQuadratureND B (full.map fun α => ∏ j : Fin d, (ms j).getD (α.getD j 0) 0) mats
        (some (List.ofFn m)) (some (List.ofFn s)) false stable) F
      = ∏ j, integ (momentQuadrature B (ms j) (m j) (s j) false stable) (f j)) := by
  obtain ⟨basis, hbasis, -, -⟩ := C01_generate_complete d (N - 1) 0 hd (by omega)
  have hpd : ∀ j, (Matrix.of fun a b : Fin N => (ms j).getD (a + b) 0).PosDef := by
    intro j
    have h := (hms j).2.2
    have e : ∀ n, n = N → (hankelMat n fun k => (ms j).getD k 0).PosDef → (Matrix.of fun a b : Fin N => (ms j).getD (a + b) 0).PosDef := by
      rintro n rfl h; exact h
    exact e _ (by rw [(hms j).1]; omega) h
  have h := C114_independent_coordinates B hB N d hN hd basis full mats hbasis hfull hmats (fun j k => (ms j).getD k 0)
    (fun j => (hms j).2.1) hpd false stable
  have hl : ∀ j, (List.range (2 * N)).map (fun k => (ms j).getD k 0) = ms j := by
    intro j
    apply List.ext_getElem
    · simp [(hms j).1]
    · intro k h1 h2
      simp [List.getD_eq_getElem?_getD, h2]
  have key : ∀ (l : Fin d → List ℝ) (m s : Fin d → ℝ), (∑ i : (j : Fin d) → Fin ((l j).length / 2),
      (∏ j, (momentQuadrature B (l j) (m j) (s j) false stable).1 (i j))
        * F (List.ofFn fun j => (momentQuadrature B (l j) (m j) (s j) false stable).2 (i j)))
      = ∏ j, integ (momentQuadrature B (l j) (m j) (s j) false stable) (f j) := by
    intro l m s
    have e2 := Finset.prod_univ_sum (fun j : Fin d => (Finset.univ : Finset (Fin ((l j).length / 2))))
      (fun j k => (momentQuadrature B (l j) (m j) (s j) false stable).1 k * f j ((momentQuadrature B (l j) (m j) (s j) false stable).2 k))
    rw [Fintype.piFinset_univ] at e2
    simp only [integ]
    rw [e2]
    refine Finset.sum_congr rfl fun i _ => ?_
    rw [hF, ← Finset.prod_mul_distrib]
  have key2 : ∀ m s : Fin d → ℝ, ∏ j, integ (momentQuadrature B ((List.range (2 * N)).map fun k => (ms j).getD k 0) (m j) (s j) false stable) (f j)
      = ∏ j, integ (momentQuadrature B (ms j) (m j) (s j) false stable) (f j) := fun m s =>
    Finset.prod_congr rfl fun j _ => by rw [hl j]
  exact ⟨(h.2.1 F).trans ((key _ _ _).trans (key2 _ _)), fun m => (h.2.2.1 m F).trans ((key _ _ _).trans (key2 _ _)),
    fun m s => (h.2.2.2 m s F).trans ((key _ _ _).trans (key2 _ _))⟩

theorem monomial_ofFn_getD (x : Fin d → ℝ) (α : List ℕ) (hα : α.length = d) : Spec.monomial (List.ofFn x) α = ∏ j, x j ^ α.getD j 0 := by
  rw [← List.prod_ofFn]
  show (List.zipWith (· ^ ·) (List.ofFn x) α).prod = _
  congr 1
  apply List.ext_getElem
  · simp [hα]
  · intro k h1 h2
    simp [List.getD_eq_getElem?_getD, hα]

theorem wsumVec_row {Args : Type} (full : List (List ℕ)) (r : List (ℝ × List ℝ)) (f : List ℝ → List ℕ → Args → ℝ) (a : Args) :
    FilterND.wsumVec full.length r ((FilterND.CondMoments.multiIndex f).row full a) = full.map fun α => integND r fun x => f x α a := by
  rw [FilterND.wsumVec]
  apply List.ext_getElem
  · simp
  · intro k h1 h2
    have hk : k < full.length := by simpa using h2
    simp [FilterND.CondMoments.row, FilterND.wsum_eq, List.getD_eq_getElem?_getD, hk]

/-- if one step of a filter acts on the coordinates separately, so does the filter. -/
theorem traj_coords {S S1 : Type} [Inhabited S1] (Φ : (Fin d → S1) → S) (g : S → Y → S) (lik : S → Y → ℝ) (g1 : Fin d → S1 → Y → S1)
    (lik1 : Fin d → S1 → Y → ℝ) (Ok : Fin d → S1 → List Y → Prop)
    (hstep : ∀ s y ys, (∀ j, Ok j (s j) (y :: ys)) → g (Φ s) y = Φ (fun j => g1 j (s j) y) ∧ lik (Φ s) y = ∏ j, lik1 j (s j) y ∧
      ∀ j, lik1 j (s j) y ≠ 0 ∧ Ok j (g1 j (s j) y) ys) (s : Fin d → S1) (ys : List Y) (hs : ∀ j, Ok j (s j) ys) :
    traj g (Φ s) ys = (List.range ys.length).map (fun t => Φ fun j => (traj (g1 j) (s j) ys).getD t default) ∧
    -((liks g lik (Φ s) ys).map Real.log).sum = ∑ j, -((liks (g1 j) (lik1 j) (s j) ys).map Real.log).sum := by
  induction ys generalizing s with
  | nil => simp [traj, liks]
  | cons y ys ih =>
    obtain ⟨h1, h2, h3⟩ := hstep s y ys hs
    obtain ⟨i1, i2⟩ := ih (fun j => g1 j (s j) y) fun j => (h3 j).2
    constructor
    · simp only [traj, h1, i1, List.length_cons, List.range_succ_eq_map, List.map_cons, List.map_map, List.getD_cons_zero]
      congr 1
    · simp only [liks, h1, h2, List.map_cons, List.sum_cons, neg_add, i2, Finset.sum_add_distrib]
      rw [Real.log_prod (fun j _ => (h3 j).1), ← Finset.sum_neg_distrib]

theorem wsumVec_coord {r : List (ℝ × List ℝ)} {n : Fin d → ℕ} (r1 : (j : Fin d) → (Fin (n j) → ℝ) × (Fin (n j) → ℝ))
    (hr : ∀ (F : List ℝ → ℝ) (f : Fin d → ℝ → ℝ), (∀ x : Fin d → ℝ, F (List.ofFn x) = ∏ j, f j (x j)) →
      integND r F = ∏ j, integ (r1 j) (f j)) (h1 : ∀ j, integ (r1 j) (fun _ => 1) = 1) (c : Fin d → ℝ → ℝ) :
    FilterND.wsumVec d r (fun x => List.ofFn fun j : Fin d => c j (x.getD j 0)) = List.ofFn fun j => integ (r1 j) (c j) := by
  rw [FilterND.wsumVec]
  apply List.ext_getElem
  · simp
  · intro k hk hk'
    have hkd : k < d := by simpa using hk
    simp only [List.getElem_map, List.getElem_range, List.getElem_ofFn, FilterND.wsum_eq]
    rw [hr _ (fun j t => if j = ⟨k, hkd⟩ then c j t else 1) fun x => ?_]
    · rw [Finset.prod_eq_single (⟨k, hkd⟩ : Fin d)]
      · simp
      · intro j _ hj
        simp only [hj, if_false]
        exact h1 j
      · simp
    · rw [Finset.prod_eq_single (⟨k, hkd⟩ : Fin d)]
      · simp [List.getD_eq_getElem?_getD, hkd]
      · intro j _ hj
        simp [hj]
      · simp

/-- a reweighted monomial: posterior moments of a rule that factorises. -/
theorem post_prod {r : List (ℝ × List ℝ)} {n : Fin d → ℕ} (r1 : (j : Fin d) → (Fin (n j) → ℝ) × (Fin (n j) → ℝ))
    (hr : ∀ (F : List ℝ → ℝ) (f : Fin d → ℝ → ℝ), (∀ x : Fin d → ℝ, F (List.ofFn x) = ∏ j, f j (x j)) →
      integND r F = ∏ j, integ (r1 j) (f j)) (pdf : Fin d → ℝ → ℝ) (T : List ℝ → List ℝ) (t : Fin d → ℝ → ℝ)
    (hT : ∀ x : Fin d → ℝ, T (List.ofFn x) = List.ofFn fun j => t j (x j)) (α : List ℕ) (hα : α.length = d) (Z : ℝ)
    (hZ : Z = ∏ j, integ (r1 j) (pdf j)) :
    integND r (fun x => Spec.monomial (T x) α * ∏ j, pdf j (x.getD j 0)) / Z
      = ∏ j, integ (r1 j) (fun x => t j x ^ α.getD j 0 * pdf j x) / integ (r1 j) (pdf j) := by
  rw [hr _ (fun j x => t j x ^ α.getD j 0 * pdf j x) fun x => ?_, hZ, Finset.prod_div_distrib]
  rw [hT, monomial_ofFn_getD _ _ hα, Finset.prod_mul_distrib]
  congr 1
  exact Finset.prod_congr rfl fun j _ => by simp [List.getD_eq_getElem?_getD]

theorem eyeRows_map {β : Type} (G : List ℕ → β) :
    (FilterND.eyeRows d).map G = List.ofFn fun j : Fin d => G ((List.range d).map fun i => if i = (j : ℕ) then 1 else 0) := by
  apply List.ext_getElem
  · simp [FilterND.eyeRows]
  · intro k h1 h2
    simp [FilterND.eyeRows]

theorem mem_full {N : ℕ} (hN : 1 ≤ N) (hd : 1 ≤ d) {full : List (List ℕ)} (hfull : generateMultiIndices d (2 * N - 1) 0 = .ok full) :
    (∀ α ∈ full, α.length = d ∧ ∀ j : Fin d, α.getD j 0 < 2 * N) ∧ (full.headD []).length = d := by
  obtain ⟨t, ht, -, hmem⟩ := C01_generate_complete d (2 * N - 1) 0 hd (by omega)
  rw [hfull] at ht; cases ht
  have h : ∀ α ∈ full, α.length = d ∧ ∀ j : Fin d, α.getD j 0 < 2 * N := by
    intro α hα
    obtain ⟨h1, -, h3⟩ := (hmem α).1 hα
    refine ⟨h1, fun j => ?_⟩
    have : α.getD j 0 ≤ α.sum := by
      rw [List.getD_eq_getElem _ _ (by rw [h1]; exact j.2)]
      exact List.le_sum_of_mem (List.getElem_mem _)
    omega
  refine ⟨h, ?_⟩
  have h0 : List.replicate d 0 ∈ full := (hmem _).2 ⟨by simp, by simp, by simp⟩
  cases full with
  | nil => simp at h0
  | cons α l => exact (h α (by simp)).1

theorem getD_range_map (n k : ℕ) (hk : k < n) (f : ℕ → ℝ) : ((List.range n).map f).getD k 0 = f k := by
  simp [List.getD_eq_getElem?_getD, hk]

/-- the rows of the identity matrix pick a coordinate of a factorised posterior. -/
theorem prod_row (k : ℕ) {n : Fin d → ℕ} (r1 : (j : Fin d) → (Fin (n j) → ℝ) × (Fin (n j) → ℝ)) (q : Fin d → ℝ → ℝ)
    (h1 : ∀ j, integ (r1 j) (q j) ≠ 0) (t : Fin d → ℝ → ℝ) (j : Fin d) (e : List ℕ)
    (he : ∀ i : Fin d, e.getD i 0 = if i = j then k else 0) :
    ∏ i, integ (r1 i) (fun x => t i x ^ e.getD i 0 * q i x) / integ (r1 i) (q i)
      = integ (r1 j) (fun x => t j x ^ k * q j x) / integ (r1 j) (q j) := by
  rw [Finset.prod_eq_single j]
  · rw [he, if_pos rfl]
  · intro i _ hi
    simp only [he, if_neg hi, pow_zero, one_mul]
    exact div_self (h1 i)
  · simp

theorem row_getD (j i : Fin d) : ((List.range d).map fun i => if i = (j : ℕ) then 1 else 0).getD i 0 = if i = j then 1 else 0 := by
  simp [List.getD_eq_getElem?_getD, Fin.ext_iff]

section

variable (B : Backend) (hB : B.Valid) (N : ℕ) (hN : 1 ≤ N) (hd : 1 ≤ d) (full : List (List ℕ)) (mats : List (List (List ℤ)))
  (hfull : generateMultiIndices d (2 * N - 1) 0 = .ok full) (hmats : gramAndHankelIndices N d = .ok mats) (stable : Bool)
  (pdf : Fin d → Y → ℝ → ℝ) (hpdf : ∀ j y x, 0 < pdf j y x)

include hB hN hd hfull hmats hpdf

theorem decoupled_step_rms (P : Fin d → ℝ → ℕ → ℝ) (hP : ∀ j x, P j x 0 = 1) (s : Fin d → List ℝ) (hs : ∀ j, CoordOk N (s j))
    (hp : ∀ j, (gramOf (predRms B stable (P j) (2 * N) (s j))).PosDef) (y : Y) :
    let PN : FilterND.CondMoments Unit := .multiIndex fun x α _ => ∏ j : Fin d, P j (x.getD j 0) (α.getD j 0)
    let pdfN : Y → List ℝ → ℝ := fun y x => ∏ j : Fin d, pdf j y (x.getD j 0)
    let S := full.map fun α => ∏ j : Fin d, (s j).getD (α.getD j 0) 0
    FilterND.nextRms B stable pdfN full mats PN S y
        = full.map (fun α => ∏ j : Fin d, (nextRms B stable (P j) (pdf j) (2 * N) (s j) y).getD (α.getD j 0) 0) ∧
    FilterND.likRms B stable pdfN full mats PN S y = ∏ j, likRms B stable (P j) (pdf j) (2 * N) (s j) y ∧
    ∀ j, likRms B stable (P j) (pdf j) (2 * N) (s j) y ≠ 0 ∧ (nextRms B stable (P j) (pdf j) (2 * N) (s j) y).length = 2 * N ∧
      (nextRms B stable (P j) (pdf j) (2 * N) (s j) y).getD 0 0 = 1 := by
  intro PN pdfN S
  obtain ⟨hm, -⟩ := mem_full hN hd hfull
  have hpred : FilterND.predRms B stable full mats PN S = full.map fun α => ∏ j : Fin d, (predRms B stable (P j) (2 * N) (s j)).getD (α.getD j 0) 0 := by
    rw [FilterND.predRms, wsumVec_row]
    refine List.map_congr_left fun α hα => ?_
    rw [(rule_prod B hB N hN hd full mats hfull hmats s hs stable _ (fun j x => P j x (α.getD j 0)) fun x => by
      simp [List.getD_eq_getElem?_getD]).1]
    refine Finset.prod_congr rfl fun j _ => ?_
    rw [predRms, getD_range_map _ _ ((hm α hα).2 j)]
  have hpOk : ∀ j, CoordOk N (predRms B stable (P j) (2 * N) (s j)) := fun j => ⟨by simp [predRms], by
    rw [predRms, getD_range_map _ _ (by omega)]
    simp only [hP]
    exact integ_const B hB _ (by rw [(hs j).1]; omega) _ _ _ _ _, hp j⟩
  have hr : ∀ (F : List ℝ → ℝ) (f : Fin d → ℝ → ℝ), (∀ x : Fin d → ℝ, F (List.ofFn x) = ∏ j, f j (x j)) →
      integND (FilterND.ruleRms B stable full mats PN S) F
        = ∏ j, integ (momentQuadrature B (predRms B stable (P j) (2 * N) (s j)) 0 1 false stable) (f j) := by
    intro F f hF
    rw [FilterND.ruleRms, hpred]
    exact (rule_prod B hB N hN hd full mats hfull hmats _ hpOk stable F f hF).1
  have hlik : FilterND.likRms B stable pdfN full mats PN S y = ∏ j, likRms B stable (P j) (pdf j) (2 * N) (s j) y := by
    rw [FilterND.likRms, hr _ (fun j x => pdf j y x) fun x => by simp [pdfN, List.getD_eq_getElem?_getD]]
    rfl
  have hne : ∀ j, likRms B stable (P j) (pdf j) (2 * N) (s j) y ≠ 0 := fun j =>
    (integ_pos_of_pos B hB _ (by simp [predRms]; omega) _ _ _ _ _ (hpdf j y)).ne'
  refine ⟨?_, hlik, fun j => ⟨hne j, by simp [nextRms], ?_⟩⟩
  · rw [FilterND.nextRms]
    refine List.map_congr_left fun α hα => ?_
    refine (post_prod _ hr (fun j => pdf j y) (fun x => x) (fun _ x => x) (fun _ => rfl) α (hm α hα).1 _ hlik).trans ?_
    refine Finset.prod_congr rfl fun j _ => ?_
    rw [nextRms, getD_range_map _ _ ((hm α hα).2 j)]
    rfl
  · rw [nextRms, getD_range_map _ _ (by omega)]
    simp only [pow_zero, one_mul]
    exact div_self (hne j)

theorem decoupled_step_cms (P : Fin d → ℝ → ℕ → ℝ → ℝ) (hP : ∀ j x m, P j x 0 m = 1) (cm : Fin d → ℝ → ℝ) (s : Fin d → List ℝ × ℝ)
    (hs : ∀ j, CoordOk N (s j).1) (hp : ∀ j, (gramOf (predCms B stable (P j) (cm j) (2 * N) (s j)).1).PosDef) (y : Y) :
    let PN : FilterND.CondMoments (List ℝ) := .multiIndex fun x α m => ∏ j : Fin d, P j (x.getD j 0) (α.getD j 0) (m.getD j 0)
    let cmN : List ℝ → List ℝ := fun x => List.ofFn fun j : Fin d => cm j (x.getD j 0)
    let pdfN : Y → List ℝ → ℝ := fun y x => ∏ j : Fin d, pdf j y (x.getD j 0)
    let Φ : (Fin d → List ℝ × ℝ) → List ℝ × List ℝ := fun s => (full.map fun α => ∏ j : Fin d, (s j).1.getD (α.getD j 0) 0, List.ofFn fun j => (s j).2)
    FilterND.nextCms B stable pdfN d full mats PN cmN (Φ s) y = Φ (fun j => nextCms B stable (P j) (cm j) (pdf j) (2 * N) (s j) y) ∧
    FilterND.likCms B stable pdfN d full mats PN cmN (Φ s) y = ∏ j, likCms B stable (P j) (cm j) (pdf j) (2 * N) (s j) y ∧
    ∀ j, likCms B stable (P j) (cm j) (pdf j) (2 * N) (s j) y ≠ 0 ∧ (nextCms B stable (P j) (cm j) (pdf j) (2 * N) (s j) y).1.length = 2 * N ∧
      (nextCms B stable (P j) (cm j) (pdf j) (2 * N) (s j) y).1.getD 0 0 = 1 := by
  intro PN cmN pdfN Φ
  obtain ⟨hm, -⟩ := mem_full hN hd hfull
  have hr0 : ∀ (F : List ℝ → ℝ) (f : Fin d → ℝ → ℝ), (∀ x : Fin d → ℝ, F (List.ofFn x) = ∏ j, f j (x j)) →
      integND (momentQuadratureND B (Φ s).1 mats (some (Φ s).2) none false stable) F
        = ∏ j, integ (momentQuadrature B (s j).1 (s j).2 1 false stable) (f j) := fun F f hF =>
    (rule_prod B hB N hN hd full mats hfull hmats (fun j => (s j).1) hs stable F f hF).2.1 _
  have hmean := wsumVec_coord _ hr0 (fun j => integ_const B hB _ (by rw [(hs j).1]; omega) _ _ _ _ _) cm
  have hpred : FilterND.predCms B stable d full mats PN cmN (Φ s) = Φ fun j => predCms B stable (P j) (cm j) (2 * N) (s j) := by
    rw [FilterND.predCms]
    simp only [wsumVec_row, hmean, cmN, PN]
    refine Prod.ext ?_ rfl
    refine List.map_congr_left fun α hα => ?_
    rw [hr0 _ (fun j x => P j x (α.getD j 0) (integ (momentQuadrature B (s j).1 (s j).2 1 false stable) (cm j))) fun x => by
      simp [List.getD_eq_getElem?_getD]]
    refine Finset.prod_congr rfl fun j _ => ?_
    simp only [predCms]
    rw [getD_range_map _ _ ((hm α hα).2 j)]
  have hpOk : ∀ j, CoordOk N (predCms B stable (P j) (cm j) (2 * N) (s j)).1 := fun j => ⟨by simp [predCms], by
    simp only [predCms]
    rw [getD_range_map _ _ (by omega)]
    simp only [hP]
    exact integ_const B hB _ (by rw [(hs j).1]; omega) _ _ _ _ _, hp j⟩
  have hr : ∀ (F : List ℝ → ℝ) (f : Fin d → ℝ → ℝ), (∀ x : Fin d → ℝ, F (List.ofFn x) = ∏ j, f j (x j)) →
      integND (FilterND.ruleCms B stable d full mats PN cmN (Φ s)) F
        = ∏ j, integ (momentQuadrature B (predCms B stable (P j) (cm j) (2 * N) (s j)).1 (predCms B stable (P j) (cm j) (2 * N) (s j)).2 1 false stable)
            (f j) := by
    intro F f hF
    simp only [FilterND.ruleCms, hpred]
    exact (rule_prod B hB N hN hd full mats hfull hmats _ hpOk stable F f hF).2.1 _
  have hlik : FilterND.likCms B stable pdfN d full mats PN cmN (Φ s) y = ∏ j, likCms B stable (P j) (cm j) (pdf j) (2 * N) (s j) y := by
    rw [FilterND.likCms, hr _ (fun j x => pdf j y x) fun x => by simp [pdfN, List.getD_eq_getElem?_getD]]
    rfl
  have hne : ∀ j, likCms B stable (P j) (cm j) (pdf j) (2 * N) (s j) y ≠ 0 := fun j =>
    (integ_pos_of_pos B hB _ (by simp [predCms]; omega) _ _ _ _ _ (hpdf j y)).ne'
  refine ⟨?_, hlik, fun j => ⟨hne j, by simp [nextCms], ?_⟩⟩
  · have hpm : (FilterND.nextCms B stable pdfN d full mats PN cmN (Φ s) y).2
        = List.ofFn fun j => (nextCms B stable (P j) (cm j) (pdf j) (2 * N) (s j) y).2 := by
      simp only [FilterND.nextCms, eyeRows_map]
      refine congrArg List.ofFn (funext fun j => ?_)
      refine (post_prod _ hr (fun j => pdf j y) (fun x => x.map (· - 0)) (fun _ x => x - 0) (fun x => by rw [List.map_ofFn]; rfl) _ (by simp) _ hlik).trans ?_
      exact prod_row 1 _ (fun j => pdf j y) hne (fun _ x => x - 0) j _ fun i => row_getD j i
    refine Prod.ext ?_ hpm
    have hpm' := hpm
    simp only [FilterND.nextCms] at hpm'
    simp only [FilterND.nextCms, hpm', Φ]
    refine List.map_congr_left fun α hα => ?_
    refine (post_prod _ hr (fun j => pdf j y) _ (fun j x => x - (nextCms B stable (P j) (cm j) (pdf j) (2 * N) (s j) y).2) (fun x => ?_) α
      (hm α hα).1 _ hlik).trans ?_
    · apply List.ext_getElem
      · simp
      · intro k h1 h2; simp
    · refine Finset.prod_congr rfl fun j _ => ?_
      simp only [nextCms]
      rw [getD_range_map _ _ ((hm α hα).2 j)]
      rfl
  · simp only [nextCms]
    rw [getD_range_map _ _ (by omega)]
    simp only [pow_zero, one_mul]
    exact div_self (hne j)

theorem decoupled_step_scms (P : Fin d → ℝ → ℕ → ℝ → ℝ → ℝ) (hP : ∀ j x m c, P j x 0 m c = 1) (cm cv : Fin d → ℝ → ℝ) (s : Fin d → List ℝ × ℝ × ℝ)
    (hs : ∀ j, CoordOk N (s j).1) (hp : ∀ j, (gramOf (predScms B stable (P j) (cm j) (cv j) (2 * N) (s j)).1).PosDef) (y : Y) :
    let PN : FilterND.CondMoments (List ℝ × List ℝ) :=
      .multiIndex fun x α a => ∏ j : Fin d, P j (x.getD j 0) (α.getD j 0) (a.1.getD j 0) (a.2.getD j 0)
    let cmN : List ℝ → List ℝ × List ℝ := fun x => (List.ofFn fun j : Fin d => cm j (x.getD j 0), List.ofFn fun j : Fin d => cv j (x.getD j 0))
    let pdfN : Y → List ℝ → ℝ := fun y x => ∏ j : Fin d, pdf j y (x.getD j 0)
    let Φ : (Fin d → List ℝ × ℝ × ℝ) → List ℝ × List ℝ × List ℝ := fun s =>
      (full.map fun α => ∏ j : Fin d, (s j).1.getD (α.getD j 0) 0, List.ofFn fun j => (s j).2.1, List.ofFn fun j => (s j).2.2)
    FilterND.nextScms B stable pdfN d full mats PN cmN (Φ s) y = Φ (fun j => nextScms B stable (P j) (cm j) (cv j) (pdf j) (2 * N) (s j) y) ∧
    FilterND.likScms B stable pdfN d full mats PN cmN (Φ s) y = ∏ j, likScms B stable (P j) (cm j) (cv j) (pdf j) (2 * N) (s j) y ∧
    ∀ j, likScms B stable (P j) (cm j) (cv j) (pdf j) (2 * N) (s j) y ≠ 0 ∧
      (nextScms B stable (P j) (cm j) (cv j) (pdf j) (2 * N) (s j) y).1.length = 2 * N ∧
      (nextScms B stable (P j) (cm j) (cv j) (pdf j) (2 * N) (s j) y).1.getD 0 0 = 1 := by
  intro PN cmN pdfN Φ
  obtain ⟨hm, -⟩ := mem_full hN hd hfull
  have hr0 : ∀ (F : List ℝ → ℝ) (f : Fin d → ℝ → ℝ), (∀ x : Fin d → ℝ, F (List.ofFn x) = ∏ j, f j (x j)) →
      integND (momentQuadratureND B (Φ s).1 mats (some (Φ s).2.1) (some (Φ s).2.2) false stable) F
        = ∏ j, integ (momentQuadrature B (s j).1 (s j).2.1 (s j).2.2 false stable) (f j) := fun F f hF =>
    (rule_prod B hB N hN hd full mats hfull hmats (fun j => (s j).1) hs stable F f hF).2.2 _ _
  have hc : ∀ j, integ (momentQuadrature B (s j).1 (s j).2.1 (s j).2.2 false stable) (fun _ => 1) = 1 := fun j =>
    integ_const B hB _ (by rw [(hs j).1]; omega) _ _ _ _ _
  have hmean := wsumVec_coord _ hr0 hc cm
  have hvar := wsumVec_coord _ hr0 hc cv
  have hpred : FilterND.predScms B stable d full mats PN cmN (Φ s) = Φ fun j => predScms B stable (P j) (cm j) (cv j) (2 * N) (s j) := by
    rw [FilterND.predScms]
    simp only [wsumVec_row, hmean, hvar, cmN, PN]
    refine Prod.ext ?_ (Prod.ext rfl ?_)
    · refine List.map_congr_left fun α hα => ?_
      rw [hr0 _ (fun j x => P j x (α.getD j 0) (integ (momentQuadrature B (s j).1 (s j).2.1 (s j).2.2 false stable) (cm j))
        (Real.sqrt (integ (momentQuadrature B (s j).1 (s j).2.1 (s j).2.2 false stable) (cv j)))) fun x => by
        simp [List.getD_eq_getElem?_getD]]
      refine Finset.prod_congr rfl fun j _ => ?_
      simp only [predScms]
      rw [getD_range_map _ _ ((hm α hα).2 j)]
    · simp [Φ, predScms, List.map_ofFn, Function.comp_def]
  have hpOk : ∀ j, CoordOk N (predScms B stable (P j) (cm j) (cv j) (2 * N) (s j)).1 := fun j => ⟨by simp [predScms], by
    simp only [predScms]
    rw [getD_range_map _ _ (by omega)]
    simp only [hP]
    exact hc j, hp j⟩
  have hr : ∀ (F : List ℝ → ℝ) (f : Fin d → ℝ → ℝ), (∀ x : Fin d → ℝ, F (List.ofFn x) = ∏ j, f j (x j)) →
      integND (FilterND.ruleScms B stable d full mats PN cmN (Φ s)) F
        = ∏ j, integ (momentQuadrature B (predScms B stable (P j) (cm j) (cv j) (2 * N) (s j)).1 (predScms B stable (P j) (cm j) (cv j) (2 * N) (s j)).2.1
            (predScms B stable (P j) (cm j) (cv j) (2 * N) (s j)).2.2 false stable) (f j) := by
    intro F f hF
    simp only [FilterND.ruleScms, hpred]
    exact (rule_prod B hB N hN hd full mats hfull hmats _ hpOk stable F f hF).2.2 _ _
  have hlik : FilterND.likScms B stable pdfN d full mats PN cmN (Φ s) y = ∏ j, likScms B stable (P j) (cm j) (cv j) (pdf j) (2 * N) (s j) y := by
    rw [FilterND.likScms, hr _ (fun j x => pdf j y x) fun x => by simp [pdfN, List.getD_eq_getElem?_getD]]
    rfl
  have hne : ∀ j, likScms B stable (P j) (cm j) (cv j) (pdf j) (2 * N) (s j) y ≠ 0 := fun j =>
    (integ_pos_of_pos B hB _ (by simp [predScms]; omega) _ _ _ _ _ (hpdf j y)).ne'
  refine ⟨?_, hlik, fun j => ⟨hne j, by simp [nextScms], ?_⟩⟩
  · have hpm : (FilterND.nextScms B stable pdfN d full mats PN cmN (Φ s) y).2.1
        = List.ofFn fun j => (nextScms B stable (P j) (cm j) (cv j) (pdf j) (2 * N) (s j) y).2.1 := by
      simp only [FilterND.nextScms, eyeRows_map]
      refine congrArg List.ofFn (funext fun j => ?_)
      refine (post_prod _ hr (fun j => pdf j y) (fun x => x.map fun t => (t - 0) / 1) (fun _ x => (x - 0) / 1)
        (fun x => by rw [List.map_ofFn]; rfl) _ (by simp) _ hlik).trans ?_
      exact prod_row 1 _ (fun j => pdf j y) hne (fun _ x => (x - 0) / 1) j _ fun i => row_getD j i
    have hpm' := hpm
    simp only [FilterND.nextScms] at hpm'
    have hps : (FilterND.nextScms B stable pdfN d full mats PN cmN (Φ s) y).2.2
        = List.ofFn fun j => (nextScms B stable (P j) (cm j) (cv j) (pdf j) (2 * N) (s j) y).2.2 := by
      simp only [FilterND.nextScms]
      rw [hpm', eyeRows_map]
      refine congrArg List.ofFn (funext fun j => congrArg Real.sqrt ?_)
      refine (post_prod _ hr (fun j => pdf j y) _ (fun j x => (x - (nextScms B stable (P j) (cm j) (cv j) (pdf j) (2 * N) (s j) y).2.1) / 1)
        (fun x => ?_) _ (by simp) _ hlik).trans ?_
      · apply List.ext_getElem
        · simp
        · intro k h1 h2; simp
      · exact prod_row 2 _ (fun j => pdf j y) hne
          (fun j x => (x - (nextScms B stable (P j) (cm j) (cv j) (pdf j) (2 * N) (s j) y).2.1) / 1) j _ fun i => by
            simp [List.getD_eq_getElem?_getD, Fin.ext_iff]
    have hps' := hps
    simp only [FilterND.nextScms] at hps'
    rw [hpm'] at hps'
    refine Prod.ext ?_ (Prod.ext hpm hps)
    simp only [FilterND.nextScms]
    rw [hpm', hps']
    refine List.map_congr_left fun α hα => ?_
    refine (post_prod _ hr (fun j => pdf j y) _ (fun j x => (x - (nextScms B stable (P j) (cm j) (cv j) (pdf j) (2 * N) (s j) y).2.1)
      / (nextScms B stable (P j) (cm j) (cv j) (pdf j) (2 * N) (s j) y).2.2) (fun x => ?_) α (hm α hα).1 _ hlik).trans ?_
    · apply List.ext_getElem
      · simp
      · intro k h1 h2; simp
    · refine Finset.prod_congr rfl fun j _ => ?_
      simp only [nextScms]
      rw [getD_range_map _ _ ((hm α hα).2 j)]
      rfl
  · simp only [nextScms]
    rw [getD_range_map _ _ (by omega)]
    simp only [pow_zero, one_mul]
    exact div_self (hne j)

/-- **C198, raw moments.** Let the coordinates of the state be independent under the initial law, move independently and enter the
likelihood as a product. As long as the one-dimensional filters of the coordinates meet positive definite Gram matrices, the
multidimensional filter returns the products of the moments that the one-dimensional filters return, and its negative
log-likelihood is the sum of theirs. -/
theorem C198_raw (P : Fin d → ℝ → ℕ → ℝ) (hP : ∀ j x, P j x 0 = 1) (rms0 : Fin d → List ℝ) (hl : ∀ j, (rms0 j).length = 2 * N)
    (h1 : ∀ j, (rms0 j).getD 0 0 = 1) (ys : List Y)
    (hv : ∀ j, GramsStay id (predRms B stable (P j) (2 * N)) (nextRms B stable (P j) (pdf j) (2 * N)) (rms0 j) ys) :
    let out := fun j => filterRms B (P j) (pdf j) (rms0 j) ys stable
    FilterND.filterRms B (.multiIndex fun x α _ => ∏ j : Fin d, P j (x.getD j 0) (α.getD j 0)) (fun y x => ∏ j : Fin d, pdf j y (x.getD j 0)) ys
        (full, mats) (full.map fun α => ∏ j : Fin d, (rms0 j).getD (α.getD j 0) 0) stable
      = .ok ((List.range ys.length).map fun t => full.map fun α => ∏ j : Fin d, ((out j).1.getD t []).getD (α.getD j 0) 0, ∑ j, (out j).2) := by
  intro out
  have h := traj_coords (fun s : Fin d → List ℝ => full.map fun α => ∏ j : Fin d, (s j).getD (α.getD j 0) 0)
    (FilterND.nextRms B stable (fun y x => ∏ j : Fin d, pdf j y (x.getD j 0)) full mats
      (.multiIndex fun x α _ => ∏ j : Fin d, P j (x.getD j 0) (α.getD j 0)))
    (FilterND.likRms B stable (fun y x => ∏ j : Fin d, pdf j y (x.getD j 0)) full mats
      (.multiIndex fun x α _ => ∏ j : Fin d, P j (x.getD j 0) (α.getD j 0)))
    (fun j => nextRms B stable (P j) (pdf j) (2 * N)) (fun j => likRms B stable (P j) (pdf j) (2 * N))
    (fun j s ys => s.length = 2 * N ∧ s.getD 0 0 = 1 ∧ GramsStay id (predRms B stable (P j) (2 * N)) (nextRms B stable (P j) (pdf j) (2 * N)) s ys)
    (fun s y ys hs => by
      have h := decoupled_step_rms B hB N hN hd full mats hfull hmats stable pdf hpdf P hP s (fun j => ⟨(hs j).1, (hs j).2.1, (hs j).2.2.1⟩)
        (fun j => (hs j).2.2.2.1) y
      exact ⟨h.1, h.2.1, fun j => ⟨(h.2.2 j).1, (h.2.2 j).2.1, (h.2.2 j).2.2, (hs j).2.2.2.2⟩⟩) rms0 ys fun j => ⟨hl j, h1 j, hv j⟩
  rw [FilterND.filterRms_eq, if_neg (by simp)]
  simp only [out, filterRms_eq, hl]
  rw [h.1, h.2]
  rfl

/-- **C198, central moments.** The same for the filter of central moments; the means are those of the one-dimensional filters. -/
theorem C198_central (P : Fin d → ℝ → ℕ → ℝ → ℝ) (hP : ∀ j x m, P j x 0 m = 1) (cm : Fin d → ℝ → ℝ) (cms0 : Fin d → List ℝ) (m0 : Fin d → ℝ)
    (hl : ∀ j, (cms0 j).length = 2 * N) (h1 : ∀ j, (cms0 j).getD 0 0 = 1) (ys : List Y)
    (hv : ∀ j, GramsStay Prod.fst (predCms B stable (P j) (cm j) (2 * N)) (nextCms B stable (P j) (cm j) (pdf j) (2 * N)) (cms0 j, m0 j) ys) :
    let out := fun j => filterCms B (P j) (cm j) (pdf j) (cms0 j) (m0 j) ys stable
    FilterND.filterCms B (.multiIndex fun x α m => ∏ j : Fin d, P j (x.getD j 0) (α.getD j 0) (m.getD j 0))
        (fun x => List.ofFn fun j : Fin d => cm j (x.getD j 0)) (fun y x => ∏ j : Fin d, pdf j y (x.getD j 0)) ys
        (full, mats) (full.map fun α => ∏ j : Fin d, (cms0 j).getD (α.getD j 0) 0) (List.ofFn m0) stable
      = .ok ((List.range ys.length).map fun t => (full.map fun α => ∏ j : Fin d, ((out j).1.getD t ([], 0)).1.getD (α.getD j 0) 0,
            List.ofFn fun j => ((out j).1.getD t ([], 0)).2), ∑ j, (out j).2) := by
  intro out
  have h := traj_coords (fun s : Fin d → List ℝ × ℝ => (full.map fun α => ∏ j : Fin d, (s j).1.getD (α.getD j 0) 0, List.ofFn fun j => (s j).2))
    (FilterND.nextCms B stable (fun y x => ∏ j : Fin d, pdf j y (x.getD j 0)) d full mats
      (.multiIndex fun x α m => ∏ j : Fin d, P j (x.getD j 0) (α.getD j 0) (m.getD j 0)) (fun x => List.ofFn fun j : Fin d => cm j (x.getD j 0)))
    (FilterND.likCms B stable (fun y x => ∏ j : Fin d, pdf j y (x.getD j 0)) d full mats
      (.multiIndex fun x α m => ∏ j : Fin d, P j (x.getD j 0) (α.getD j 0) (m.getD j 0)) (fun x => List.ofFn fun j : Fin d => cm j (x.getD j 0)))
    (fun j => nextCms B stable (P j) (cm j) (pdf j) (2 * N)) (fun j => likCms B stable (P j) (cm j) (pdf j) (2 * N))
    (fun j s ys => s.1.length = 2 * N ∧ s.1.getD 0 0 = 1 ∧
      GramsStay Prod.fst (predCms B stable (P j) (cm j) (2 * N)) (nextCms B stable (P j) (cm j) (pdf j) (2 * N)) s ys)
    (fun s y ys hs => by
      have h := decoupled_step_cms B hB N hN hd full mats hfull hmats stable pdf hpdf P hP cm s (fun j => ⟨(hs j).1, (hs j).2.1, (hs j).2.2.1⟩)
        (fun j => (hs j).2.2.2.1) y
      exact ⟨h.1, h.2.1, fun j => ⟨(h.2.2 j).1, (h.2.2 j).2.1, (h.2.2 j).2.2, (hs j).2.2.2.2⟩⟩) (fun j => (cms0 j, m0 j)) ys
      fun j => ⟨hl j, h1 j, hv j⟩
  rw [FilterND.filterCms_eq, if_neg (by simp)]
  simp only [out, filterCms_eq, hl, (mem_full hN hd hfull).2]
  rw [h.1, h.2]
  rfl

/-- **C198, scaled central moments.** The same for the filter of scaled central moments, with means and scales. -/
theorem C198_scaled (P : Fin d → ℝ → ℕ → ℝ → ℝ → ℝ) (hP : ∀ j x m c, P j x 0 m c = 1) (cm cv : Fin d → ℝ → ℝ) (scms0 : Fin d → List ℝ)
    (m0 s0 : Fin d → ℝ) (hl : ∀ j, (scms0 j).length = 2 * N) (h1 : ∀ j, (scms0 j).getD 0 0 = 1) (ys : List Y)
    (hv : ∀ j, GramsStay Prod.fst (predScms B stable (P j) (cm j) (cv j) (2 * N)) (nextScms B stable (P j) (cm j) (cv j) (pdf j) (2 * N))
      (scms0 j, m0 j, s0 j) ys) :
    let out := fun j => filterScms B (P j) (cm j) (cv j) (pdf j) (scms0 j) (m0 j) (s0 j) ys stable
    FilterND.filterScms B (.multiIndex fun x α a => ∏ j : Fin d, P j (x.getD j 0) (α.getD j 0) (a.1.getD j 0) (a.2.getD j 0))
        (fun x => (List.ofFn fun j : Fin d => cm j (x.getD j 0), List.ofFn fun j : Fin d => cv j (x.getD j 0)))
        (fun y x => ∏ j : Fin d, pdf j y (x.getD j 0)) ys
        (full, mats) (full.map fun α => ∏ j : Fin d, (scms0 j).getD (α.getD j 0) 0) (List.ofFn m0) (List.ofFn s0) stable
      = .ok ((List.range ys.length).map fun t => (full.map fun α => ∏ j : Fin d, ((out j).1.getD t ([], 0, 0)).1.getD (α.getD j 0) 0,
            List.ofFn fun j => ((out j).1.getD t ([], 0, 0)).2.1, List.ofFn fun j => ((out j).1.getD t ([], 0, 0)).2.2), ∑ j, (out j).2) := by
  intro out
  have h := traj_coords (fun s : Fin d → List ℝ × ℝ × ℝ => (full.map fun α => ∏ j : Fin d, (s j).1.getD (α.getD j 0) 0,
      List.ofFn fun j => (s j).2.1, List.ofFn fun j => (s j).2.2))
    (FilterND.nextScms B stable (fun y x => ∏ j : Fin d, pdf j y (x.getD j 0)) d full mats
      (.multiIndex fun x α a => ∏ j : Fin d, P j (x.getD j 0) (α.getD j 0) (a.1.getD j 0) (a.2.getD j 0))
      (fun x => (List.ofFn fun j : Fin d => cm j (x.getD j 0), List.ofFn fun j : Fin d => cv j (x.getD j 0))))
    (FilterND.likScms B stable (fun y x => ∏ j : Fin d, pdf j y (x.getD j 0)) d full mats
      (.multiIndex fun x α a => ∏ j : Fin d, P j (x.getD j 0) (α.getD j 0) (a.1.getD j 0) (a.2.getD j 0))
      (fun x => (List.ofFn fun j : Fin d => cm j (x.getD j 0), List.ofFn fun j : Fin d => cv j (x.getD j 0))))
    (fun j => nextScms B stable (P j) (cm j) (cv j) (pdf j) (2 * N)) (fun j => likScms B stable (P j) (cm j) (cv j) (pdf j) (2 * N))
    (fun j s ys => s.1.length = 2 * N ∧ s.1.getD 0 0 = 1 ∧
      GramsStay Prod.fst (predScms B stable (P j) (cm j) (cv j) (2 * N)) (nextScms B stable (P j) (cm j) (cv j) (pdf j) (2 * N)) s ys)
    (fun s y ys hs => by
      have h := decoupled_step_scms B hB N hN hd full mats hfull hmats stable pdf hpdf P hP cm cv s (fun j => ⟨(hs j).1, (hs j).2.1, (hs j).2.2.1⟩)
        (fun j => (hs j).2.2.2.1) y
      exact ⟨h.1, h.2.1, fun j => ⟨(h.2.2 j).1, (h.2.2 j).2.1, (h.2.2 j).2.2, (hs j).2.2.2.2⟩⟩) (fun j => (scms0 j, m0 j, s0 j)) ys
      fun j => ⟨hl j, h1 j, hv j⟩
  rw [FilterND.filterScms_eq, if_neg (by simp)]
  simp only [out, filterScms_eq, hl, (mem_full hN hd hfull).2]
  rw [h.1, h.2]
  rfl

/-- **C198, process noise.** With process noise in every coordinate (the conditional laws are positive on squares) and positive
densities the Gram matrices need no assumption beyond that on the initial moments. -/
theorem C198_noise (E : Fin d → ℝ → ℝ[X] →ₗ[ℝ] ℝ) (hE1 : ∀ j x, E j x 1 = 1) (hE : ∀ j x q, q ≠ 0 → q.natDegree < N → 0 < E j x (q ^ 2))
    (ms0 : Fin d → List ℝ) (hl : ∀ j, (ms0 j).length = 2 * N) (h1 : ∀ j, (ms0 j).getD 0 0 = 1) (hpd : ∀ j, (gramOf (ms0 j)).PosDef)
    (m0 s0 : Fin d → ℝ) (ys : List Y) :
    (let out := fun j => filterRms B (fun x k => E j x (X ^ k)) (pdf j) (ms0 j) ys stable
     FilterND.filterRms B (.multiIndex fun x α _ => ∏ j : Fin d, E j (x.getD j 0) (X ^ α.getD j 0)) (fun y x => ∏ j : Fin d, pdf j y (x.getD j 0)) ys
        (full, mats) (full.map fun α => ∏ j : Fin d, (ms0 j).getD (α.getD j 0) 0) stable
      = .ok ((List.range ys.length).map fun t => full.map fun α => ∏ j : Fin d, ((out j).1.getD t []).getD (α.getD j 0) 0, ∑ j, (out j).2)) ∧
    (∀ cm : Fin d → ℝ → ℝ,
     let out := fun j => filterCms B (fun x k m => E j x ((X - C m) ^ k)) (cm j) (pdf j) (ms0 j) (m0 j) ys stable
     FilterND.filterCms B (.multiIndex fun x α m => ∏ j : Fin d, E j (x.getD j 0) ((X - C (m.getD j 0)) ^ α.getD j 0))
        (fun x => List.ofFn fun j : Fin d => cm j (x.getD j 0)) (fun y x => ∏ j : Fin d, pdf j y (x.getD j 0)) ys
        (full, mats) (full.map fun α => ∏ j : Fin d, (ms0 j).getD (α.getD j 0) 0) (List.ofFn m0) stable
      = .ok ((List.range ys.length).map fun t => (full.map fun α => ∏ j : Fin d, ((out j).1.getD t ([], 0)).1.getD (α.getD j 0) 0,
            List.ofFn fun j => ((out j).1.getD t ([], 0)).2), ∑ j, (out j).2)) ∧
    (2 ≤ N → ∀ cm cv : Fin d → ℝ → ℝ, (∀ j x, 0 < cv j x) →
     let out := fun j => filterScms B (fun x k m c => E j x ((C c⁻¹ * (X - C m)) ^ k)) (cm j) (cv j) (pdf j) (ms0 j) (m0 j) (s0 j) ys stable
     FilterND.filterScms B
        (.multiIndex fun x α a => ∏ j : Fin d, E j (x.getD j 0) ((C (a.2.getD j 0)⁻¹ * (X - C (a.1.getD j 0))) ^ α.getD j 0))
        (fun x => (List.ofFn fun j : Fin d => cm j (x.getD j 0), List.ofFn fun j : Fin d => cv j (x.getD j 0)))
        (fun y x => ∏ j : Fin d, pdf j y (x.getD j 0)) ys
        (full, mats) (full.map fun α => ∏ j : Fin d, (ms0 j).getD (α.getD j 0) 0) (List.ofFn m0) (List.ofFn s0) stable
      = .ok ((List.range ys.length).map fun t => (full.map fun α => ∏ j : Fin d, ((out j).1.getD t ([], 0, 0)).1.getD (α.getD j 0) 0,
            List.ofFn fun j => ((out j).1.getD t ([], 0, 0)).2.1, List.ofFn fun j => ((out j).1.getD t ([], 0, 0)).2.2), ∑ j, (out j).2)) := by
  have hnb := fun j => C126_never_breaks B hB stable (pdf j) (hpdf j) (E j) (2 * N) (by omega)
    (fun x q hq hdeg => hE j x q hq (by omega)) ys
  refine ⟨?_, fun cm => ?_, fun hN2 cm cv hcv => ?_⟩
  · refine C198_raw B hB N hN hd full mats hfull hmats stable pdf hpdf (fun j x k => E j x (X ^ k)) (fun j x => by simp [hE1]) ms0 hl h1 ys fun j => ?_
    have h := (hnb j).1 _ (fun _ _ _ => rfl) (ms0 j) (hl j)
    rw [filterRms_eq, hl] at h
    exact gramsStay_of_traj _ _ _ _ _ (hpd j) h.1 h.2
  · refine C198_central B hB N hN hd full mats hfull hmats stable pdf hpdf (fun j x k m => E j x ((X - C m) ^ k)) (fun j x m => by simp [hE1]) cm ms0 m0
      hl h1 ys fun j => ?_
    have h := (hnb j).2.1 _ (cm j) (fun _ _ _ _ => rfl) (ms0 j) (m0 j) (hl j)
    rw [filterCms_eq, hl] at h
    exact gramsStay_of_traj _ _ _ _ _ (hpd j) h.1 h.2
  · refine C198_scaled B hB N hN hd full mats hfull hmats stable pdf hpdf (fun j x k m c => E j x ((C c⁻¹ * (X - C m)) ^ k))
      (fun j x m c => by simp [hE1]) cm cv ms0 m0 s0 hl h1 ys fun j => ?_
    have h := (hnb j).2.2 (by omega) _ (cm j) (cv j) (hcv j) (fun _ _ _ _ _ => rfl) (ms0 j) (m0 j) (s0 j) (hl j)
    rw [filterScms_eq, hl] at h
    exact gramsStay_of_traj _ _ _ _ _ (hpd j) h.1 fun o ho => ⟨(h.2 o ho).1, (h.2 o ho).2.2.1⟩

end

/-- the hypotheses are met in two dimensions with `N = 2`, different normal transitions in the coordinates, and a positive likelihood. -/
example : (∃ full mats, generateMultiIndices 2 (2 * 2 - 1) 0 = .ok full ∧ gramAndHankelIndices 2 2 = .ok mats) ∧ theBackend.Valid ∧
    (∀ (j : Fin 2) x, gaussL (![0.9, 0.5] j * x) 1 1 = 1) ∧
    (∀ (j : Fin 2) x (q : ℝ[X]), q ≠ 0 → q.natDegree < 2 → 0 < gaussL (![0.9, 0.5] j * x) 1 (q ^ 2)) ∧
    (gramOf [1, 0, 1, 0]).PosDef ∧ ([1, 0, 1, 0] : List ℝ).length = 2 * 2 ∧ ([1, 0, 1, 0] : List ℝ).getD 0 0 = 1 ∧
    ∀ (_ : Fin 2) (y x : ℝ), 0 < Real.exp (-(y - x) ^ 2) := by
  obtain ⟨_, full, mats, _, h2, h3, _⟩ := C05_gram_hankel_indices 2 2 (by norm_num) (by norm_num)
  exact ⟨⟨full, mats, h2, h3⟩, theBackend_valid, fun j x => by rw [gaussL_apply]; simp,
    fun j x q hq _ => gaussL_sq_pos _ one_ne_zero q hq, gramOf_example, rfl, rfl, fun _ _ _ => Real.exp_pos _⟩

end Mfs.Props

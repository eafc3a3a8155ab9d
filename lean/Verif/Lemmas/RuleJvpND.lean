import Verif.Lemmas.RuleJvp

/-!
# Derivatives of functions of several matrices by the rules of forward-mode differentiation
-/

namespace Mfs.Spectral

open Matrix Mfs.Spec Filter Topology Mfs.Cont Set Mfs.Jvp Mfs.Quad1 Mfs.QuadND Mfs.Smooth Mfs.Props

variable {z : ℕ} {t : ℝ}

/-- an eigen-decomposition and its tangent. -/
abbrev ED (z : ℕ) := (Matrix (Fin z) (Fin z) ℝ × (Fin z → ℝ)) × (Matrix (Fin z) (Fin z) ℝ × (Fin z → ℝ))

/-- tangent of `mcalc`. -/
noncomputable def dmcalc : List (ED z) → (List ℝ → ℝ) → (List ℝ → List ℝ → ℝ) → Fin z → Fin z → ℝ
  | [], _, dF, a, b => (1 : Matrix (Fin z) (Fin z) ℝ) a b * dF [] []
  | e :: es, F, dF, a, b => ∑ c, ∑ i, ((e.2.1 a i * e.1.1 c i + e.1.1 a i * e.2.1 c i) * mcalc (es.map Prod.fst) (fun v => F (e.1.2 i :: v)) c b
      + e.1.1 a i * e.1.1 c i * dmcalc es (fun v => F (e.1.2 i :: v)) (fun v dv => dF (e.1.2 i :: v) (e.2.2 i :: dv)) c b)

theorem mcalc_congr (M : ℝ) (es : List (Matrix (Fin z) (Fin z) ℝ × (Fin z → ℝ))) (hM : ∀ e ∈ es, ∀ i, |e.2 i| ≤ M) {F G : List ℝ → ℝ}
    (h : ∀ x : List ℝ, x.length = es.length → (∀ y ∈ x, |y| ≤ M) → F x = G x) (a b : Fin z) : mcalc es F a b = mcalc es G a b := by
  induction es generalizing F G a b with
  | nil => simp only [mcalc]; rw [h [] rfl (by simp)]
  | cons e es ih =>
    simp only [mcalc, spec]
    refine Finset.sum_congr rfl fun c _ => Finset.sum_congr rfl fun i _ => ?_
    congr 1
    refine ih (fun e he => hM e (List.mem_cons_of_mem _ he)) (fun x hx hy => h _ (by simp [hx]) ?_) c b
    intro y hy'
    rcases List.mem_cons.1 hy' with rfl | h'
    · exact hM e List.mem_cons_self i
    · exact hy y h'

theorem dmcalc_congr (M : ℝ) (es : List (ED z)) (hM : ∀ e ∈ es, ∀ i, |e.1.2 i| ≤ M) {F G : List ℝ → ℝ} {dF dG : List ℝ → List ℝ → ℝ}
    (h : ∀ x : List ℝ, x.length = es.length → (∀ y ∈ x, |y| ≤ M) → F x = G x)
    (hd : ∀ x dx : List ℝ, x.length = es.length → dx.length = es.length → (∀ y ∈ x, |y| ≤ M) → dF x dx = dG x dx) (a b : Fin z) :
    dmcalc es F dF a b = dmcalc es G dG a b := by
  induction es generalizing F G dF dG a b with
  | nil => simp only [dmcalc]; rw [hd [] [] rfl rfl (by simp)]
  | cons e es ih =>
    simp only [dmcalc]
    have key : ∀ i (x : List ℝ), (∀ y ∈ x, |y| ≤ M) → ∀ y ∈ e.1.2 i :: x, |y| ≤ M := by
      intro i x hx y hy'
      rcases List.mem_cons.1 hy' with rfl | h'
      · exact hM e List.mem_cons_self i
      · exact hx y h'
    refine Finset.sum_congr rfl fun c _ => Finset.sum_congr rfl fun i _ => ?_
    congr 1
    · congr 1
      refine mcalc_congr M _ (fun e' he => ?_) (fun x hx hy => h _ (by simpa using hx) (key i x hy)) c b
      obtain ⟨e'', he'', rfl⟩ := List.mem_map.1 he
      exact hM _ (List.mem_cons_of_mem _ he'')
    · congr 1
      exact ih (fun e he => hM e (List.mem_cons_of_mem _ he)) (fun x hx hy => h _ (by simp [hx]) (key i x hy))
        (fun x dx hx hdx hy => hd _ _ (by simp [hx]) (by simp [hdx]) (key i x hy)) c b

/-- tangents of the decompositions. -/
noncomputable def edual {d : ℕ} (e : Fin d → Matrix (Fin z) (Fin z) ℝ × (Fin z → ℝ)) (K' : Fin d → Matrix (Fin z) (Fin z) ℝ) : List (ED z) :=
  List.ofFn fun j => (e j, (tanU (e j).1 (e j).2 (K' j), tanL (e j).1 (K' j)))

theorem edual_fst {d : ℕ} (e : Fin d → Matrix (Fin z) (Fin z) ℝ × (Fin z → ℝ)) (K' : Fin d → Matrix (Fin z) (Fin z) ℝ) :
    (edual e K').map Prod.fst = List.ofFn e := by
  simp [edual, List.map_ofFn, Function.comp_def]

/-- the rule of forward-mode differentiation for a function of several matrices with distinct eigenvalues each. -/
theorem mcalc_jvp (d : ℕ) {O : Set ℝ} (hO : IsOpen O) (ht : t ∈ O)
    {K : ℝ → Fin d → Matrix (Fin z) (Fin z) ℝ} {K' : Fin d → Matrix (Fin z) (Fin z) ℝ} {e : ℝ → Fin d → Matrix (Fin z) (Fin z) ℝ × (Fin z → ℝ)}
    (hKs : ∀ j a b, ContDiffOn ℝ 1 (fun t => K t j a b) O) (hK : ∀ j, MDeriv (fun t => K t j) (K' j) t)
    (hE : ∀ t ∈ O, ∀ j, IsEigh (K t j) (e t j).1 (e t j).2) (hinj : ∀ j, Function.Injective (e t j).2)
    {F : ℝ → List ℝ → ℝ} (hF : ContDiffOn ℝ 1 (fun p : ℝ × (Fin d → ℝ) => F p.1 (List.ofFn p.2)) (O ×ˢ univ))
    {dF : List ℝ → List ℝ → ℝ} (hdF : ∀ v dv : Fin d → ℝ, dF (List.ofFn v) (List.ofFn dv) = fderiv ℝ (fun p : ℝ × (Fin d → ℝ) => F p.1 (List.ofFn p.2)) (t, v) (1, dv))
    (a b : Fin z) : HasDerivAt (fun t => mcalc (List.ofFn (e t)) (F t) a b) (dmcalc (edual (e t) K') (F t) dF a b) t := by
  induction d generalizing F dF a b with
  | zero =>
    simp only [List.ofFn_zero, mcalc, edual, dmcalc] at hF hdF ⊢
    have h1 := hdF Fin.elim0 Fin.elim0
    rw [h1]
    refine HasDerivAt.const_mul _ ?_
    have h2 : HasFDerivAt (fun p : ℝ × (Fin 0 → ℝ) => F p.1 []) _ (t, Fin.elim0) :=
      ((hF.contDiffAt ((hO.prod isOpen_univ).mem_nhds ⟨ht, mem_univ _⟩)).differentiableAt one_ne_zero).hasFDerivAt
    have h3 : HasDerivAt (fun s : ℝ => (s, (Fin.elim0 : Fin 0 → ℝ))) (1, Fin.elim0) t := by
      have := (hasDerivAt_id t).prodMk (hasDerivAt_const t (Fin.elim0 : Fin 0 → ℝ))
      refine this.congr_deriv ?_
      ext i
      · rfl
      · exact i.elim0
    exact h2.comp_hasDerivAt t h3
  | succ d ih =>
    simp only [List.ofFn_succ, mcalc]
    have hl : edual (e t) K' = (e t 0, (tanU (e t 0).1 (e t 0).2 (K' 0), tanL (e t 0).1 (K' 0))) :: edual (fun j : Fin d => e t j.succ) (fun j => K' j.succ) := by
      simp [edual, List.ofFn_succ]
    rw [hl, dmcalc]
    simp only [edual_fst]
    refine HasDerivAt.fun_sum fun c _ => ?_
    have hOu : IsOpen (O ×ˢ (univ : Set ℝ)) := hO.prod isOpen_univ
    have hcons : ContDiff ℝ 1 (fun p : (ℝ × ℝ) × (Fin d → ℝ) => (p.1.1, (Fin.cons p.1.2 p.2 : Fin (d + 1) → ℝ))) := by
      refine (contDiff_fst.comp contDiff_fst).prodMk (contDiff_pi.2 fun j => ?_)
      refine Fin.cases ?_ (fun j => ?_) j
      · simp only [Fin.cons_zero]
        exact contDiff_snd.comp contDiff_fst
      · simp only [Fin.cons_succ]
        exact (contDiff_apply ℝ ℝ j).comp contDiff_snd
    have hF2 : ContDiffOn ℝ 1 (fun p : (ℝ × ℝ) × (Fin d → ℝ) => F p.1.1 (p.1.2 :: List.ofFn p.2)) ((O ×ˢ univ) ×ˢ univ) := by
      have h2 := hF.comp hcons.contDiffOn (s := (O ×ˢ univ) ×ˢ univ) fun p hp => ⟨hp.1.1, mem_univ _⟩
      refine h2.congr fun p hp => ?_
      simp [List.ofFn_succ]
    have hf : ContDiffOn ℝ 1 (fun q : ℝ × ℝ => mcalc (List.ofFn fun j : Fin d => e q.1 j.succ) (fun v => F q.1 (q.2 :: v)) c b) (O ×ˢ univ) := by
      refine mcalc_smooth 1 d hOu (K := fun (q : ℝ × ℝ) j => K q.1 j.succ) (e := fun (q : ℝ × ℝ) j => e q.1 j.succ)
        (fun j a b => ContDiffOn.comp (g := fun t => K t j.succ a b) (f := fun q : ℝ × ℝ => q.1) (by exact_mod_cast hKs j.succ a b) contDiffOn_fst fun q hq => hq.1)
        (fun q hq j => hE q.1 hq.1 j.succ) (F := fun (q : ℝ × ℝ) v => F q.1 (q.2 :: v)) (by exact_mod_cast hF2) c b
    have h1 := spec_jvp hO ht (hK 0) (U := fun t => (e t 0).1) (lam := fun t => (e t 0).2) (by
      filter_upwards [hO.mem_nhds ht] with u hu using hE u hu 0) (hinj 0) hf a c
    refine h1.congr_deriv (Finset.sum_congr rfl fun i _ => ?_)
    congr 1
    congr 1
    -- the derivative along the node
    set x0 := (e t 0).2 i with hx0
    set x1 := tanL (e t 0).1 (K' 0) i with hx1
    have hcur : HasDerivAt (fun s : ℝ => (s, x0 + (s - t) * x1)) (1, x1) t := by
      have h4 : HasDerivAt (fun s : ℝ => x0 + (s - t) * x1) x1 t := by
        simpa using (((hasDerivAt_id t).sub_const t).mul_const x1).const_add x0
      exact (hasDerivAt_id t).prodMk h4
    have hcur0 : ((t, x0 + (t - t) * x1) : ℝ × ℝ) = (t, x0) := by simp
    have hA : HasDerivAt (fun s : ℝ => mcalc (List.ofFn fun j : Fin d => e s j.succ) (fun v => F s ((x0 + (s - t) * x1) :: v)) c b)
        (fderiv ℝ (fun q : ℝ × ℝ => mcalc (List.ofFn fun j : Fin d => e q.1 j.succ) (fun v => F q.1 (q.2 :: v)) c b) (t, x0) (1, x1)) t := by
      have h5 : HasFDerivAt (fun q : ℝ × ℝ => mcalc (List.ofFn fun j : Fin d => e q.1 j.succ) (fun v => F q.1 (q.2 :: v)) c b) _ ((t, x0 + (t - t) * x1)) :=
        ((hf.contDiffAt (hOu.mem_nhds ⟨ht, mem_univ _⟩)).differentiableAt one_ne_zero).hasFDerivAt
      have h6 := h5.comp_hasDerivAt t hcur
      rw [hcur0] at h6
      exact h6
    have hcurs : ContDiff ℝ 1 (fun p : ℝ × (Fin d → ℝ) => ((p.1, x0 + (p.1 - t) * x1), p.2)) := by fun_prop
    have hFc : ContDiffOn ℝ 1 (fun p : ℝ × (Fin d → ℝ) => F p.1 ((x0 + (p.1 - t) * x1) :: List.ofFn p.2)) (O ×ˢ univ) :=
      ContDiffOn.comp (g := fun p : (ℝ × ℝ) × (Fin d → ℝ) => F p.1.1 (p.1.2 :: List.ofFn p.2)) hF2 hcurs.contDiffOn fun p hp => ⟨⟨hp.1, mem_univ _⟩, mem_univ _⟩
    have hB := ih (K := fun s j => K s j.succ) (K' := fun j => K' j.succ) (e := fun s j => e s j.succ) (fun j => hKs j.succ) (fun j => hK j.succ)
      (fun s hs j => hE s hs j.succ) (fun j => hinj j.succ) (F := fun s v => F s ((x0 + (s - t) * x1) :: v)) hFc
      (dF := fun v dv => dF (x0 :: v) (x1 :: dv)) (by
        intro v dv
        have h7 := hdF (Fin.cons x0 v) (Fin.cons x1 dv)
        simp only [List.ofFn_succ, Fin.cons_zero, Fin.cons_succ] at h7
        rw [h7]
        have hg : HasFDerivAt (𝕜 := ℝ) (fun p : ℝ × (Fin (d + 1) → ℝ) => F p.1 (p.2 0 :: List.ofFn fun i => p.2 i.succ))
            (fderiv ℝ (fun p : ℝ × (Fin (d + 1) → ℝ) => F p.1 (p.2 0 :: List.ofFn fun i => p.2 i.succ)) (t, (Fin.cons x0 v : Fin (d + 1) → ℝ))) (t, (Fin.cons x0 v : Fin (d + 1) → ℝ)) := by
          have := hF.contDiffAt ((hO.prod isOpen_univ).mem_nhds (show ((t, Fin.cons x0 v) : ℝ × (Fin (d + 1) → ℝ)) ∈ O ×ˢ univ from ⟨ht, mem_univ _⟩))
          simp only [List.ofFn_succ] at this
          exact (this.differentiableAt one_ne_zero).hasFDerivAt
        -- both are derivatives along the same curve
        have hL : HasDerivAt (fun s : ℝ => F s ((x0 + (s - t) * x1) :: List.ofFn fun j => v j + (s - t) * dv j))
            (fderiv ℝ (fun p : ℝ × (Fin (d + 1) → ℝ) => F p.1 (p.2 0 :: List.ofFn fun i => p.2 i.succ)) (t, (Fin.cons x0 v : Fin (d + 1) → ℝ)) (1, Fin.cons x1 dv)) t := by
          have hc : HasDerivAt (fun s : ℝ => (s, (Fin.cons (x0 + (s - t) * x1) fun j => v j + (s - t) * dv j : Fin (d + 1) → ℝ))) (1, (Fin.cons x1 dv : Fin (d + 1) → ℝ)) t := by
            refine (hasDerivAt_id t).prodMk (hasDerivAt_pi.2 fun j => ?_)
            refine Fin.cases ?_ (fun j => ?_) j
            · simpa using (((hasDerivAt_id t).sub_const t).mul_const x1).const_add x0
            · simpa using (((hasDerivAt_id t).sub_const t).mul_const (dv j)).const_add (v j)
          have hc0 : ((t, (Fin.cons (x0 + (t - t) * x1) fun j => v j + (t - t) * dv j : Fin (d + 1) → ℝ)) : ℝ × (Fin (d + 1) → ℝ)) = (t, Fin.cons x0 v) := by simp
          rw [← hc0] at hg
          have h8 := hg.comp_hasDerivAt t hc
          rw [hc0] at h8
          simpa [Function.comp_def] using h8
        have hR : HasDerivAt (fun s : ℝ => F s ((x0 + (s - t) * x1) :: List.ofFn fun j => v j + (s - t) * dv j))
            (fderiv ℝ (fun p : ℝ × (Fin d → ℝ) => F p.1 ((x0 + (p.1 - t) * x1) :: List.ofFn p.2)) (t, v) (1, dv)) t := by
          have hg' : HasFDerivAt (fun p : ℝ × (Fin d → ℝ) => F p.1 ((x0 + (p.1 - t) * x1) :: List.ofFn p.2)) _ (t, v) :=
            ((hFc.contDiffAt ((hO.prod isOpen_univ).mem_nhds ⟨ht, mem_univ v⟩)).differentiableAt one_ne_zero).hasFDerivAt
          have hc : HasDerivAt (fun s : ℝ => (s, fun j => v j + (s - t) * dv j)) (1, dv) t := by
            refine (hasDerivAt_id t).prodMk (hasDerivAt_pi.2 fun j => ?_)
            simpa using (((hasDerivAt_id t).sub_const t).mul_const (dv j)).const_add (v j)
          have hc0 : ((t, fun j => v j + (t - t) * dv j) : ℝ × (Fin d → ℝ)) = (t, v) := by simp
          rw [← hc0] at hg'
          have h8 := hg'.comp_hasDerivAt t hc
          rw [hc0] at h8
          exact h8
        exact hL.unique hR) c b
    have hu := hA.unique hB
    rw [hu]
    simp

/-! ### the tangents of the weights -/

/-- tangent of `chainFrom`. -/
def chainFromJvp (z0 : Fin z) : (Fin z → ℝ) × (Fin z → ℝ) → List ((Fin z → ℝ) × (Fin z → ℝ)) → ℝ
  | u, [] => u.2 z0
  | u, v :: vs => (u.2 ⬝ᵥ v.1 + u.1 ⬝ᵥ v.2) * chainFrom z0 v.1 (vs.map Prod.fst) + (u.1 ⬝ᵥ v.1) * chainFromJvp z0 v vs

theorem dmcalc_transfer (z0 : Fin z) (es : List (ED z)) (F : List ℝ → ℝ) (dF : List ℝ → List ℝ → ℝ) (u : (Fin z → ℝ) × (Fin z → ℝ)) :
    ((cartesianProd (List.replicate es.length (List.finRange z))).map fun idx =>
        chainFromJvp z0 u (List.zipWith (fun row i => row i) (es.map fun e => fun i => ((fun k => e.1.1 k i), (fun k => e.2.1 k i))) idx)
          * F (List.zipWith (fun row i => row i) (es.map fun e => e.1.2) idx)
        + chainFrom z0 u.1 (List.zipWith (fun row i => row i) (es.map fun e => fun i k => e.1.1 k i) idx)
          * dF (List.zipWith (fun row i => row i) (es.map fun e => e.1.2) idx) (List.zipWith (fun row i => row i) (es.map fun e => e.2.2) idx)).sum
      = ∑ a, (u.2 a * mcalc (es.map Prod.fst) F a z0 + u.1 a * dmcalc es F dF a z0) := by
  induction es generalizing F dF u with
  | nil =>
    simp [cartesianProd, chainFrom, chainFromJvp, mcalc, dmcalc, Matrix.one_apply, Finset.sum_add_distrib]
  | cons e es ih =>
    simp only [List.length_cons, List.replicate_succ, cartesianProd]
    rw [sum_flatMap_map, sum_finRange]
    simp only [List.map_map, List.map_cons, Function.comp_def, List.zipWith_cons_cons, chainFrom, chainFromJvp]
    have hz : ∀ idx : List (Fin z), List.map Prod.fst (List.zipWith (fun (row : Fin z → (Fin z → ℝ) × (Fin z → ℝ)) i => row i)
        (es.map fun e => fun i => ((fun k => e.1.1 k i), (fun k => e.2.1 k i))) idx)
        = List.zipWith (fun (row : Fin z → Fin z → ℝ) i => row i) (es.map fun e => fun i k => e.1.1 k i) idx := by
      intro idx
      rw [List.map_zipWith, List.zipWith_map_left, List.zipWith_map_left]
    simp only [hz]
    have hm : ∀ i, (u.1 ⬝ᵥ fun k => e.1.1 k i) = ∑ a, u.1 a * e.1.1 a i := fun i => rfl
    have key : ∀ i, (List.map (fun x =>
          (((u.2 ⬝ᵥ fun k => e.1.1 k i) + u.1 ⬝ᵥ fun k => e.2.1 k i) * chainFrom z0 (fun k => e.1.1 k i) (List.zipWith (fun (row : Fin z → Fin z → ℝ) i => row i) (es.map fun e => fun i k => e.1.1 k i) x)
            + (u.1 ⬝ᵥ fun k => e.1.1 k i) * chainFromJvp z0 (fun k => e.1.1 k i, fun k => e.2.1 k i)
              (List.zipWith (fun row i => row i) (es.map fun e => fun i => ((fun k => e.1.1 k i), (fun k => e.2.1 k i))) x))
            * F (e.1.2 i :: List.zipWith (fun row i => row i) (es.map fun e => e.1.2) x)
          + (u.1 ⬝ᵥ fun k => e.1.1 k i) * chainFrom z0 (fun k => e.1.1 k i) (List.zipWith (fun (row : Fin z → Fin z → ℝ) i => row i) (es.map fun e => fun i k => e.1.1 k i) x)
            * dF (e.1.2 i :: List.zipWith (fun row i => row i) (es.map fun e => e.1.2) x) (e.2.2 i :: List.zipWith (fun row i => row i) (es.map fun e => e.2.2) x))
          (cartesianProd (List.replicate es.length (List.finRange z)))).sum
        = ((u.2 ⬝ᵥ fun k => e.1.1 k i) + u.1 ⬝ᵥ fun k => e.2.1 k i) * ∑ c, e.1.1 c i * mcalc (es.map Prod.fst) (fun v => F (e.1.2 i :: v)) c z0
          + (u.1 ⬝ᵥ fun k => e.1.1 k i) * ∑ c, (e.2.1 c i * mcalc (es.map Prod.fst) (fun v => F (e.1.2 i :: v)) c z0
            + e.1.1 c i * dmcalc es (fun v => F (e.1.2 i :: v)) (fun v dv => dF (e.1.2 i :: v) (e.2.2 i :: dv)) c z0) := by
      intro i
      rw [← ih (fun v => F (e.1.2 i :: v)) (fun v dv => dF (e.1.2 i :: v) (e.2.2 i :: dv)) (fun k => e.1.1 k i, fun k => e.2.1 k i)]
      have h2 := mcalc_transfer z0 (es.map Prod.fst) (fun v => F (e.1.2 i :: v)) (fun k => e.1.1 k i)
      rw [← h2]
      simp only [List.map_map, Function.comp_def, List.length_map]
      rw [← List.sum_map_mul_left, ← List.sum_map_mul_left, ← List.sum_map_add]
      congr 1
      refine List.map_congr_left fun x _ => ?_
      ring
    simp only [key]
    simp only [dmcalc, mcalc, spec, dotProduct, smul_eq_mul, Finset.sum_add_distrib, mul_add, add_mul, Finset.mul_sum, Finset.sum_mul]
    have s1 : ∀ f : Fin z → Fin z → Fin z → ℝ, ∑ i, ∑ c, ∑ a, f i c a = ∑ a, ∑ c, ∑ i, f i c a := by
      intro f
      rw [Finset.sum_comm, Finset.sum_congr rfl fun c _ => Finset.sum_comm (f := fun i a => f i c a), Finset.sum_comm]
    have s3 : ∀ {A C D E A' C' D' E' : ℝ}, A = A' → C = C' → D = D' → E = E' → A + C + (D + E) = A' + (C' + D' + E') := by
      intro A C D E A' C' D' E' h1 h2 h3 h4
      rw [h1, h2, h3, h4]
      ring
    refine s3 ?_ ?_ ?_ ?_ <;>
    · rw [s1]
      exact Finset.sum_congr rfl fun a _ => Finset.sum_congr rfl fun c _ => Finset.sum_congr rfl fun i _ => by ring

theorem prodJvp_append (l m : List (ℝ × ℝ)) : prodJvp (l ++ m) = prodJvp l * (m.map Prod.fst).prod + (l.map Prod.fst).prod * prodJvp m := by
  induction l with
  | nil => simp [prodJvp]
  | cons p l ih =>
    simp only [List.cons_append, prodJvp, ih, List.map_append, List.prod_append, List.map_cons, List.prod_cons]
    ring

theorem chainFromJvp_eq (z0 : Fin z) (v : (Fin z → ℝ) × (Fin z → ℝ)) (vs : List ((Fin z → ℝ) × (Fin z → ℝ))) :
    chainFromJvp z0 v vs = prodJvp (List.zipWith (fun u v => (u.1 ⬝ᵥ v.1, u.2 ⬝ᵥ v.1 + u.1 ⬝ᵥ v.2)) (v :: vs).dropLast vs
        ++ [(((v :: vs).getLastD 0).1 z0, ((v :: vs).getLastD 0).2 z0)])
    ∧ chainFrom z0 v.1 (vs.map Prod.fst) = ((List.zipWith (fun u v => (u.1 ⬝ᵥ v.1, u.2 ⬝ᵥ v.1 + u.1 ⬝ᵥ v.2)) (v :: vs).dropLast vs
        ++ [(((v :: vs).getLastD 0).1 z0, ((v :: vs).getLastD 0).2 z0)]).map Prod.fst).prod := by
  induction vs generalizing v with
  | nil => simp [chainFromJvp, chainFrom, prodJvp]
  | cons w vs ih =>
    obtain ⟨h1, h2⟩ := ih w
    have hlast : (v :: w :: vs).getLastD 0 = (w :: vs).getLastD 0 := by simp
    rw [List.dropLast_cons_of_ne_nil (by simp)]
    simp only [List.zipWith_cons_cons, List.cons_append, prodJvp, chainFromJvp, List.map_cons, List.prod_cons, chainFrom, hlast]
    rw [← h1, ← h2]
    exact ⟨rfl, rfl⟩

theorem weightJvp_eq (h : 0 < z) (v : (Fin z → ℝ) × (Fin z → ℝ)) (vs : List ((Fin z → ℝ) × (Fin z → ℝ))) :
    weightJvp h (v :: vs) = chainFromJvp ⟨0, h⟩ (Pi.single ⟨0, h⟩ 1, 0) (v :: vs) := by
  rw [weightJvp, chainFromJvp]
  obtain ⟨h1, h2⟩ := chainFromJvp_eq ⟨0, h⟩ v vs
  rw [h1, h2]
  simp only [List.headD_cons, List.tail_cons, zero_dotProduct, single_one_dotProduct, zero_add]
  rw [prodJvp_append, prodJvp_append]
  simp only [prodJvp, List.map_cons, List.map_nil, List.map_append, List.prod_append, List.prod_cons, List.prod_nil]
  ring

/-- tangents of the weights and nodes of the rule. -/
noncomputable def coreJvp (h : 0 < z) (d : ℕ) (es : List (ED z)) : List (ℝ × List ℝ) :=
  (ndCartesianProdIndices d z).map fun idx =>
    (weightJvp h (List.zipWith (fun row i => row i) (es.map fun e => fun i => ((fun k => e.1.1 k i), (fun k => e.2.1 k i))) idx),
      List.zipWith (fun row i => row i) (es.map fun e => e.2.2) idx)

/-- the tangent of a sum `∑ w F(x)`. -/
def integJvp (r dr : List (ℝ × List ℝ)) (F : List ℝ → ℝ) (dF : List ℝ → List ℝ → ℝ) : ℝ :=
  (List.zipWith (fun p q : ℝ × List ℝ => q.1 * F p.2 + p.1 * dF p.2 q.2) r dr).sum

theorem coreJvp_dmcalc {d : ℕ} (h : 0 < z) (hd : 1 ≤ d) (e : Fin d → Matrix (Fin z) (Fin z) ℝ × (Fin z → ℝ)) (es : List (ED z)) (hes : es.map Prod.fst = List.ofFn e)
    (F : List ℝ → ℝ) (dF : List ℝ → List ℝ → ℝ) :
    integJvp (coreRule h e) (coreJvp h d es) F dF = dmcalc es F dF ⟨0, h⟩ ⟨0, h⟩ := by
  have hlen : es.length = d := by
    have := congrArg List.length hes
    simpa using this
  have := dmcalc_transfer ⟨0, h⟩ es F dF (Pi.single ⟨0, h⟩ 1, 0)
  simp only [Pi.single_apply, Pi.zero_apply, zero_mul, zero_add, ite_mul, one_mul, Finset.sum_ite_eq', Finset.mem_univ, if_true] at this
  rw [← this, integJvp, coreRule, coreJvp, List.zipWith_map, ndCartesianProdIndices, hlen, List.zipWith_self, ← hes]
  congr 1
  apply List.map_congr_left
  intro idx hidx
  rw [mem_cartesianProd_replicate] at hidx
  obtain ⟨hi, _⟩ := hidx
  simp only [List.map_map, Function.comp_def]
  obtain ⟨e0, es, rfl⟩ : ∃ e0 es', es = e0 :: es' := by
    cases es with
    | nil => simp at hlen; omega
    | cons a l => exact ⟨a, l, rfl⟩
  cases idx with
  | nil => simp at hi; omega
  | cons i idx =>
    simp only [List.map_cons, List.zipWith_cons_cons]
    rw [weightJvp_eq, weight_eq]

/-- the rule with fixed functions: derivative by forward mode. -/
theorem core_jvp {d : ℕ} (h : 0 < z) (hd : 1 ≤ d) {K : ℝ → Fin d → Matrix (Fin z) (Fin z) ℝ} {K' : Fin d → Matrix (Fin z) (Fin z) ℝ}
    {e : ℝ → Fin d → Matrix (Fin z) (Fin z) ℝ × (Fin z → ℝ)}
    (hKs : ∀ j a b, ContDiffAt ℝ 1 (fun t => K t j a b) t) (hK : ∀ j, MDeriv (fun t => K t j) (K' j) t)
    (hE : ∀ᶠ t in 𝓝 t, ∀ j, IsEigh (K t j) (e t j).1 (e t j).2) (hinj : ∀ j, Function.Injective (e t j).2)
    {F : ℝ → List ℝ → ℝ} (hF : JointND 1 t d F)
    {dF : List ℝ → List ℝ → ℝ} (hdF : ∀ v dv : Fin d → ℝ, dF (List.ofFn v) (List.ofFn dv) = fderiv ℝ (fun p : ℝ × (Fin d → ℝ) => F p.1 (List.ofFn p.2)) (t, v) (1, dv)) :
    HasDerivAt (fun t => integND (coreRule h (e t)) (F t)) (integJvp (coreRule h (e t)) (coreJvp h d (edual (e t) K')) (F t) dF) t := by
  rw [coreJvp_dmcalc h hd _ _ (edual_fst _ _)]
  simp only [coreRule_mcalc h hd]
  -- a bound of the nodes
  set M : ℝ → ℝ := fun t => ∑ j, ∑ a, ∑ b, |K t j a b| with hM
  have hMc : ContinuousAt M t := by
    refine tendsto_finsetSum _ fun j _ => tendsto_finsetSum _ fun a _ => tendsto_finsetSum _ fun b _ => ?_
    exact (hKs j a b).continuousAt.abs
  have hMev : ∀ᶠ u in 𝓝 t, M u < M t + 1 := hMc.eventually (eventually_lt_nhds (lt_add_one _))
  have hM0 : 0 ≤ M t := Finset.sum_nonneg fun j _ => Finset.sum_nonneg fun a _ => Finset.sum_nonneg fun b _ => abs_nonneg _
  let χ : ContDiffBump (0 : Fin d → ℝ) := ⟨M t + 2, M t + 3, by linarith, by linarith⟩
  have hKev : ∀ᶠ u in 𝓝 t, ∀ j a b, ContDiffAt ℝ 1 (fun t => K t j a b) u :=
    eventually_all.2 fun j => eventually_all.2 fun a => eventually_all.2 fun b => (hKs j a b).eventually (by simp)
  have htube := tube (r := 1) (by exact_mod_cast hF) (isCompact_closedBall (0 : Fin d → ℝ) (M t + 3))
  obtain ⟨O, hOsub, hO, hθ⟩ := mem_nhds_iff.1 (hMev.and (hKev.and (hE.and htube)))
  have e1 : ∀ v : Fin d → ℝ, (fun j : Fin d => (List.ofFn v).getD j 0) = v := fun v => by
    funext j
    rw [List.getD_eq_getElem _ _ (by simp), List.getElem_ofFn]
  have hχF : ContDiffOn ℝ 1 (fun p : ℝ × (Fin d → ℝ) => χ (fun j => (List.ofFn p.2).getD j 0) * F p.1 (List.ofFn p.2)) (O ×ˢ univ) := by
    rintro ⟨u, v⟩ ⟨hu, -⟩
    simp only [e1]
    by_cases hv : v ∈ Metric.closedBall (0 : Fin d → ℝ) (M t + 3)
    · refine ContDiffAt.contDiffWithinAt (ContDiffAt.mul ?_ (by exact_mod_cast (hOsub hu).2.2.2 v hv))
      exact (χ.contDiff.comp contDiff_snd).contDiffAt
    · refine ContDiffAt.contDiffWithinAt ?_
      refine (contDiffAt_const (c := (0 : ℝ))).congr_of_eventuallyEq ?_
      have : ∀ᶠ p : ℝ × (Fin d → ℝ) in 𝓝 (u, v), p.2 ∉ Metric.closedBall (0 : Fin d → ℝ) (M t + 3) :=
        (continuous_snd.tendsto (u, v)).eventually (Metric.isClosed_closedBall.isOpen_compl.mem_nhds hv)
      filter_upwards [this] with p hp
      have : χ p.2 = 0 := χ.zero_of_le_dist (by
        rw [Metric.mem_closedBall, not_le] at hp
        exact hp.le)
      rw [this, zero_mul]
  let G : ℝ → List ℝ → ℝ := fun u x => χ (fun j : Fin d => x.getD j 0) * F u x
  let dG : List ℝ → List ℝ → ℝ := fun x dx => fderiv ℝ (fun p : ℝ × (Fin d → ℝ) => G p.1 (List.ofFn p.2)) (t, fun j : Fin d => x.getD j 0) (1, fun j : Fin d => dx.getD j 0)
  have hjvp := mcalc_jvp d hO hθ (fun j a b u hu => ((hOsub hu).2.1 j a b).contDiffWithinAt) hK (fun u hu => (hOsub hu).2.2.1) hinj (F := G) hχF (dF := dG) (fun v dv => by
    simp only [dG]; rw [e1, e1]) ⟨0, h⟩ ⟨0, h⟩
  have hbd : ∀ u ∈ O, ∀ j i, |(e u j).2 i| ≤ M t + 1 := by
    intro u hu j i
    have h1 := eigh_bound ((hOsub hu).2.2.1 j) i
    have h2 : ∑ a, ∑ b, |K u j a b| ≤ M u :=
      Finset.single_le_sum (f := fun j => ∑ a, ∑ b, |K u j a b|) (fun j _ => Finset.sum_nonneg fun a _ => Finset.sum_nonneg fun b _ => abs_nonneg _) (Finset.mem_univ j)
    have h3 : M u < M t + 1 := (hOsub hu).1
    linarith
  have hlist : ∀ x : List ℝ, x.length = d → x = List.ofFn fun j : Fin d => x.getD j 0 := fun x hx => list_eq_ofFn x hx
  have hmemx : ∀ x : List ℝ, x.length = d → (∀ y ∈ x, |y| ≤ M t + 1) → (fun j : Fin d => x.getD j 0) ∈ Metric.ball (0 : Fin d → ℝ) (M t + 2) := by
    intro x hx hy
    rw [mem_ball_zero_iff, pi_norm_lt_iff (by linarith)]
    intro j
    rw [Real.norm_eq_abs, List.getD_eq_getElem _ _ (by rw [hx]; exact j.2)]
    have := hy _ (List.getElem_mem (by rw [hx]; exact j.2))
    linarith
  have hGF : ∀ u, ∀ x : List ℝ, x.length = d → (∀ y ∈ x, |y| ≤ M t + 1) → G u x = F u x := by
    intro u x hx hy
    simp only [G]
    rw [χ.one_of_mem_closedBall (Metric.ball_subset_closedBall (hmemx x hx hy)), one_mul]
  have hd2 : dmcalc (edual (e t) K') (G t) dG ⟨0, h⟩ ⟨0, h⟩ = dmcalc (edual (e t) K') (F t) dF ⟨0, h⟩ ⟨0, h⟩ := by
    refine dmcalc_congr (M t + 1) _ ?_ (fun x hx hy => hGF t x (by simpa [edual] using hx) hy) (fun x dx hx hdx hy => ?_) _ _
    · intro e' he' i
      simp only [edual, List.mem_ofFn] at he'
      obtain ⟨j, rfl⟩ := he'
      exact hbd t hθ j i
    · have hx' : x.length = d := by simpa [edual] using hx
      have hdx' : dx.length = d := by simpa [edual] using hdx
      have h5 := hdF (fun j => x.getD j 0) (fun j => dx.getD j 0)
      rw [← hlist x hx', ← hlist dx hdx'] at h5
      rw [h5]
      simp only [dG]
      congr 1
      refine Filter.EventuallyEq.fderiv_eq ?_
      have : ∀ᶠ p : ℝ × (Fin d → ℝ) in 𝓝 (t, fun j : Fin d => x.getD j 0), p.2 ∈ Metric.ball (0 : Fin d → ℝ) (M t + 2) :=
        (continuous_snd.tendsto _).eventually (Metric.isOpen_ball.mem_nhds (hmemx x hx' hy))
      filter_upwards [this] with p hp
      simp only [G, e1]
      rw [χ.one_of_mem_closedBall (Metric.ball_subset_closedBall hp), one_mul]
  rw [hd2] at hjvp
  refine hjvp.congr_of_eventuallyEq ?_
  filter_upwards [hO.mem_nhds hθ] with u hu
  refine mcalc_congr (M t + 1) _ ?_ (fun x hx hy => (hGF u x (by simpa using hx) hy).symm) _ _
  intro e' he' i
  simp only [List.mem_ofFn] at he'
  obtain ⟨j, rfl⟩ := he'
  exact hbd u hu j i

end Mfs.Spectral

import Verif.Lemmas.CholCont
import Verif.Props.NoBreak

/-!
# Continuity of the one-dimensional rule and of runs of the filters
-/

namespace Mfs.Cont

open Matrix Mfs.Spec Filter Topology Mfs.Quad1 Mfs.Filter1 Mfs.Props Polynomial

variable {ι : Type*} {l : Filter ι} {n : ℕ}

/-- convergence of moment vectors of a common length. -/
structure LConv (l : Filter ι) (n : ℕ) (s : ι → List ℝ) (s0 : List ℝ) : Prop where
  len : ∀ i, (s i).length = n
  len0 : s0.length = n
  lim : ∀ k < n, Tendsto (fun i => (s i).getD k 0) l (𝓝 (s0.getD k 0))

theorem LConv.lim' {s : ι → List ℝ} {s0 : List ℝ} (h : LConv l n s s0) (k : ℕ) : Tendsto (fun i => (s i).getD k 0) l (𝓝 (s0.getD k 0)) := by
  by_cases hk : k < n
  · exact h.lim k hk
  · rw [List.getD_eq_default _ _ (by rw [h.len0]; omega)]
    refine tendsto_const_nhds.congr fun i => ?_
    rw [List.getD_eq_default _ _ (by rw [h.len]; omega)]

theorem LConv.ofFn {m : ι → Fin n → ℝ} {m0 : Fin n → ℝ} (h : Tendsto m l (𝓝 m0)) : LConv l n (fun i => List.ofFn (m i)) (List.ofFn m0) where
  len i := List.length_ofFn
  len0 := List.length_ofFn
  lim k hk := by
    have h1 : ∀ v : Fin n → ℝ, (List.ofFn v).getD k 0 = v ⟨k, hk⟩ := fun v => by
      rw [List.getD_eq_getElem _ _ (by simpa using hk), List.getElem_ofFn]
    simp only [h1]
    exact ((continuous_apply _).tendsto _).comp h

theorem LConv.map_range {F : ι → ℕ → ℝ} {F0 : ℕ → ℝ} (h : ∀ k < n, Tendsto (fun i => F i k) l (𝓝 (F0 k))) :
    LConv l n (fun i => (List.range n).map (F i)) ((List.range n).map F0) where
  len i := by simp
  len0 := by simp
  lim k hk := by
    simp only [getD_map_range _ hk]
    exact h k hk

/-- the data behind the rule, with the length made a parameter. -/
theorem rule_data (B : Backend) (hB : B.Valid) (ms : List ℝ) (hl : ms.length = n)
    (hpd : (hankelMat (n / 2) (fun k => ms.getD k 0)).PosDef) (sort ldl : Bool) :
    ∃ d : Matrix (Fin (n / 2)) (Fin (n / 2)) ℝ × Matrix (Fin (n / 2)) (Fin (n / 2)) ℝ × (Fin (n / 2) → ℝ),
      IsChol (hankelMat _ (fun k => ms.getD k 0)) d.1 ∧
      IsEigh (multMat d.1 (hankelMat _ (fun k => ms.getD (k + 1) 0))) d.2.1 d.2.2 ∧
      ∀ mean scale, (∀ i : Fin (n / 2), (momentQuadrature B ms mean scale sort ldl).1 (Fin.cast (by rw [hl]) i) = d.2.1 ⟨0, i.pos⟩ i ^ 2 ∧
        (momentQuadrature B ms mean scale sort ldl).2 (Fin.cast (by rw [hl]) i) = scale * d.2.2 i + mean) := by
  subst hl
  obtain ⟨R, hR, U, lam, hE, h1, h2⟩ := momentQuadrature_data B hB ms hpd 0 1 sort ldl
  refine ⟨(R, U, lam), hR, hE, fun mean scale i => ?_⟩
  have ha := momentQuadrature_affine B ms mean scale sort ldl
  rw [ha.1, ha.2, h1, h2]
  exact ⟨rfl, by simp⟩

theorem integ_of_data (B : Backend) (ms : List ℝ) (hl : ms.length = n) (mean scale : ℝ) (sort ldl : Bool) {U : Matrix (Fin (n / 2)) (Fin (n / 2)) ℝ}
    {lam : Fin (n / 2) → ℝ}
    (h : ∀ i : Fin (n / 2), (momentQuadrature B ms mean scale sort ldl).1 (Fin.cast (by rw [hl]) i) = U ⟨0, i.pos⟩ i ^ 2 ∧
        (momentQuadrature B ms mean scale sort ldl).2 (Fin.cast (by rw [hl]) i) = scale * lam i + mean) (f : ℝ → ℝ) :
    integ (momentQuadrature B ms mean scale sort ldl) f = ∑ i : Fin (n / 2), U ⟨0, i.pos⟩ i ^ 2 * f (scale * lam i + mean) := by
  subst hl
  exact Finset.sum_congr rfl fun i _ => by
    have h1 := (h i).1
    have h2 := (h i).2
    simp only [Fin.cast_eq_self] at h1 h2
    rw [h1, h2]

theorem gram_posDef_iff {ms : List ℝ} (hl : ms.length = n) : (gramOf ms).PosDef ↔ (hankelMat (n / 2) (fun k => ms.getD k 0)).PosDef := by
  subst hl
  rfl

theorem hankel_tendsto {m : ℕ} {s : ι → ℕ → ℝ} {s0 : ℕ → ℝ} (h : ∀ k, Tendsto (fun i => s i k) l (𝓝 (s0 k))) :
    Tendsto (fun i => hankelMat m (s i)) l (𝓝 (hankelMat m s0)) :=
  tendsto_of_entries fun _ _ => h _

/-- nearby moment vectors are valid too. -/
theorem eventually_gram {s : ι → List ℝ} {s0 : List ℝ} (h : LConv l n s s0) (hpd : (gramOf s0).PosDef) :
    ∀ᶠ i in l, (hankelMat (n / 2) (fun k => (s i).getD k 0)).PosDef :=
  eventually_posDef (hankel_tendsto h.lim') (Eventually.of_forall fun _ => hankelMat_isSymm _ _) ((gram_posDef_iff h.len0).1 hpd)

/-- the data of the rules along a convergent family, with the limit of the multiplication matrix. -/
theorem rules_data (B : Backend) (hB : B.Valid) {s : ι → List ℝ} {s0 : List ℝ} (h : LConv l n s s0) (hpd : (gramOf s0).PosDef) (sort ldl : Bool) :
    ∃ (K U : ι → Matrix (Fin (n / 2)) (Fin (n / 2)) ℝ) (lam : ι → Fin (n / 2) → ℝ) (K0 U0 : Matrix (Fin (n / 2)) (Fin (n / 2)) ℝ)
      (lam0 : Fin (n / 2) → ℝ), Tendsto K l (𝓝 K0) ∧ IsEigh K0 U0 lam0 ∧
      (∀ mean scale (i : Fin (n / 2)), (momentQuadrature B s0 mean scale sort ldl).1 (Fin.cast (by rw [h.len0]) i) = U0 ⟨0, i.pos⟩ i ^ 2 ∧
        (momentQuadrature B s0 mean scale sort ldl).2 (Fin.cast (by rw [h.len0]) i) = scale * lam0 i + mean) ∧
      ∀ᶠ i in l, IsEigh (K i) (U i) (lam i) ∧ ∀ mean scale (j : Fin (n / 2)),
        (momentQuadrature B (s i) mean scale sort ldl).1 (Fin.cast (by rw [h.len]) j) = U i ⟨0, j.pos⟩ j ^ 2 ∧
        (momentQuadrature B (s i) mean scale sort ldl).2 (Fin.cast (by rw [h.len]) j) = scale * lam i j + mean := by
  obtain ⟨d0, hR0, hE0, hd0⟩ := rule_data B hB s0 h.len0 ((gram_posDef_iff h.len0).1 hpd) sort ldl
  have hev := fun i (hi : (hankelMat (n / 2) (fun k => (s i).getD k 0)).PosDef) => rule_data B hB (s i) (h.len i) hi sort ldl
  choose! d hd' using hev
  have hd := (eventually_gram h hpd).mono fun i hi => hd' i hi
  have hR : Tendsto (fun i => (d i).1) l (𝓝 d0.1) := tendsto_chol (hankel_tendsto h.lim') (hd.mono fun i hi => hi.1) hR0
  refine ⟨_, fun i => (d i).2.1, fun i => (d i).2.2, _, _, _, tendsto_multMat hR (hankel_tendsto fun k => h.lim' (k + 1)) hR0, hE0, hd0, ?_⟩
  exact hd.mono fun i hi => hi.2

/-- the rule is continuous in the moments, mean, scale and integrand. -/
theorem tendsto_rule (B : Backend) (hB : B.Valid) {s : ι → List ℝ} {s0 : List ℝ} (h : LConv l n s s0) (hpd : (gramOf s0).PosDef) (sort ldl : Bool)
    {m c : ι → ℝ} {m0 c0 : ℝ} (hm : Tendsto m l (𝓝 m0)) (hc : Tendsto c l (𝓝 c0)) {f : ι → ℝ → ℝ} {f0 : ℝ → ℝ} (hf : CConv l f f0) :
    Tendsto (fun i => integ (momentQuadrature B (s i) (m i) (c i) sort ldl) (f i)) l (𝓝 (integ (momentQuadrature B s0 m0 c0 sort ldl) f0)) := by
  obtain ⟨K, U, lam, K0, U0, lam0, hK, h0, hd0, hd⟩ := rules_data B hB h hpd sort ldl
  rw [integ_of_data B s0 h.len0 m0 c0 sort ldl (hd0 m0 c0)]
  have hg : CConv l (fun i x => f i (c i * x + m i)) fun x => f0 (c0 * x + m0) := fun x => by
    have h1 : Tendsto (fun p : ι × ℝ => (p.1, c p.1 * p.2 + m p.1)) (l ×ˢ 𝓝 x) (l ×ˢ 𝓝 (c0 * x + m0)) := tendsto_fst.prodMk ?_
    · exact (hf (c0 * x + m0)).comp h1
    exact ((hc.comp tendsto_fst).mul tendsto_snd).add (hm.comp tendsto_fst)
  have hF := tendsto_funMat hK (hd.mono fun i hi => hi.1) h0 hg
  rcases Nat.eq_zero_or_pos (n / 2) with hz | hpos
  · have : IsEmpty (Fin (n / 2)) := by rw [hz]; infer_instance
    rw [Finset.univ_eq_empty, Finset.sum_empty]
    refine tendsto_const_nhds.congr' ?_
    filter_upwards [hd] with i hi
    rw [integ_of_data B (s i) (h.len i) (m i) (c i) sort ldl (hi.2 _ _), Finset.univ_eq_empty, Finset.sum_empty]
  · have h1 := tendsto_entry hF ⟨0, hpos⟩ ⟨0, hpos⟩
    simp only [funMat_apply, ← sq] at h1
    refine h1.congr' ?_
    filter_upwards [hd] with i hi
    rw [integ_of_data B (s i) (h.len i) (m i) (c i) sort ldl (hi.2 _ _)]

/-- every step of a run meets a condition on the state and the measurement. -/
def RunOK {S Y : Type} (ok : S → Y → Prop) (g : S → Y → S) : S → List Y → Prop
  | _, [] => True
  | s, y :: ys => ok s y ∧ RunOK ok g (g s y) ys

/-- a run of a recursion whose step is continuous is continuous. -/
theorem traj_cont {S Y : Type} [TopologicalSpace Y] (Conv : (ι → S) → S → Prop) (Inv : S → Prop) {g : S → Y → S} {lik : S → Y → ℝ}
    (hstep : ∀ s s0 (y : ι → Y) y0, Conv s s0 → Inv s0 → Tendsto y l (𝓝 y0) → Conv (fun i => g (s i) (y i)) (g s0 y0) ∧ Inv (g s0 y0) ∧
      0 < lik s0 y0 ∧ Tendsto (fun i => lik (s i) (y i)) l (𝓝 (lik s0 y0))) (d : S) (T : ℕ) (ys : ι → Fin T → Y) (ys0 : Fin T → Y)
    (hy : Tendsto ys l (𝓝 ys0)) (s : ι → S) (s0 : S) (hs : Conv s s0) (h0 : Inv s0) :
    Tendsto (fun i => ((liks g lik (s i) (List.ofFn (ys i))).map Real.log).sum) l (𝓝 ((liks g lik s0 (List.ofFn ys0)).map Real.log).sum) ∧
    ∀ t < T, Conv (fun i => (traj g (s i) (List.ofFn (ys i))).getD t d) ((traj g s0 (List.ofFn ys0)).getD t d) := by
  induction T generalizing s s0 with
  | zero => exact ⟨by simpa [liks] using tendsto_const_nhds, by simp⟩
  | succ T ih =>
    obtain ⟨h1, h2, h3, h4⟩ := hstep s s0 (fun i => ys i 0) (ys0 0) hs h0 (((continuous_apply _).tendsto _).comp hy)
    obtain ⟨e1, e2⟩ := ih (fun i t => ys i t.succ) (fun t => ys0 t.succ)
      (tendsto_pi_nhds.2 fun t => ((continuous_apply _).tendsto _).comp hy) _ _ h1 h2
    simp only [List.ofFn_succ, liks, traj, List.map_cons, List.sum_cons]
    refine ⟨((Real.continuousAt_log h3.ne').tendsto.comp h4).add e1, fun t ht => ?_⟩
    cases t with
    | zero => simpa using h1
    | succ t => simpa using e2 t (by omega)

/-- conditional moments with continuous moments are continuous in the centre and scale too. -/
theorem cconv_affine {E : ℝ → ℝ[X] →ₗ[ℝ] ℝ} (hE : ∀ k, Continuous fun x => E x (X ^ k)) {m c : ι → ℝ} {m0 c0 : ℝ} (hm : Tendsto m l (𝓝 m0))
    (hc : Tendsto c l (𝓝 c0)) (k : ℕ) :
    CConv l (fun i x => E x ((Polynomial.C (c i) * (X - Polynomial.C (m i))) ^ k)) fun x => E x ((Polynomial.C c0 * (X - Polynomial.C m0)) ^ k) := by
  have hex : ∀ (x c m : ℝ), E x ((Polynomial.C c * (X - Polynomial.C m)) ^ k)
      = ∑ j ∈ Finset.range (k + 1), c ^ k * ((-m) ^ (k - j) * (k.choose j : ℝ)) * E x (X ^ j) := by
    intro x c m
    rw [mul_pow, sub_eq_add_neg, ← C_neg, add_pow, Finset.mul_sum, map_sum]
    refine Finset.sum_congr rfl fun j _ => ?_
    have : (Polynomial.C c ^ k * (X ^ j * Polynomial.C (-m) ^ (k - j) * ((k.choose j : ℕ) : ℝ[X])))
        = (c ^ k * ((-m) ^ (k - j) * (k.choose j : ℝ))) • X ^ j := by
      rw [smul_eq_C_mul, C_mul, C_mul, ← C_pow, ← C_pow, ← C_eq_natCast]
      ring
    rw [this, map_smul, smul_eq_mul]
  intro x
  simp only [hex]
  refine tendsto_finsetSum _ fun j _ => ?_
  refine (((hc.comp tendsto_fst).pow k).mul ((((hm.comp tendsto_fst).neg).pow _).mul_const _)).mul ?_
  exact ((hE j).tendsto x).comp tendsto_snd

end Mfs.Cont

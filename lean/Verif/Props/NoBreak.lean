import Verif.Props.Units
import Verif.Props.GaussQuad
import Verif.Props.Moments1

/-!
# C126: process noise keeps the one-dimensional filters valid
-/

namespace Mfs.Props

open Matrix Mfs.Spec Mfs.Quad1 Mfs.Filter1 Polynomial

variable {Y : Type}

/-- averaging conditional laws that are positive on squares gives a positive definite Gram matrix, whatever rule is used. -/
theorem pred_gram_posDef {m : ℕ} (r : (Fin m → ℝ) × (Fin m → ℝ)) (hw : ∀ i, 0 ≤ r.1 i) (hw1 : ∑ i, r.1 i = 1)
    (E : ℝ → ℝ[X] →ₗ[ℝ] ℝ) (n : ℕ) (hE : ∀ x q, q ≠ 0 → q.natDegree < n / 2 → 0 < E x (q ^ 2)) (c a : ℝ) (hc : c ≠ 0) :
    (gramOf ((List.range n).map fun k => integ r fun x => E x ((C c * (X - C a)) ^ k))).PosDef := by
  rw [gramOf, show ((List.range n).map fun k => integ r fun x => E x ((C c * (X - C a)) ^ k)).length / 2 = n / 2 by simp]
  rw [posDef_hankel_iff (affineFun (mixLaw r E) c (-c * a))]
  · intro q hq hd
    have hcomp := comp_affine_ne_zero (b := -c * a) hc hq
    rw [affineFun_apply, mixLaw_apply, pow_comp, integ]
    have hpos : ∀ i, 0 < E (r.2 i) ((q.comp (C c * X + C (-c * a))) ^ 2) := fun i => hE _ _ hcomp.1 (by rw [hcomp.2]; exact hd)
    refine lt_of_le_of_ne (Finset.sum_nonneg fun i _ => mul_nonneg (hw i) (hpos i).le) fun h0 => ?_
    have h1 := (Finset.sum_eq_zero_iff_of_nonneg fun i _ => mul_nonneg (hw i) (hpos i).le).1 h0.symm
    have h2 : ∑ i, r.1 i = 0 := Finset.sum_eq_zero fun i hi => (mul_eq_zero.1 (h1 i hi)).resolve_right (hpos i).ne'
    rw [hw1] at h2
    exact one_ne_zero h2
  · intro k hk
    rw [getD_map_range _ (by omega : k < n), affineFun_apply, mixLaw_apply, pow_comp, X_comp]
    congr 1
    funext x
    congr 2
    rw [mul_sub, ← C_mul, sub_eq_add_neg, ← C_neg, neg_mul]

/-- distinct nodes and positive weights of the rule of a positive definite Gram matrix. -/
theorem rule_pos_inj (B : Backend) (hB : B.Valid) (ms : List ℝ) (hpd : (gramOf ms).PosDef) (m s : ℝ) (hs : s ≠ 0) (ldl : Bool) :
    (∀ i, 0 < (momentQuadrature B ms m s false ldl).1 i) ∧ Function.Injective (momentQuadrature B ms m s false ldl).2 := by
  have hrep := momentQuadrature_reproduces B hB _ hpd false ldl
  have hw := hrep.weight_pos (posDef_normalised _ hpd)
  have hinj := hrep.injective (posDef_normalised _ hpd)
  have ha := momentQuadrature_affine B ms m s false ldl
  rw [ha.1, ha.2]
  exact ⟨hw, fun i j h => hinj (mul_left_cancel₀ hs (add_right_cancel h))⟩

/-- reweighting a rule with positive weights and distinct nodes. -/
theorem post_gram_posDef {m n : ℕ} (hm : n / 2 = m) (r : (Fin m → ℝ) × (Fin m → ℝ)) (hw : ∀ i, 0 < r.1 i)
    (hinj : Function.Injective r.2) (g : ℝ → ℝ) (hg : ∀ x, 0 < g x) (Z : ℝ) (hZ : 0 < Z) (c a : ℝ) (hc : c ≠ 0) :
    (gramOf ((List.range n).map fun k => integ r (fun x => ((x - a) / c) ^ k * g x) / Z)).PosDef := by
  refine gramOf_posDef_of_atoms (fun i => r.1 i * g (r.2 i) / Z) (fun i => (r.2 i - a) / c) (fun i => div_pos (mul_pos (hw i) (hg _)) hZ)
    (fun i j h => hinj ?_) _ (by simpa using hm) ?_
  · have := (div_left_inj' hc).1 h
    linarith
  · intro k hk
    rw [getD_map_range _ (by simpa using hk), integ, Finset.sum_div]
    exact Finset.sum_congr rfl fun i _ => by ring

theorem integ_pos {m : ℕ} [NeZero m] (r : (Fin m → ℝ) × (Fin m → ℝ)) (hw : ∀ i, 0 < r.1 i) (g : ℝ → ℝ) (hg : ∀ x, 0 < g x) :
    0 < integ r g :=
  Finset.sum_pos (fun i _ => mul_pos (hw i) (hg _)) ⟨0, Finset.mem_univ _⟩

/-- a reweighted rule with at least two nodes has positive variance. -/
theorem post_var_pos {m : ℕ} (hm : 2 ≤ m) (r : (Fin m → ℝ) × (Fin m → ℝ)) (hw : ∀ i, 0 < r.1 i) (hinj : Function.Injective r.2)
    (g : ℝ → ℝ) (hg : ∀ x, 0 < g x) (a : ℝ) : 0 < integ r fun x => ((x - a) / 1) ^ 2 * g x := by
  have h0 : ∀ i, 0 ≤ r.1 i * (((r.2 i - a) / 1) ^ 2 * g (r.2 i)) := fun i =>
    mul_nonneg (hw i).le (mul_nonneg (sq_nonneg _) (hg _).le)
  refine lt_of_le_of_ne (Finset.sum_nonneg fun i _ => h0 i) fun h => ?_
  have h1 := (Finset.sum_eq_zero_iff_of_nonneg fun i _ => h0 i).1 h.symm
  have h2 : ∀ i, r.2 i = a := fun i => by
    have := (mul_eq_zero.1 (h1 i (Finset.mem_univ i))).resolve_left (hw i).ne'
    have := (mul_eq_zero.1 this).resolve_right (hg _).ne'
    have := pow_eq_zero_iff (two_ne_zero) |>.1 this
    rw [div_one] at this
    linarith
  have : (⟨0, by omega⟩ : Fin m) = ⟨1, by omega⟩ := hinj ((h2 _).trans (h2 _).symm)
  simp at this

/-- an invariant of the states of a run. -/
theorem traj_inv {S : Type} {g : S → Y → S} (I J : S → Prop) (hI : ∀ s y, I s → I (g s y) ∧ J (g s y)) (s : S) (hs : I s)
    (ys : List Y) : ∀ o ∈ traj g s ys, I o ∧ J o := by
  induction ys generalizing s with
  | nil => simp [traj]
  | cons y ys ih =>
    intro o ho
    rw [traj, List.mem_cons] at ho
    rcases ho with rfl | ho
    · exact hI s y hs
    · exact ih _ (hI s y hs).1 o ho

/-- **C126.** Let the conditional laws be positive on squares of polynomials (for instance normal with positive variance) and
let the measurement density be positive. Then in a run of any of the three filters, on any measurement sequence and from any
initial vector, every Gram matrix whose Cholesky factor is taken is positive definite: those of all returned moments and of
all predicted moments. No later step can fail. The scaled filter moreover has positive scales. -/
theorem C126_never_breaks (B : Backend) (hB : B.Valid) (stable : Bool) (pdf : Y → ℝ → ℝ) (hpdf : ∀ y x, 0 < pdf y x)
    (E : ℝ → ℝ[X] →ₗ[ℝ] ℝ) (n : ℕ) (hn : 2 ≤ n) (hE : ∀ x q, q ≠ 0 → q.natDegree < n / 2 → 0 < E x (q ^ 2)) (ys : List Y) :
    (∀ (P : ℝ → ℕ → ℝ), (∀ x, ∀ k < n, P x k = E x (X ^ k)) → ∀ rms0 : List ℝ, rms0.length = n →
      (gramOf (predRms B stable P n rms0)).PosDef ∧ ∀ r ∈ (filterRms B P pdf rms0 ys stable).1,
        (gramOf r).PosDef ∧ (gramOf (predRms B stable P n r)).PosDef) ∧
    (∀ (P : ℝ → ℕ → ℝ → ℝ) (cm : ℝ → ℝ), (∀ x m, ∀ k < n, P x k m = E x ((X - C m) ^ k)) →
      ∀ (cms0 : List ℝ) (m0 : ℝ), cms0.length = n →
      (gramOf (predCms B stable P cm n (cms0, m0)).1).PosDef ∧ ∀ c ∈ (filterCms B P cm pdf cms0 m0 ys stable).1,
        (gramOf c.1).PosDef ∧ (gramOf (predCms B stable P cm n c).1).PosDef) ∧
    (4 ≤ n → ∀ (P : ℝ → ℕ → ℝ → ℝ → ℝ) (cm cv : ℝ → ℝ), (∀ x, 0 < cv x) →
      (∀ x m s, ∀ k < n, P x k m s = E x ((C s⁻¹ * (X - C m)) ^ k)) →
      ∀ (scms0 : List ℝ) (m0 s0 : ℝ), scms0.length = n →
      (gramOf (predScms B stable P cm cv n (scms0, m0, s0)).1).PosDef ∧ ∀ c ∈ (filterScms B P cm cv pdf scms0 m0 s0 ys stable).1,
        (gramOf c.1).PosDef ∧ 0 < c.2.2 ∧ (gramOf (predScms B stable P cm cv n c).1).PosDef ∧ 0 < (predScms B stable P cm cv n c).2.2) := by
  have hne : NeZero (n / 2) := ⟨by omega⟩
  have hcongr : ∀ {f g : ℕ → ℝ}, (∀ k < n, f k = g k) → (List.range n).map f = (List.range n).map g := fun h =>
    List.map_congr_left fun k hk => h k (List.mem_range.1 hk)
  refine ⟨?_, ?_, ?_⟩
  · intro P hP rms0 hl
    have hpred : ∀ r : List ℝ, r.length = n → (gramOf (predRms B stable P n r)).PosDef := by
      intro r hr
      have hw := C09_weights_probability B hB r (by omega) 0 1 false stable
      have := pred_gram_posDef _ hw.1 hw.2 E n hE 1 0 one_ne_zero
      rw [predRms, hcongr (g := fun k => integ (momentQuadrature B r 0 1 false stable) fun x => E x ((C 1 * (X - C 0)) ^ k))]
      · exact this
      · intro k hk
        simp only [hP _ k hk, C_1, C_0, one_mul, sub_zero]
    refine ⟨hpred _ hl, ?_⟩
    rw [filterRms_eq, hl]
    have := traj_inv (g := nextRms B stable P pdf n) (fun r => r.length = n) (fun r => (gramOf r).PosDef)
      (fun s y hs => ⟨by simp [nextRms], (next_posDef hB hn (hpred s hs) y (hpdf y)).2⟩) rms0 hl ys
    exact fun r hr => ⟨(this r hr).2, hpred r (this r hr).1⟩
  · intro P cm hP cms0 m0 hl
    have hpred : ∀ c : List ℝ × ℝ, c.1.length = n → (gramOf (predCms B stable P cm n c).1).PosDef := by
      intro c hc
      have hw := C09_weights_probability B hB c.1 (by omega) c.2 1 false stable
      have := pred_gram_posDef _ hw.1 hw.2 E n hE 1 (integ (momentQuadrature B c.1 c.2 1 false stable) cm) one_ne_zero
      rw [predCms]
      dsimp only
      rw [hcongr (g := fun k => integ (momentQuadrature B c.1 c.2 1 false stable) fun x =>
        E x ((C 1 * (X - C (integ (momentQuadrature B c.1 c.2 1 false stable) cm))) ^ k))]
      · exact this
      · intro k hk
        simp only [hP _ _ k hk, C_1, one_mul]
    refine ⟨hpred _ hl, ?_⟩
    rw [filterCms_eq, hl]
    have := traj_inv (g := nextCms B stable P cm pdf n) (fun c => c.1.length = n) (fun c => (gramOf c.1).PosDef)
      (fun s y hs => ⟨by simp [nextCms], by
        have hplen : (predCms B stable P cm n s).1.length / 2 = n / 2 := by simp [predCms]
        obtain ⟨h1, h2⟩ := rule_pos_inj B hB _ (hpred s hs) (predCms B stable P cm n s).2 1 one_ne_zero stable
        have hZ : 0 < likCms B stable P cm pdf n s y := by
          rw [likCms]
          exact integ_pos_of_pos B hB _ (by simpa [predCms] using hn) _ _ _ _ _ (hpdf y)
        have := post_gram_posDef (n := n) hplen.symm _ h1 h2 (pdf y) (hpdf y) _ hZ 1
          (integ (momentQuadrature B (predCms B stable P cm n s).1 (predCms B stable P cm n s).2 1 false stable)
            (fun x => (x - 0) ^ 1 * pdf y x) / likCms B stable P cm pdf n s y) one_ne_zero
        refine (congrArg (fun l => (gramOf l).PosDef) ?_).mpr this
        simp only [nextCms, div_one]⟩) (cms0, m0) hl ys
    exact fun r hr => ⟨(this r hr).2, hpred r (this r hr).1⟩
  · intro h4 P cm cv hcv hP scms0 m0 s0 hl
    have hscale : ∀ c : List ℝ × ℝ × ℝ, c.1.length = n → 0 < (predScms B stable P cm cv n c).2.2 := by
      intro c hc
      rw [predScms]
      exact Real.sqrt_pos.2 (integ_pos_of_pos B hB _ (by omega) _ _ _ _ _ hcv)
    have hpred : ∀ c : List ℝ × ℝ × ℝ, c.1.length = n → (gramOf (predScms B stable P cm cv n c).1).PosDef := by
      intro c hc
      have hw := C09_weights_probability B hB c.1 (by omega) c.2.1 c.2.2 false stable
      have hs := hscale c hc
      rw [predScms] at hs ⊢
      dsimp only at hs ⊢
      have := pred_gram_posDef _ hw.1 hw.2 E n hE (√(integ (momentQuadrature B c.1 c.2.1 c.2.2 false stable) cv))⁻¹
        (integ (momentQuadrature B c.1 c.2.1 c.2.2 false stable) cm) (inv_ne_zero hs.ne')
      rw [hcongr (g := fun k => integ (momentQuadrature B c.1 c.2.1 c.2.2 false stable) fun x =>
        E x ((C (√(integ (momentQuadrature B c.1 c.2.1 c.2.2 false stable) cv))⁻¹
          * (X - C (integ (momentQuadrature B c.1 c.2.1 c.2.2 false stable) cm))) ^ k))]
      · exact this
      · intro k hk
        simp only [hP _ _ _ k hk]
    refine ⟨hpred _ hl, ?_⟩
    rw [filterScms_eq, hl]
    have := traj_inv (g := nextScms B stable P cm cv pdf n) (fun c => c.1.length = n) (fun c => (gramOf c.1).PosDef ∧ 0 < c.2.2)
      (fun s y hs => ⟨by simp [nextScms], by
        have hplen : (predScms B stable P cm cv n s).1.length / 2 = n / 2 := by simp [predScms]
        obtain ⟨h1, h2⟩ := rule_pos_inj B hB _ (hpred s hs) (predScms B stable P cm cv n s).2.1 (predScms B stable P cm cv n s).2.2
          (hscale s hs).ne' stable
        have hZ : 0 < likScms B stable P cm cv pdf n s y := by
          rw [likScms]
          exact integ_pos_of_pos B hB _ (by simpa [predScms] using hn) _ _ _ _ _ (hpdf y)
        have hsc : 0 < (nextScms B stable P cm cv pdf n s y).2.2 := by
          rw [nextScms]
          exact Real.sqrt_pos.2 (div_pos (post_var_pos (by rw [hplen]; omega) _ h1 h2 (pdf y) (hpdf y) _) hZ)
        refine ⟨?_, hsc⟩
        exact post_gram_posDef (n := n) hplen.symm _ h1 h2 (pdf y) (hpdf y) _ hZ (nextScms B stable P cm cv pdf n s y).2.2
          (nextScms B stable P cm cv pdf n s y).2.1 hsc.ne'⟩) (scms0, m0, s0) hl ys
    exact fun r hr => ⟨(this r hr).2.1, (this r hr).2.2, hpred r (this r hr).1, hscale r (this r hr).1⟩

section

variable {B : Backend} {E : ℝ → ℝ[X] →ₗ[ℝ] ℝ} {pdf : Y → ℝ → ℝ} {cv : ℝ → ℝ}

/-- **C126, consequence.** Under process noise the three filters agree on every measurement sequence, with no condition on the
run: same negative log-likelihood, and at each step the raw, central and scaled moments of one and the same law. -/
theorem C126_same_filter (hB : B.Valid) (hE1 : ∀ x, E x 1 = 1) (hE : ∀ x q, q ≠ 0 → 0 < E x (q ^ 2)) (hcv : ∀ x, 0 < cv x)
    (hpdf : ∀ (y : Y) x, 0 < pdf y x) (l₁ l₂ l₃ : Bool) (rms0 cms0 scms0 : List ℝ) (m0 s0 : ℝ) (L : ℝ[X] →ₗ[ℝ] ℝ)
    (hn : 4 ≤ rms0.length) (h : SameLaw rms0.length L rms0 (cms0, m0) (scms0, m0, s0)) (h0 : (gramOf rms0).PosDef) (ys : List Y) :
    let a := filterRms B (rawOf E) pdf rms0 ys l₁
    let b := filterCms B (centralOf E) (meanOf E) pdf cms0 m0 ys l₂
    let c := filterScms B (scaledOf E) (meanOf E) cv pdf scms0 m0 s0 ys l₃
    b.2 = a.2 ∧ c.2 = a.2 ∧ a.1.length = ys.length ∧ b.1.length = ys.length ∧ c.1.length = ys.length ∧
    ∀ (k : ℕ) r ce sc, a.1[k]? = some r → b.1[k]? = some ce → c.1[k]? = some sc →
      ∃ L', SameLaw rms0.length L' r ce sc ∧ ce.2 = L' X ∧ 0 < sc.2.2 ∧ sc.2.2 ^ 2 = L' ((X - C (L' X)) ^ 2) := by
  refine C27_same_filter_pos hB hE1 hcv l₁ l₂ l₃ rms0 cms0 scms0 m0 s0 L hn h ys hpdf h0 ?_
  generalize hl : rms0.length = n at hn
  clear h h0
  induction ys generalizing rms0 with
  | nil => trivial
  | cons y ys ih =>
    have := ((C126_never_breaks B hB l₁ pdf hpdf E n (by omega) (fun x q hq _ => hE x q hq) ys).1 (rawOf E) (fun _ _ _ => rfl) rms0 hl).1
    exact ⟨this, ih _ (by simp [nextRms])⟩

end

theorem gramsStay_of_traj {S : Type} (mom : S → List ℝ) (pred : S → S) (next : S → Y → S) (s : S) (ys : List Y)
    (h0 : (gramOf (mom s)).PosDef) (h1 : (gramOf (mom (pred s))).PosDef)
    (h : ∀ o ∈ traj next s ys, (gramOf (mom o)).PosDef ∧ (gramOf (mom (pred o))).PosDef) : GramsStay mom pred next s ys := by
  induction ys generalizing s with
  | nil => trivial
  | cons y ys ih =>
    have hy := h (next s y) (by simp [traj])
    exact ⟨h0, h1, ih _ hy.1 hy.2 fun o ho => h o (by rw [traj]; exact List.mem_cons_of_mem _ ho)⟩

open Mfs.Moments1 ProbabilityTheory MeasureTheory

/-- the Euler–Maruyama moments of the library, as functionals. -/
theorem euler_functional (drift dispersion : ℝ → ℝ) (dt : ℝ) (hdt : 0 ≤ dt) (N : ℕ) (x : ℝ) (k : ℕ) (hk : k < 2 * N) :
    (sdeCondMomentsEuler drift dispersion dt N).raw x k = gaussL (x + drift x * dt) (dispersion x ^ 2 * dt).toNNReal (X ^ k) ∧
    ∀ m, (sdeCondMomentsEuler drift dispersion dt N).central x k m
      = gaussL (x + drift x * dt) (dispersion x ^ 2 * dt).toNNReal ((X - C m) ^ k) := by
  have h := C42_transition_consistent.1 drift dispersion dt hdt N x
  refine ⟨(h.1 k hk).trans ?_, fun m => (h.2.1 k hk m).trans ?_⟩
  · rw [gaussL_apply]; simp only [eval_pow, eval_X]; rfl
  · rw [gaussL_apply]; simp only [eval_pow, eval_sub, eval_X, eval_C]; rfl

theorem euler_pos (drift dispersion : ℝ → ℝ) (dt : ℝ) (hdt : 0 < dt) (hdis : ∀ x, dispersion x ≠ 0) (x : ℝ) (q : ℝ[X]) (hq : q ≠ 0) :
    0 < gaussL (x + drift x * dt) (dispersion x ^ 2 * dt).toNNReal (q ^ 2) := by
  refine gaussL_sq_pos _ ?_ q hq
  rw [Ne, Real.toNNReal_eq_zero, not_le]
  have := hdis x
  positivity

/-- **C126, Euler–Maruyama.** With the conditional moments computed by `sde_cond_moments_euler` for a non-vanishing dispersion
and `dt > 0`, the filters of raw and of central moments never meet a Gram matrix that is not positive definite, on any
measurement sequence with a positive measurement density. -/
theorem C126_euler_never_breaks (B : Backend) (hB : B.Valid) (stable : Bool) (pdf : Y → ℝ → ℝ) (hpdf : ∀ y x, 0 < pdf y x)
    (drift dispersion : ℝ → ℝ) (dt : ℝ) (hdt : 0 < dt) (hdis : ∀ x, dispersion x ≠ 0) (N : ℕ) (ys : List Y)
    (ms0 : List ℝ) (hn : 2 ≤ ms0.length) (hN : ms0.length ≤ 2 * N) (m0 : ℝ) :
    let F := sdeCondMomentsEuler drift dispersion dt N
    ((gramOf (predRms B stable F.raw ms0.length ms0)).PosDef ∧ ∀ r ∈ (filterRms B F.raw pdf ms0 ys stable).1,
      (gramOf r).PosDef ∧ (gramOf (predRms B stable F.raw ms0.length r)).PosDef) ∧
    ((gramOf (predCms B stable F.central F.mean ms0.length (ms0, m0)).1).PosDef ∧
      ∀ c ∈ (filterCms B F.central F.mean pdf ms0 m0 ys stable).1,
        (gramOf c.1).PosDef ∧ (gramOf (predCms B stable F.central F.mean ms0.length c).1).PosDef) := by
  intro F
  have h := C126_never_breaks B hB stable pdf hpdf (fun x => gaussL (x + drift x * dt) (dispersion x ^ 2 * dt).toNNReal) ms0.length hn
    (fun x q hq _ => euler_pos drift dispersion dt hdt hdis x q hq) ys
  exact ⟨h.1 F.raw (fun x k hk => (euler_functional drift dispersion dt hdt.le N x k (by omega)).1) ms0 rfl,
    h.2.1 F.central F.mean (fun x m k hk => (euler_functional drift dispersion dt hdt.le N x k (by omega)).2 m) ms0 m0 rfl⟩

/-- the hypotheses at a Beneš model with a Bernoulli measurement, as in the example of the repository. -/
example : (∀ (y : Bool) x, 0 < (fun (y : Bool) (x : ℝ) => if y then 1 / (1 + Real.exp (-x)) else 1 / (1 + Real.exp x)) y x) ∧
    (∀ x : ℝ, (fun _ => (1 : ℝ)) x ≠ 0) ∧ (0 : ℝ) < 0.01 ∧ [(1 : ℝ), 0, 1, 0].length ≤ 2 * 2 := by
  refine ⟨fun y x => ?_, by simp, by norm_num, by simp⟩
  have h1 := Real.exp_pos x
  have h2 := Real.exp_pos (-x)
  cases y <;> simp <;> positivity

/-! ### change of units for the Euler–Maruyama model (C125) -/

theorem gaussL_affine (m : ℝ) (v : NNReal) (a b : ℝ) (p : ℝ[X]) :
    gaussL (b * m + a) (.mk (b ^ 2) (sq_nonneg b) * v) p = gaussL m v (p.comp (C b * X + C a)) := by
  rw [gaussL_apply, gaussL_apply, ← gaussianReal_map_add_const, ← gaussianReal_map_const_mul, Measure.map_map (by fun_prop) (by fun_prop),
    integral_map (by fun_prop) (by fun_prop)]
  simp only [Function.comp_apply, eval_comp, eval_add, eval_mul, eval_C, eval_X]

/-- **C125, Euler–Maruyama.** Write the stochastic differential equation for `x' = a + b x`, `b ≠ 0`: drift and dispersion are
multiplied by `b`. With the moments of `sde_cond_moments_euler` the filter of raw moments then returns the moments of
`a + b X`, the filter of central moments `b ^ k` times the central moments and the transformed means, and both the same
negative log-likelihood. There is no condition on the run. -/
theorem C125_euler_units (B : Backend) (hB : B.Valid) (stable : Bool) (a b : ℝ) (hb : b ≠ 0)
    (drift drift' dispersion dispersion' : ℝ → ℝ) (hdr : ∀ x, drift' (a + b * x) = b * drift x)
    (hds : ∀ x, dispersion' (a + b * x) = b * dispersion x) (dt : ℝ) (hdt : 0 < dt) (hdis : ∀ x, dispersion x ≠ 0) (N : ℕ)
    (pdf pdf' : Y → ℝ → ℝ) (hpdf : ∀ y x, pdf' y (a + b * x) = pdf y x) (hpos : ∀ y x, 0 < pdf y x)
    (ms0 : List ℝ) (hl : 2 ≤ ms0.length) (hN : ms0.length ≤ 2 * N) (h0 : ms0.getD 0 0 = 1) (hpd : (gramOf ms0).PosDef) (m0 : ℝ)
    (ys : List Y) :
    let F := sdeCondMomentsEuler drift dispersion dt N
    let F' := sdeCondMomentsEuler drift' dispersion' dt N
    filterRms B F'.raw pdf' (affineMoments a b ms0) ys stable
      = ((filterRms B F.raw pdf ms0 ys stable).1.map (affineMoments a b), (filterRms B F.raw pdf ms0 ys stable).2) ∧
    filterCms B F'.central F'.mean pdf' (ms0.mapIdx fun k c => b ^ k * c) (a + b * m0) ys stable
      = ((filterCms B F.central F.mean pdf ms0 m0 ys stable).1.map fun o => (o.1.mapIdx fun k c => b ^ k * c, a + b * o.2),
          (filterCms B F.central F.mean pdf ms0 m0 ys stable).2) := by
  intro F F'
  have hfun := fun x k (hk : k < ms0.length) => euler_functional drift dispersion dt hdt.le N x k (by omega)
  have hfun' := fun x k (hk : k < ms0.length) => euler_functional drift' dispersion' dt hdt.le N x k (by omega)
  have hgl : ∀ x p, gaussL (a + b * x + drift' (a + b * x) * dt) (dispersion' (a + b * x) ^ 2 * dt).toNNReal p
      = gaussL (x + drift x * dt) (dispersion x ^ 2 * dt).toNNReal (p.comp (C b * X + C a)) := by
    intro x p
    rw [← gaussL_affine, hdr, hds]
    congr 2
    · ring
    · ext
      rw [Real.coe_toNNReal _ (by positivity), NNReal.coe_mul, Real.coe_toNNReal _ (by positivity)]
      change _ = b ^ 2 * _
      ring
  have hnb := C126_euler_never_breaks B hB stable pdf hpos drift dispersion dt hdt hdis N ys ms0 hl hN m0
  have hone : ∀ (m : ℝ) v, gaussL m v 1 = 1 := fun m v => by rw [gaussL_apply]; simp
  constructor
  · refine C125_raw_units B hB stable a b hb F.raw F'.raw pdf pdf' ?_ hpdf hpos ms0 hl h0 ys ?_ ?_
    · intro x
      rw [(hfun x 0 (by omega)).1, pow_zero, hone]
    · intro x k hk
      rw [(hfun' _ k hk).1, hgl, pow_comp, X_comp, add_pow, map_sum]
      refine Finset.sum_congr rfl fun j hj => ?_
      have hj' := Finset.mem_range.1 hj
      rw [(hfun x j (by omega)).1]
      have : (C b * X) ^ j * C a ^ (k - j) * ((k.choose j : ℕ) : ℝ[X]) = (b ^ j * a ^ (k - j) * (k.choose j : ℝ)) • X ^ j := by
        rw [smul_eq_C_mul, mul_pow, ← C_pow, ← C_pow, C_mul, C_mul, ← C_eq_natCast]
        ring_nf
      rw [this, map_smul, smul_eq_mul]
    · refine gramsStay_of_traj id _ _ ms0 ys hpd hnb.1.1 fun o ho => ?_
      refine hnb.1.2 o ?_
      rw [filterRms_eq]
      exact ho
  · refine C125_central_units B hB stable a b hb F.central F'.central F.mean F'.mean pdf pdf' ?_ ?_ hpdf hpos ms0 hl h0 m0 ys ?_ ?_
    · intro x m
      rw [(hfun x 0 (by omega)).2, pow_zero, hone]
    · intro x
      change a + b * x + drift' (a + b * x) * dt = a + b * (x + drift x * dt)
      rw [hdr]
      ring
    · intro x m k hk
      rw [(hfun' _ k hk).2, hgl, (hfun x k hk).2, pow_comp, sub_comp, X_comp, C_comp]
      have : (C b * X + C a - C (a + b * m)) ^ k = (b ^ k) • (X - C m) ^ k := by
        rw [smul_eq_C_mul, C_pow, ← mul_pow, C_add, C_mul]
        ring_nf
      rw [this, map_smul, smul_eq_mul]
    · refine gramsStay_of_traj Prod.fst _ _ (ms0, m0) ys hpd hnb.2.1 fun o ho => ?_
      refine hnb.2.2 o ?_
      rw [filterCms_eq]
      exact ho

/-- For the scaled moments of `sde_cond_moments_euler` this fails: because of the wrong power of the scale (C43) the same model
in other units gives other scaled moments, already of order zero. -/
theorem C125_euler_scaled_wrong (drift drift' dispersion dispersion' : ℝ → ℝ) (dt : ℝ) (hdt : 0 ≤ dt) (N : ℕ) (hN : 1 ≤ N) (a b : ℝ)
    (hb : 0 < b) (hb1 : b ≠ 1) (x m s : ℝ) (hs : 0 < s) :
    (sdeCondMomentsEuler drift' dispersion' dt N).scaled (a + b * x) 0 (a + b * m) (b * s)
      ≠ (sdeCondMomentsEuler drift dispersion dt N).scaled x 0 m s := by
  have h' := (C43_scaled_value drift' dispersion' dt hdt (fun _ _ => 0) (fun _ => (0, 0)) N 0 (by omega) (a + b * x) (a + b * m) (b * s)
    (by positivity) (by simp)).1
  have h := (C43_scaled_value drift dispersion dt hdt (fun _ _ => 0) (fun _ => (0, 0)) N 0 (by omega) x m s hs.ne' (by simp)).1
  intro he
  rw [he, mul_pow] at h'
  simp only [pow_zero, integral_const, one_mul, probReal_univ, smul_eq_mul, mul_one] at h h'
  have h1 : b ^ (N * (2 * N - 1)) = 1 := by linear_combination h' - b ^ (N * (2 * N - 1)) * h
  exact hb1 ((pow_eq_one_iff_of_nonneg hb.le (Nat.mul_ne_zero (by omega) (by omega))).1 h1)

/-- an Ornstein–Uhlenbeck process in other units: from `x` (degrees Celsius) to `32 + 1.8 x` (degrees Fahrenheit). -/
example : (∀ x : ℝ, (fun x' : ℝ => 32 - x') (32 + 1.8 * x) = 1.8 * (fun x => -x) x) ∧
    (∀ x : ℝ, (fun _ => (1.8 : ℝ)) (32 + 1.8 * x) = 1.8 * (fun _ => 1) x) ∧ (gramOf [1, 0, 1, 0]).PosDef :=
  ⟨fun x => by ring, fun x => by norm_num, gramOf_example⟩

end Mfs.Props

import Verif.Lemmas.RuleSmooth
import Mathlib.Analysis.SpecialFunctions.Sqrt
import Mathlib.Analysis.SpecialFunctions.Log.Deriv
import Mathlib.Analysis.SpecialFunctions.ExpDeriv

/-!
# C167, C168: the rule and the one-dimensional filters are differentiable
-/

namespace Mfs.Props

open Matrix Mfs.Spec Filter Topology Mfs.Quad1 Mfs.Filter1 Mfs.Cont Mfs.Smooth Polynomial
open scoped ContDiff

variable {n : ℕ} {r : WithTop ℕ∞}

/-! ## C167 -/

/-- **C167, rule.** On valid moment vectors the value of the rule on a function of class `C^r` is of class `C^r` in the moments,
the mean and the scale jointly (`r` may be any natural number, `∞`, or `ω` for analytic). Nothing is assumed on how the
eigenvectors are chosen. -/
theorem C167_rule_smooth (B : Backend) (hB : B.Valid) (sort ldl : Bool) (f : ℝ → ℝ) (hf : ContDiff ℝ r f) :
    ContDiffOn ℝ r (fun p : (Fin n → ℝ) × ℝ × ℝ => ∑ i, (momentQuadrature B (List.ofFn p.1) p.2.1 p.2.2 sort ldl).1 i
      * f ((momentQuadrature B (List.ofFn p.1) p.2.1 p.2.2 sort ldl).2 i)) {p | (gramOf (List.ofFn p.1)).PosDef} := by
  intro p hp
  refine ContDiffAt.contDiffWithinAt ?_
  exact contDiffAt_rule B hB (Sm.ofFn contDiffAt_fst) hp sort ldl (contDiffAt_fst.comp p contDiffAt_snd) (contDiffAt_snd.comp p contDiffAt_snd)
    fun x => hf.contDiffAt.comp _ contDiffAt_snd

/-- **C167, nodes.** With `sort_nodes`, every single node and every single weight is an analytic function of the moments, the
mean and the scale. -/
theorem C167_nodes_analytic (B : Backend) (hB : B.Valid) (ldl : Bool) (j : Fin (n / 2)) :
    ContDiffOn ℝ ω (fun p : (Fin n → ℝ) × ℝ × ℝ => (momentQuadrature B (List.ofFn p.1) p.2.1 p.2.2 true ldl).2 (Fin.cast (by simp) j))
      {p | (gramOf (List.ofFn p.1)).PosDef} ∧
    ContDiffOn ℝ ω (fun p : (Fin n → ℝ) × ℝ × ℝ => (momentQuadrature B (List.ofFn p.1) p.2.1 p.2.2 true ldl).1 (Fin.cast (by simp) j))
      {p | (gramOf (List.ofFn p.1)).PosDef} := by
  have key : ∀ p : (Fin n → ℝ) × ℝ × ℝ, (gramOf (List.ofFn p.1)).PosDef → _ := fun p hp =>
    contDiffAt_nw (r := ω) B hB (Sm.ofFn (m := fun p : (Fin n → ℝ) × ℝ × ℝ => p.1) contDiffAt_fst) hp ldl
  refine ⟨fun p hp => ContDiffAt.contDiffWithinAt ?_, fun p hp => ContDiffAt.contDiffWithinAt ?_⟩
  · have h1 := contDiffAt_pi.1 (contDiffAt_snd.comp p (key p hp)) j
    have h2 : ContDiffAt ℝ ω (fun p : (Fin n → ℝ) × ℝ × ℝ => p.2.1) p := contDiffAt_fst.comp p contDiffAt_snd
    have h3 : ContDiffAt ℝ ω (fun p : (Fin n → ℝ) × ℝ × ℝ => p.2.2) p := contDiffAt_snd.comp p contDiffAt_snd
    refine ((h3.mul h1).add h2).congr_of_eventuallyEq (Eventually.of_forall fun q => ?_)
    exact congrFun (momentQuadrature_affine B (List.ofFn q.1) q.2.1 q.2.2 true ldl).2 _
  · exact contDiffAt_pi.1 (contDiffAt_fst.comp p (key p hp)) j

/-- **C167, derivative.** Along a differentiable curve of moment vectors that is valid at time `t`, the rule applied to a
differentiable function `f` has the derivative obtained by applying the derivative of the normalised moments to the coefficients
of the polynomial `H` of degree less than `2 (n / 2)` which agrees with `f` and with `f'` at the nodes. -/
theorem C167_rule_derivative (B : Backend) (hB : B.Valid) (sort ldl : Bool) (m : ℝ → Fin n → ℝ) (m' : Fin n → ℝ) (t : ℝ) (hm : HasDerivAt m m' t)
    (hpd : (gramOf (List.ofFn (m t))).PosDef) (f : ℝ → ℝ) (hf : Differentiable ℝ f) (H : ℝ[X]) (hH : H.natDegree < 2 * (n / 2))
    (hH0 : ∀ i, H.eval ((momentQuadrature B (List.ofFn (m t)) 0 1 sort ldl).2 i) = f ((momentQuadrature B (List.ofFn (m t)) 0 1 sort ldl).2 i))
    (hH1 : ∀ i, H.derivative.eval ((momentQuadrature B (List.ofFn (m t)) 0 1 sort ldl).2 i) = deriv f ((momentQuadrature B (List.ofFn (m t)) 0 1 sort ldl).2 i)) :
    HasDerivAt (fun u => ∑ i, (momentQuadrature B (List.ofFn (m u)) 0 1 sort ldl).1 i * f ((momentQuadrature B (List.ofFn (m u)) 0 1 sort ldl).2 i))
      (∑ k ∈ Finset.range (2 * (n / 2)), H.coeff k * deriv (fun u => (List.ofFn (m u)).getD k 0 / (List.ofFn (m u)).getD 0 0) t) t := by
  have hlen : ∀ v : Fin n → ℝ, (List.ofFn v).length = n := fun v => List.length_ofFn
  have ha : ContDiffAt ℝ ω (fun v : Fin n → ℝ => nw B ldl (List.ofFn v) (hlen v)) (m t) := contDiffAt_nw B hB (Sm.ofFn contDiffAt_id) hpd ldl
  have hev : ∀ᶠ u in 𝓝 t, (hankelMat (n / 2) (fun k => (List.ofFn (m u)).getD k 0)).PosDef :=
    eventually_gram (LConv.ofFn (l := 𝓝 t) hm.continuousAt) hpd
  set a : ℝ → (Fin (n / 2) → ℝ) × (Fin (n / 2) → ℝ) := fun u => nw B ldl (List.ofFn (m u)) (hlen (m u)) with hadef
  obtain ⟨a', ha'⟩ : ∃ a', HasDerivAt a a' t := ⟨_, (ha.differentiableAt (by simp)).hasFDerivAt.comp_hasDerivAt t hm⟩
  have hmom : HasDerivAt (fun u => momMap (n / 2) (a u)) (momDeriv (a t) a') t := (hasFDerivAt_momMap (a t)).comp_hasDerivAt t ha'
  have hk : ∀ k : Fin (2 * (n / 2)), deriv (fun u => (List.ofFn (m u)).getD k 0 / (List.ofFn (m u)).getD 0 0) t = momDeriv (a t) a' k := by
    intro k
    refine HasDerivAt.deriv (((hasDerivAt_pi.1 hmom) k).congr_of_eventuallyEq ?_)
    filter_upwards [hev] with u hu
    exact ((nw_spec B hB ldl (List.ofFn (m u)) (hlen _) hu).1 k).symm
  have h1 : ∀ i, HasDerivAt (fun u => (a u).1 i) (a'.1 i) t := hasDerivAt_pi.1 ((ContinuousLinearMap.fst ℝ (Fin (n / 2) → ℝ) (Fin (n / 2) → ℝ)).hasFDerivAt.comp_hasDerivAt t ha')
  have h2 : ∀ i, HasDerivAt (fun u => (a u).2 i) (a'.2 i) t := hasDerivAt_pi.1 ((ContinuousLinearMap.snd ℝ (Fin (n / 2) → ℝ) (Fin (n / 2) → ℝ)).hasFDerivAt.comp_hasDerivAt t ha')
  have hsum : HasDerivAt (fun u => ∑ i, (a u).1 i * f ((a u).2 i)) (∑ i, (a'.1 i * f ((a t).2 i) + (a t).1 i * (deriv f ((a t).2 i) * a'.2 i))) t :=
    HasDerivAt.fun_sum fun i _ => (h1 i).mul ((hf ((a t).2 i)).hasDerivAt.comp t (h2 i))
  have hval : ∑ i, (a'.1 i * f ((a t).2 i) + (a t).1 i * (deriv f ((a t).2 i) * a'.2 i))
      = ∑ k ∈ Finset.range (2 * (n / 2)), H.coeff k * deriv (fun u => (List.ofFn (m u)).getD k 0 / (List.ofFn (m u)).getD 0 0) t := by
    rw [← Fin.sum_univ_eq_sum_range (fun k => H.coeff k * deriv (fun u => (List.ofFn (m u)).getD k 0 / (List.ofFn (m u)).getD 0 0) t)]
    simp only [hk]
    rw [← momDeriv_poly_eq (a t) a' H hH]
    refine Finset.sum_congr rfl fun i _ => ?_
    obtain ⟨j, hj⟩ := nw_mem B hB sort ldl (List.ofFn (m t)) (hlen (m t)) hpd i
    have e0 := hH0 j
    have e1 := hH1 j
    rw [hj] at e0 e1
    change _ + (a t).1 i * _ = _
    rw [show (a t).2 i = (nw B ldl (List.ofFn (m t)) (hlen (m t))).2 i from rfl, e0, e1]
    ring
  rw [← hval]
  refine hsum.congr_of_eventuallyEq ?_
  filter_upwards [hev] with u hu
  have := (nw_spec B hB ldl (List.ofFn (m u)) (hlen _) hu).2.2.2 0 1 sort f
  simpa [integ] using this

/-- the hypotheses of the derivative at the moments of the standard normal law, and the Hermite interpolant of the square. -/
example : theBackend.Valid ∧ (gramOf (List.ofFn ![(1 : ℝ), 0, 1, 0])).PosDef ∧ (X ^ 2 : ℝ[X]).natDegree < 2 * (4 / 2) ∧
    ∀ x : ℝ, (X ^ 2 : ℝ[X]).eval x = x ^ 2 ∧ (X ^ 2 : ℝ[X]).derivative.eval x = deriv (fun x => x ^ 2) x :=
  ⟨theBackend_valid, by
    have : List.ofFn ![(1 : ℝ), 0, 1, 0] = [1, 0, 1, 0] := by simp [List.ofFn_succ]
    exact (congrArg (fun l => (gramOf l).PosDef) this).mpr gramOf_example, by simp, fun x => ⟨by simp, by norm_num⟩⟩

/-! ## C168 -/

variable {E : Type*} [NormedAddCommGroup E] [NormedSpace ℝ E] {θ : E} {Y : Type} {B : Backend}

/-- a valid step of the filter of raw moments: both moment vectors have a positive definite Gram matrix, and the predictive
likelihood is positive. -/
def OkRms (B : Backend) (stable : Bool) (P : ℝ → ℕ → ℝ) (pdf : Y → ℝ → ℝ) (n : ℕ) (s : List ℝ) (y : Y) : Prop :=
  (gramOf s).PosDef ∧ (gramOf (predRms B stable P n s)).PosDef ∧ 0 < likRms B stable P pdf n s y

def OkCms (B : Backend) (stable : Bool) (P : ℝ → ℕ → ℝ → ℝ) (cm : ℝ → ℝ) (pdf : Y → ℝ → ℝ) (n : ℕ) (s : List ℝ × ℝ) (y : Y) : Prop :=
  (gramOf s.1).PosDef ∧ (gramOf (predCms B stable P cm n s).1).PosDef ∧ 0 < likCms B stable P cm pdf n s y

/-- for scaled moments the predicted and the updated scale are positive too. -/
def OkScms (B : Backend) (stable : Bool) (P : ℝ → ℕ → ℝ → ℝ → ℝ) (cm cv : ℝ → ℝ) (pdf : Y → ℝ → ℝ) (n : ℕ) (s : List ℝ × ℝ × ℝ) (y : Y) : Prop :=
  (gramOf s.1).PosDef ∧ (gramOf (predScms B stable P cm cv n s).1).PosDef ∧ 0 < likScms B stable P cm cv pdf n s y ∧
    0 < (predScms B stable P cm cv n s).2.2 ∧ 0 < (nextScms B stable P cm cv pdf n s y).2.2

theorem joint_pdf_pow {f : E → ℝ → ℝ} (hf : Joint r θ f) {m c : E → ℝ} (hm : ContDiffAt ℝ r m θ) (hc : ContDiffAt ℝ r c θ) (hc0 : c θ ≠ 0) (k : ℕ) :
    Joint r θ fun t x => ((x - m t) / c t) ^ k * f t x := fun x => by
  have h1 : ContDiffAt ℝ r (fun p : E × ℝ => m p.1) (θ, x) := ContDiffAt.comp (g := m) (θ, x) hm contDiffAt_fst
  have h2 : ContDiffAt ℝ r (fun p : E × ℝ => c p.1) (θ, x) := ContDiffAt.comp (g := c) (θ, x) hc contDiffAt_fst
  exact (((contDiffAt_snd.sub h1).div h2 hc0).pow k).mul (hf x)

/-- **C168, raw moments.** Let initial moments, conditional moments, measurements and measurement density depend on a parameter
in such a way that the moments are of class `C^r` in parameter and state, and so is the density at each measurement. Then at
every parameter where the run is valid, the negative log-likelihood and all filtering moments are of class `C^r` in the
parameter. -/
theorem C168_rms_smooth (hB : B.Valid) (stable : Bool) (P : E → ℝ → ℕ → ℝ) (hP : ∀ k < n, Joint r θ fun t x => P t x k) (pdf : E → Y → ℝ → ℝ)
    (m : E → Fin n → ℝ) (hm : ContDiffAt ℝ r m θ) {T : ℕ} (ys : E → Fin T → Y) (hpdf : ∀ j, Joint r θ fun t => pdf t (ys t j))
    (hok : RunOK (OkRms B stable (P θ) (pdf θ) n) (nextRms B stable (P θ) (pdf θ) n) (List.ofFn (m θ)) (List.ofFn (ys θ))) :
    ContDiffAt ℝ r (fun t => (filterRms B (P t) (pdf t) (List.ofFn (m t)) (List.ofFn (ys t)) stable).2) θ ∧
    ∀ j < T, ∀ k < n, ContDiffAt ℝ r (fun t => ((filterRms B (P t) (pdf t) (List.ofFn (m t)) (List.ofFn (ys t)) stable).1.getD j []).getD k 0) θ := by
  have key := traj_smooth (r := r) (θ := θ) (Sm r θ n) (OkRms B stable (P θ) (pdf θ) n) (g := fun t => nextRms B stable (P t) (pdf t) n)
    (lik := fun t => likRms B stable (P t) (pdf t) n) T ys (by
      rintro j s hs ⟨h0, hg, hl0⟩
      have hpred : Sm r θ n fun t => predRms B stable (P t) n (s t) :=
        Sm.map_range fun k hk => contDiffAt_rule B hB hs h0 false stable contDiffAt_const contDiffAt_const (hP k hk)
      have hlik : ContDiffAt ℝ r (fun t => likRms B stable (P t) (pdf t) n (s t) (ys t j)) θ :=
        contDiffAt_rule B hB hpred hg false stable contDiffAt_const contDiffAt_const (hpdf j)
      refine ⟨Sm.map_range fun k hk => ?_, hl0, hlik⟩
      refine (contDiffAt_rule B hB hpred hg false stable contDiffAt_const contDiffAt_const ?_).div hlik hl0.ne'
      have := joint_pdf_pow (hpdf j) (contDiffAt_const (c := (0 : ℝ))) (contDiffAt_const (c := (1 : ℝ))) one_ne_zero k
      simpa only [sub_zero, div_one] using this) [] (fun t => List.ofFn (m t)) (Sm.ofFn hm) hok
  simp only [filterRms_eq, List.length_ofFn]
  exact ⟨key.1.neg, fun j hj k hk => (key.2 j hj).smooth k hk⟩

/-- **C168, central moments.** The same for the filter of central moments, jointly with the initial mean; the output means are
smooth too. -/
theorem C168_cms_smooth (hB : B.Valid) (stable : Bool) (P : E → ℝ → ℕ → ℝ → ℝ)
    (hP : ∀ k < n, ∀ x c, ContDiffAt ℝ r (fun p : E × ℝ × ℝ => P p.1 p.2.1 k p.2.2) (θ, x, c)) (cm : E → ℝ → ℝ) (hcm : Joint r θ cm)
    (pdf : E → Y → ℝ → ℝ) (m : E → Fin n → ℝ) (hm : ContDiffAt ℝ r m θ) (mean : E → ℝ) (hmean : ContDiffAt ℝ r mean θ) {T : ℕ} (ys : E → Fin T → Y)
    (hpdf : ∀ j, Joint r θ fun t => pdf t (ys t j))
    (hok : RunOK (OkCms B stable (P θ) (cm θ) (pdf θ) n) (nextCms B stable (P θ) (cm θ) (pdf θ) n) (List.ofFn (m θ), mean θ) (List.ofFn (ys θ))) :
    ContDiffAt ℝ r (fun t => (filterCms B (P t) (cm t) (pdf t) (List.ofFn (m t)) (mean t) (List.ofFn (ys t)) stable).2) θ ∧
    ∀ j < T, ContDiffAt ℝ r (fun t => ((filterCms B (P t) (cm t) (pdf t) (List.ofFn (m t)) (mean t) (List.ofFn (ys t)) stable).1.getD j ([], 0)).2) θ ∧
      ∀ k < n, ContDiffAt ℝ r
        (fun t => ((filterCms B (P t) (cm t) (pdf t) (List.ofFn (m t)) (mean t) (List.ofFn (ys t)) stable).1.getD j ([], 0)).1.getD k 0) θ := by
  have key := traj_smooth (r := r) (θ := θ) (fun s : E → List ℝ × ℝ => Sm r θ n (fun t => (s t).1) ∧ ContDiffAt ℝ r (fun t => (s t).2) θ)
    (OkCms B stable (P θ) (cm θ) (pdf θ) n) (g := fun t => nextCms B stable (P t) (cm t) (pdf t) n)
    (lik := fun t => likCms B stable (P t) (cm t) (pdf t) n) T ys (by
      rintro j s ⟨hs, hc⟩ ⟨h0, hg, hl0⟩
      have hmn : ContDiffAt ℝ r (fun t => (predCms B stable (P t) (cm t) n (s t)).2) θ :=
        contDiffAt_rule B hB hs h0 false stable hc contDiffAt_const hcm
      have hpred : Sm r θ n fun t => (predCms B stable (P t) (cm t) n (s t)).1 := by
        refine Sm.map_range fun k hk => contDiffAt_rule B hB hs h0 false stable hc contDiffAt_const fun x => ?_
        have h1 : ContDiffAt ℝ r (fun p : E × ℝ => (p.1, p.2, (predCms B stable (P p.1) (cm p.1) n (s p.1)).2)) (θ, x) :=
          contDiffAt_fst.prodMk (contDiffAt_snd.prodMk (ContDiffAt.comp (g := fun t => (predCms B stable (P t) (cm t) n (s t)).2) (θ, x) hmn contDiffAt_fst))
        exact ContDiffAt.comp (g := fun p : E × ℝ × ℝ => P p.1 p.2.1 k p.2.2) (θ, x) (hP k hk _ _) h1
      have hlik : ContDiffAt ℝ r (fun t => likCms B stable (P t) (cm t) (pdf t) n (s t) (ys t j)) θ :=
        contDiffAt_rule B hB hpred hg false stable hmn contDiffAt_const (hpdf j)
      have hmu : ContDiffAt ℝ r (fun t => (nextCms B stable (P t) (cm t) (pdf t) n (s t) (ys t j)).2) θ := by
        refine (contDiffAt_rule B hB hpred hg false stable hmn contDiffAt_const ?_).div hlik hl0.ne'
        have := joint_pdf_pow (hpdf j) (contDiffAt_const (c := (0 : ℝ))) (contDiffAt_const (c := (1 : ℝ))) one_ne_zero 1
        simpa only [div_one] using this
      refine ⟨⟨Sm.map_range fun k hk => ?_, hmu⟩, hl0, hlik⟩
      refine (contDiffAt_rule B hB hpred hg false stable hmn contDiffAt_const ?_).div hlik hl0.ne'
      have := joint_pdf_pow (hpdf j) hmu (contDiffAt_const (c := (1 : ℝ))) one_ne_zero k
      simp only [div_one] at this
      exact this) ([], 0) (fun t => (List.ofFn (m t), mean t)) ⟨Sm.ofFn hm, hmean⟩ hok
  simp only [filterCms_eq, List.length_ofFn]
  exact ⟨key.1.neg, fun j hj => ⟨(key.2 j hj).2, fun k hk => (key.2 j hj).1.smooth k hk⟩⟩

/-- **C168, scaled moments.** The same for the filter of scaled moments, jointly with the initial mean and scale; the output
means and scales are smooth too. -/
theorem C168_scms_smooth (hB : B.Valid) (stable : Bool) (P : E → ℝ → ℕ → ℝ → ℝ → ℝ)
    (hP : ∀ k < n, ∀ x c d, 0 < d → ContDiffAt ℝ r (fun p : E × ℝ × ℝ × ℝ => P p.1 p.2.1 k p.2.2.1 p.2.2.2) (θ, x, c, d)) (cm cv : E → ℝ → ℝ)
    (hcm : Joint r θ cm) (hcv : Joint r θ cv) (pdf : E → Y → ℝ → ℝ) (m : E → Fin n → ℝ) (hm : ContDiffAt ℝ r m θ) (mean scale : E → ℝ)
    (hmean : ContDiffAt ℝ r mean θ) (hscale : ContDiffAt ℝ r scale θ) {T : ℕ} (ys : E → Fin T → Y) (hpdf : ∀ j, Joint r θ fun t => pdf t (ys t j))
    (hok : RunOK (OkScms B stable (P θ) (cm θ) (cv θ) (pdf θ) n) (nextScms B stable (P θ) (cm θ) (cv θ) (pdf θ) n)
      (List.ofFn (m θ), mean θ, scale θ) (List.ofFn (ys θ))) :
    ContDiffAt ℝ r (fun t => (filterScms B (P t) (cm t) (cv t) (pdf t) (List.ofFn (m t)) (mean t) (scale t) (List.ofFn (ys t)) stable).2) θ ∧
    ∀ j < T, ContDiffAt ℝ r
        (fun t => ((filterScms B (P t) (cm t) (cv t) (pdf t) (List.ofFn (m t)) (mean t) (scale t) (List.ofFn (ys t)) stable).1.getD j ([], 0, 0)).2) θ ∧
      ∀ k < n, ContDiffAt ℝ r
        (fun t => ((filterScms B (P t) (cm t) (cv t) (pdf t) (List.ofFn (m t)) (mean t) (scale t) (List.ofFn (ys t)) stable).1.getD j ([], 0, 0)).1.getD k 0) θ := by
  have key := traj_smooth (r := r) (θ := θ) (fun s : E → List ℝ × ℝ × ℝ => Sm r θ n (fun t => (s t).1) ∧ ContDiffAt ℝ r (fun t => (s t).2) θ)
    (OkScms B stable (P θ) (cm θ) (cv θ) (pdf θ) n) (g := fun t => nextScms B stable (P t) (cm t) (cv t) (pdf t) n)
    (lik := fun t => likScms B stable (P t) (cm t) (cv t) (pdf t) n) T ys (by
      rintro j s ⟨hs, hcd⟩ ⟨h0, hg, hl0, hsp, hsn⟩
      have hc : ContDiffAt ℝ r (fun t => (s t).2.1) θ := contDiffAt_fst.comp θ hcd
      have hd : ContDiffAt ℝ r (fun t => (s t).2.2) θ := contDiffAt_snd.comp θ hcd
      have hmn : ContDiffAt ℝ r (fun t => (predScms B stable (P t) (cm t) (cv t) n (s t)).2.1) θ := contDiffAt_rule B hB hs h0 false stable hc hd hcm
      have hsc : ContDiffAt ℝ r (fun t => (predScms B stable (P t) (cm t) (cv t) n (s t)).2.2) θ :=
        (contDiffAt_rule B hB hs h0 false stable hc hd hcv).sqrt (Real.sqrt_pos.1 hsp).ne'
      have hpred : Sm r θ n fun t => (predScms B stable (P t) (cm t) (cv t) n (s t)).1 := by
        refine Sm.map_range fun k hk => contDiffAt_rule B hB hs h0 false stable hc hd fun x => ?_
        have h1 : ContDiffAt ℝ r (fun p : E × ℝ => (p.1, p.2, (predScms B stable (P p.1) (cm p.1) (cv p.1) n (s p.1)).2.1,
            (predScms B stable (P p.1) (cm p.1) (cv p.1) n (s p.1)).2.2)) (θ, x) :=
          contDiffAt_fst.prodMk (contDiffAt_snd.prodMk
            ((ContDiffAt.comp (g := fun t => (predScms B stable (P t) (cm t) (cv t) n (s t)).2.1) (θ, x) hmn contDiffAt_fst).prodMk
              (ContDiffAt.comp (g := fun t => (predScms B stable (P t) (cm t) (cv t) n (s t)).2.2) (θ, x) hsc contDiffAt_fst)))
        exact ContDiffAt.comp (g := fun p : E × ℝ × ℝ × ℝ => P p.1 p.2.1 k p.2.2.1 p.2.2.2) (θ, x) (hP k hk _ _ _ hsp) h1
      have hlik : ContDiffAt ℝ r (fun t => likScms B stable (P t) (cm t) (cv t) (pdf t) n (s t) (ys t j)) θ :=
        contDiffAt_rule B hB hpred hg false stable hmn hsc (hpdf j)
      have hmu : ContDiffAt ℝ r (fun t => (nextScms B stable (P t) (cm t) (cv t) (pdf t) n (s t) (ys t j)).2.1) θ :=
        (contDiffAt_rule B hB hpred hg false stable hmn hsc
          (joint_pdf_pow (hpdf j) (contDiffAt_const (c := (0 : ℝ))) (contDiffAt_const (c := (1 : ℝ))) one_ne_zero 1)).div hlik hl0.ne'
      have hsu : ContDiffAt ℝ r (fun t => (nextScms B stable (P t) (cm t) (cv t) (pdf t) n (s t) (ys t j)).2.2) θ :=
        ((contDiffAt_rule B hB hpred hg false stable hmn hsc (joint_pdf_pow (hpdf j) hmu (contDiffAt_const (c := (1 : ℝ))) one_ne_zero 2)).div
          hlik hl0.ne').sqrt (Real.sqrt_pos.1 hsn).ne'
      refine ⟨⟨Sm.map_range fun k hk => ?_, hmu.prodMk hsu⟩, hl0, hlik⟩
      exact (contDiffAt_rule B hB hpred hg false stable hmn hsc (joint_pdf_pow (hpdf j) hmu hsu hsn.ne' k)).div hlik hl0.ne') ([], 0, 0)
    (fun t => (List.ofFn (m t), mean t, scale t)) ⟨Sm.ofFn hm, hmean.prodMk hscale⟩ hok
  simp only [filterScms_eq, List.length_ofFn]
  exact ⟨key.1.neg, fun j hj => ⟨(key.2 j hj).2, fun k hk => (key.2 j hj).1.smooth k hk⟩⟩

theorem runOK_of_inv {S Y : Type} {ok : S → Y → Prop} {g : S → Y → S} (Inv : S → Prop) (h : ∀ s y, Inv s → ok s y ∧ Inv (g s y)) (ys : List Y) (s : S)
    (hs : Inv s) : RunOK ok g s ys := by
  induction ys generalizing s with
  | nil => trivial
  | cons y ys ih => exact ⟨(h s y hs).1, ih _ (h s y hs).2⟩

/-- **C168, validity.** Where the conditional moments are those of laws positive on squares and the density is positive, the run
from any valid initial moments is valid for all measurements, in all three representations. -/
theorem C168_runs_valid (hB : B.Valid) (stable : Bool) (pdf : Y → ℝ → ℝ) (hpos : ∀ y x, 0 < pdf y x) (hn : 2 ≤ n) (L : ℝ → ℝ[X] →ₗ[ℝ] ℝ)
    (hL : ∀ x q, q ≠ 0 → q.natDegree < n / 2 → 0 < L x (q ^ 2)) (m : Fin n → ℝ) (hm : (gramOf (List.ofFn m)).PosDef) (ys : List Y) :
    (∀ P : ℝ → ℕ → ℝ, (∀ x, ∀ k < n, P x k = L x (X ^ k)) →
      RunOK (OkRms B stable P pdf n) (nextRms B stable P pdf n) (List.ofFn m) ys) ∧
    (∀ (P : ℝ → ℕ → ℝ → ℝ) (cm : ℝ → ℝ), (∀ x c, ∀ k < n, P x k c = L x ((X - C c) ^ k)) → ∀ mean,
      RunOK (OkCms B stable P cm pdf n) (nextCms B stable P cm pdf n) (List.ofFn m, mean) ys) ∧
    (4 ≤ n → ∀ (P : ℝ → ℕ → ℝ → ℝ → ℝ) (cm cv : ℝ → ℝ), (∀ x, 0 < cv x) → (∀ x c s, ∀ k < n, P x k c s = L x ((C s⁻¹ * (X - C c)) ^ k)) → ∀ mean scale,
      RunOK (OkScms B stable P cm cv pdf n) (nextScms B stable P cm cv pdf n) (List.ofFn m, mean, scale) ys) := by
  refine ⟨fun P hP => ?_, fun P cm hP mean => ?_, fun hn4 P cm cv hcv hP mean scale => ?_⟩
  · refine runOK_of_inv (fun s => s.length = n ∧ (gramOf s).PosDef) (fun s y hs => ?_) ys _ ⟨List.length_ofFn, hm⟩
    have hg := ((C126_never_breaks B hB stable pdf hpos L n hn hL []).1 P hP s hs.1).1
    obtain ⟨hl0, hnx⟩ := next_posDef hB hn hg y (hpos y)
    exact ⟨⟨hs.2, hg, hl0⟩, by simp [nextRms], hnx⟩
  · refine runOK_of_inv (fun s => s.1.length = n ∧ (gramOf s.1).PosDef) (fun s y hs => ?_) ys _ ⟨List.length_ofFn, hm⟩
    obtain ⟨s, c⟩ := s
    obtain ⟨hg, hx⟩ := (C126_never_breaks B hB stable pdf hpos L n hn hL [y]).2.1 P cm hP s c hs.1
    dsimp only at hs
    rw [filterCms_eq, hs.1] at hx
    have hnx := (hx (nextCms B stable P cm pdf n (s, c) y) (by simp [traj])).1
    refine ⟨⟨hs.2, hg, ?_⟩, by simp [nextCms], hnx⟩
    rw [likCms]
    exact integ_pos_of_pos B hB _ (by simpa [predCms] using hn) _ _ _ _ _ (hpos y)
  · refine runOK_of_inv (fun s => s.1.length = n ∧ (gramOf s.1).PosDef) (fun s y hs => ?_) ys _ ⟨List.length_ofFn, hm⟩
    obtain ⟨s, c, d⟩ := s
    obtain ⟨hg, hx⟩ := (C126_never_breaks B hB stable pdf hpos L n hn hL [y]).2.2 hn4 P cm cv hcv hP s c d hs.1
    dsimp only at hs
    rw [filterScms_eq, hs.1] at hx
    obtain ⟨hnx, hsn, -⟩ := hx (nextScms B stable P cm cv pdf n (s, c, d) y) (by simp [traj])
    refine ⟨⟨hs.2, hg, ?_, ?_, hsn⟩, by simp [nextScms], hnx⟩
    · rw [likScms]
      exact integ_pos_of_pos B hB _ (by simp [predScms]; omega) _ _ _ _ _ (hpos y)
    · exact Real.sqrt_pos.2 (integ_pos_of_pos B hB _ (by rw [hs.1]; omega) _ _ _ _ _ hcv)

open Mfs.Moments1

/-- the expansion of affine powers under a normal law. -/
theorem gaussL_sub_pow (mu v c : ℝ) (hv : 0 ≤ v) (k : ℕ) :
    gaussL mu v.toNNReal ((X - C c) ^ k) = ∑ j ∈ Finset.range (k + 1), √v ^ j * (mu - c) ^ (k - j) * (k.choose j : ℝ) * gaussL 0 1 (X ^ j) := by
  have h1 := gaussL_affine 0 1 mu (√v) ((X - C c) ^ k)
  have h2 : (.mk (√v ^ 2) (sq_nonneg _) * 1 : NNReal) = v.toNNReal := by
    ext
    rw [Real.coe_toNNReal _ hv, mul_one]
    exact Real.sq_sqrt hv
  rw [h2, mul_zero, zero_add] at h1
  rw [h1, pow_comp, sub_comp, X_comp, C_comp, show C √v * X + C mu - C c = C √v * X + C (mu - c) by rw [C_sub]; ring, add_pow, map_sum]
  refine Finset.sum_congr rfl fun j _ => ?_
  have : (C √v * X) ^ j * C (mu - c) ^ (k - j) * ((k.choose j : ℕ) : ℝ[X]) = (√v ^ j * (mu - c) ^ (k - j) * (k.choose j : ℝ)) • X ^ j := by
    rw [smul_eq_C_mul, mul_pow, ← C_pow, ← C_pow, C_mul, C_mul, ← C_eq_natCast]
    ring_nf
  rw [this, map_smul, smul_eq_mul]

/-- **C168, Euler–Maruyama.** Let drift and dispersion be of class `C^r` in parameter and state, the dispersion non-vanishing,
the density positive and of class `C^r` in parameter and state at each measurement. With the moments of
`sde_cond_moments_euler`, the negative log-likelihoods of the filters of raw and of central moments are of class `C^r` in the
parameter. -/
theorem C168_euler (hB : B.Valid) (stable : Bool) (pdf : E → Y → ℝ → ℝ) (hpos : ∀ y x, 0 < pdf θ y x) (hn : 2 ≤ n) (drift dispersion : E → ℝ → ℝ)
    (hdr : Joint r θ drift) (hdi : Joint r θ dispersion) (hdi0 : ∀ x, dispersion θ x ≠ 0) (dt : ℝ) (hdt : 0 < dt) (N : ℕ) (hN : n ≤ 2 * N)
    (m : E → Fin n → ℝ) (hm : ContDiffAt ℝ r m θ) (hpd : (gramOf (List.ofFn (m θ))).PosDef) (mean : E → ℝ) (hmean : ContDiffAt ℝ r mean θ) {T : ℕ}
    (ys : E → Fin T → Y) (hpdf : ∀ j, Joint r θ fun t => pdf t (ys t j)) :
    ContDiffAt ℝ r (fun t => (filterRms B (sdeCondMomentsEuler (drift t) (dispersion t) dt N).raw (pdf t) (List.ofFn (m t)) (List.ofFn (ys t)) stable).2) θ ∧
    ContDiffAt ℝ r (fun t => (filterCms B (sdeCondMomentsEuler (drift t) (dispersion t) dt N).central (sdeCondMomentsEuler (drift t) (dispersion t) dt N).mean
      (pdf t) (List.ofFn (m t)) (mean t) (List.ofFn (ys t)) stable).2) θ := by
  have hE := fun x q (hq : q ≠ 0) (_ : q.natDegree < n / 2) => euler_pos (drift θ) (dispersion θ) dt hdt hdi0 x q hq
  have hval := C168_runs_valid hB stable (pdf θ) hpos hn _ hE (m θ) hpd (List.ofFn (ys θ))
  have hmu : Joint r θ fun t x => x + drift t x * dt := fun x => contDiffAt_snd.add ((hdr x).mul contDiffAt_const)
  have hsd : Joint r θ fun t x => √(dispersion t x ^ 2 * dt) := fun x =>
    (((hdi x).pow 2).mul contDiffAt_const).sqrt (mul_pos (pow_pos (lt_of_le_of_ne (abs_nonneg _) (abs_pos.2 (hdi0 x)).ne) 2 |>.trans_eq (sq_abs _)) hdt).ne'
  have hcen : ∀ k, ∀ x c, ContDiffAt ℝ r (fun p : E × ℝ × ℝ => gaussL (p.2.1 + drift p.1 p.2.1 * dt) (dispersion p.1 p.2.1 ^ 2 * dt).toNNReal ((X - C p.2.2) ^ k))
      (θ, x, c) := by
    intro k x c
    have e : (fun p : E × ℝ × ℝ => gaussL (p.2.1 + drift p.1 p.2.1 * dt) (dispersion p.1 p.2.1 ^ 2 * dt).toNNReal ((X - C p.2.2) ^ k)) = fun p : E × ℝ × ℝ =>
        ∑ j ∈ Finset.range (k + 1), √(dispersion p.1 p.2.1 ^ 2 * dt) ^ j * (p.2.1 + drift p.1 p.2.1 * dt - p.2.2) ^ (k - j) * (k.choose j : ℝ) * gaussL 0 1 (X ^ j) :=
      funext fun p => gaussL_sub_pow _ _ _ (by positivity) k
    rw [e]
    have hq : ContDiffAt ℝ r (fun p : E × ℝ × ℝ => (p.1, p.2.1)) (θ, x, c) := contDiffAt_fst.prodMk (contDiffAt_fst.comp _ contDiffAt_snd)
    have h1 : ContDiffAt ℝ r (fun p : E × ℝ × ℝ => √(dispersion p.1 p.2.1 ^ 2 * dt)) (θ, x, c) :=
      ContDiffAt.comp (g := fun p : E × ℝ => √(dispersion p.1 p.2 ^ 2 * dt)) (θ, x, c) (hsd x) hq
    have h2 : ContDiffAt ℝ r (fun p : E × ℝ × ℝ => p.2.1 + drift p.1 p.2.1 * dt) (θ, x, c) :=
      ContDiffAt.comp (g := fun p : E × ℝ => p.2 + drift p.1 p.2 * dt) (θ, x, c) (hmu x) hq
    have h3 : ContDiffAt ℝ r (fun p : E × ℝ × ℝ => p.2.2) (θ, x, c) := contDiffAt_snd.comp _ contDiffAt_snd
    exact ContDiffAt.sum fun j _ => (((h1.pow j).mul ((h2.sub h3).pow _)).mul contDiffAt_const).mul contDiffAt_const
  constructor
  · refine (C168_rms_smooth hB stable (fun t => (sdeCondMomentsEuler (drift t) (dispersion t) dt N).raw) (fun k hk x => ?_) pdf m hm ys hpdf
      (hval.1 _ fun x k hk => (euler_functional (drift θ) (dispersion θ) dt hdt.le N x k (by omega)).1)).1
    have e : (fun p : E × ℝ => (sdeCondMomentsEuler (drift p.1) (dispersion p.1) dt N).raw p.2 k)
        = fun p : E × ℝ => gaussL (p.2 + drift p.1 p.2 * dt) (dispersion p.1 p.2 ^ 2 * dt).toNNReal ((X - C 0) ^ k) := funext fun p => by
      rw [C_0, sub_zero]
      exact (euler_functional (drift p.1) (dispersion p.1) dt hdt.le N p.2 k (by omega)).1
    rw [e]
    have hq : ContDiffAt ℝ r (fun p : E × ℝ => (p.1, p.2, (0 : ℝ))) (θ, x) := contDiffAt_fst.prodMk (contDiffAt_snd.prodMk contDiffAt_const)
    exact ContDiffAt.comp (g := fun p : E × ℝ × ℝ => gaussL (p.2.1 + drift p.1 p.2.1 * dt) (dispersion p.1 p.2.1 ^ 2 * dt).toNNReal ((X - C p.2.2) ^ k))
      (θ, x) (hcen k x 0) hq
  · refine (C168_cms_smooth hB stable (fun t => (sdeCondMomentsEuler (drift t) (dispersion t) dt N).central) (fun k hk x c => ?_)
      (fun t => (sdeCondMomentsEuler (drift t) (dispersion t) dt N).mean) hmu pdf m hm mean hmean ys hpdf
      (hval.2.1 _ _ (fun x c k hk => (euler_functional (drift θ) (dispersion θ) dt hdt.le N x k (by omega)).2 c) _)).1
    have e : (fun p : E × ℝ × ℝ => (sdeCondMomentsEuler (drift p.1) (dispersion p.1) dt N).central p.2.1 k p.2.2)
        = fun p : E × ℝ × ℝ => gaussL (p.2.1 + drift p.1 p.2.1 * dt) (dispersion p.1 p.2.1 ^ 2 * dt).toNNReal ((X - C p.2.2) ^ k) := funext fun p =>
      (euler_functional (drift p.1) (dispersion p.1) dt hdt.le N p.2.1 k (by omega)).2 p.2.2
    rw [e]
    exact hcen k x c

/-- the hypotheses at a linear drift and a constant dispersion with unknown coefficients, a normal measurement with unknown gain
and a valid moment vector. -/
example : (Joint (E := ℝ × ℝ × ℝ) ω (1, 2, 3) fun t x => -t.1 * x) ∧ (Joint (E := ℝ × ℝ × ℝ) ω (1, 2, 3) fun t _ => t.2.1) ∧
    (∀ x : ℝ, (fun (t : ℝ × ℝ × ℝ) (_ : ℝ) => t.2.1) (1, 2, 3) x ≠ 0) ∧
    (∀ y : ℝ, Joint (E := ℝ × ℝ × ℝ) ω (1, 2, 3) fun t x => Real.exp (-(y - t.2.2 * x) ^ 2 / 2)) ∧ (∀ (t : ℝ × ℝ × ℝ) (y x : ℝ), 0 < Real.exp (-(y - t.2.2 * x) ^ 2 / 2)) :=
  ⟨fun x => by fun_prop, fun x => by fun_prop, by simp, fun y x => by fun_prop, fun _ _ _ => Real.exp_pos _⟩

end Mfs.Props

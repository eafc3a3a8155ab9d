import Verif.Model.Utils
import Verif.Lemmas.Filter1
import Verif.Lemmas.Tri

/-!
# Properties C60 – C62: SDE simulation, lists of functions, factorials
-/

namespace Mfs.Props

open Mfs.Utils Matrix Mfs.Spec

/-! ## C62 -/

theorem factorial_nat (n : ℕ) : factorial n = (n.factorial : ℝ) := by
  have h : (0 : ℝ) < n.factorial := by exact_mod_cast n.factorial_pos
  rw [factorial, gamma, Real.Gamma_nat_eq_factorial, abs_of_pos h, Real.exp_log h]

/-- **C62.** `factorial` and `binom`, computed through `lgamma`, are the factorial and the binomial coefficient. -/
theorem C62_binom : (∀ n : ℕ, factorial n = (n.factorial : ℝ)) ∧ (∀ n k : ℕ, k ≤ n → binom n k = (n.choose k : ℝ)) := by
  refine ⟨factorial_nat, fun n k h => ?_⟩
  rw [binom, factorial_nat, factorial_nat, ← Nat.cast_sub h, factorial_nat, Nat.cast_choose ℝ h]

example : binom (6 : ℕ) (2 : ℕ) = 15 := by rw [C62_binom.2 6 2 (by norm_num)]; norm_num [Nat.choose]

/-! ## C61 -/

/-- **C61.** `vmap_list_of_funcs(fs)(x)` lists the values `f(x)`, one per function and in order. -/
theorem C61_vmap_list {X Y : Type} (fs : List (X → Y)) (x : X) : vmapListOfFuncs fs x = fs.map fun f => some (f x) := by
  apply List.ext_getElem
  · simp [vmapListOfFuncs]
  · intro i h1 h2
    have hi : i < fs.length := by simpa [vmapListOfFuncs] using h1
    simp [vmapListOfFuncs, laxSwitch, min_eq_left (show i ≤ fs.length - 1 by omega), List.getElem?_eq_getElem hi]

example : vmapListOfFuncs [fun x : ℕ => x + 1, fun x => 2 * x, fun x => x * x] 3 = [some 4, some 6, some 9] := rfl

/-! ## C60 -/

variable {d : ℕ}

theorem scan_self {S Y : Type} (g : S → Y → S) (s : S) (ys : List Y) : (scan (fun x y => (g x y, g x y)) s ys).2 = traj g s ys := by
  induction ys generalizing s with
  | nil => rfl
  | cons y ys ih => simp only [scan, traj, ih]

theorem scan_unit {S Y : Type} (g : S → Y → S) (s : S) (ys : List Y) : (scan (fun x y => (g x y, ())) s ys).1 = ys.foldl g s := by
  induction ys generalizing s with
  | nil => rfl
  | cons y ys ih => simp only [scan, List.foldl_cons, ih]

theorem simulateSde_eq (B : Backend) (mAndCov : (Fin d → ℝ) → ℝ → (Fin d → ℝ) × Matrix (Fin d) (Fin d) ℝ)
    (x0 : Fin d → ℝ) (dt : ℝ) (incs : List (List (Fin d → ℝ))) (diag : Bool) (steps : ℕ) :
    simulateSde B mAndCov x0 dt incs diag steps
      = traj (fun x inc => inc.foldl (integrationBody B mAndCov (dt / steps) diag) x) x0 incs := by
  rw [simulateSde]
  simp only [scan_unit]
  exact scan_self _ _ _

theorem getElem?_traj {S Y : Type} (g : S → Y → S) (s : S) (ys : List Y) (k : ℕ) (hk : k < ys.length) :
    (traj g s ys)[k]? = some ((ys.take (k + 1)).foldl g s) := by
  induction ys generalizing s k with
  | nil => simp at hk
  | cons y ys ih =>
    cases k with
    | zero => simp [traj]
    | succ k =>
      simp only [traj, List.getElem?_cons_succ, List.take_succ_cons, List.foldl_cons]
      exact ih _ _ (by simpa using hk)

theorem foldl_flatten {S Y : Type} (g : S → Y → S) (s : S) (l : List (List Y)) :
    l.foldl (fun x inc => inc.foldl g x) s = l.flatten.foldl g s := by
  induction l generalizing s with
  | nil => rfl
  | cons a l ih => simp [List.foldl_append, ih]

theorem take_flatten {Y : Type} (n : ℕ) (l : List (List Y)) (h : ∀ a ∈ l, a.length = n) (k : ℕ) :
    l.flatten.take (n * k) = (l.take k).flatten := by
  induction l generalizing k with
  | nil => simp
  | cons a l ih =>
    cases k with
    | zero => simp
    | succ k =>
      have ha := h a (by simp)
      rw [List.flatten_cons, List.take_append, ha, List.take_of_length_le (by rw [ha]; nlinarith), Nat.mul_succ, Nat.add_sub_cancel,
        ih (fun b hb => h b (by simp [hb])), List.take_succ_cons, List.flatten_cons]

theorem chol_diagonal (B : Backend) (hB : B.Valid) (c : Fin d → ℝ) (hc : ∀ i, 0 < c i) :
    B.chol (symmetrize (diagonal c)) = (diagonal c).map Real.sqrt := by
  have hsym : symmetrize (diagonal c) = diagonal c := by
    rw [symmetrize, diagonal_transpose, ← two_smul ℝ, smul_smul]; norm_num
  have hmap : (diagonal c).map Real.sqrt = diagonal fun i => Real.sqrt (c i) := by
    rw [diagonal_map Real.sqrt_zero]
  rw [hsym, hmap]
  refine IsChol.unique (hB.chol _ (PosDef.diagonal hc)) ⟨?_, ?_, ?_⟩
  · intro i j hij
    exact diagonal_apply_ne _ hij.ne
  · intro i; rw [diagonal_apply_eq]; exact Real.sqrt_pos.2 (hc i)
  · rw [diagonal_transpose, diagonal_mul_diagonal]
    congr 1
    ext i
    exact Real.mul_self_sqrt (hc i).le

/-- **C60.** `simulate_sde`, for every conditional mean and covariance function, initial value, table of increments and number
of integration steps:
* it returns one state per row of increments;
* the first `k` states only depend on the first `k` rows;
* simulating on `incs₁` and continuing from the last state on `incs₂` is simulating on `incs₁ ++ incs₂`;
* with `diagonal_cov` and zero covariance it iterates the mean map (`integration_steps` times per state);
* for diagonal covariances with positive entries, `diagonal_cov` does not change the result;
* with `steps` integration steps it returns every `steps`-th state of a simulation with time step `dt / steps`. -/
theorem C60_simulate_sde (B : Backend) (hB : B.Valid)
    (mAndCov : (Fin d → ℝ) → ℝ → (Fin d → ℝ) × Matrix (Fin d) (Fin d) ℝ) (x0 : Fin d → ℝ) (dt : ℝ) (diag : Bool) (steps : ℕ) :
    (∀ incs, (simulateSde B mAndCov x0 dt incs diag steps).length = incs.length) ∧
    (∀ incs k, simulateSde B mAndCov x0 dt (incs.take k) diag steps = (simulateSde B mAndCov x0 dt incs diag steps).take k) ∧
    (∀ incs₁ incs₂, simulateSde B mAndCov x0 dt (incs₁ ++ incs₂) diag steps = simulateSde B mAndCov x0 dt incs₁ diag steps ++
      simulateSde B mAndCov ((simulateSde B mAndCov x0 dt incs₁ diag steps).getLastD x0) dt incs₂ diag steps) ∧
    (∀ incs, (∀ x h, (mAndCov x h).2 = 0) → (∀ a ∈ incs, a.length = steps) → ∀ k < incs.length,
      (simulateSde B mAndCov x0 dt incs true steps)[k]? = some ((fun x => (mAndCov x (dt / steps)).1)^[steps * (k + 1)] x0)) ∧
    (∀ incs, (∀ x h, ∃ c : Fin d → ℝ, (∀ i, 0 < c i) ∧ (mAndCov x h).2 = diagonal c) →
      simulateSde B mAndCov x0 dt incs true steps = simulateSde B mAndCov x0 dt incs false steps) ∧
    (∀ incs, 1 ≤ steps → (∀ a ∈ incs, a.length = steps) → ∀ k < incs.length,
      (simulateSde B mAndCov x0 dt incs diag steps)[k]?
        = (simulateSde B mAndCov x0 (dt / steps) (incs.flatten.map fun a => [a]) diag 1)[steps * (k + 1) - 1]?) := by
  refine ⟨fun incs => ?_, fun incs k => ?_, fun incs₁ incs₂ => ?_, fun incs h0 hlen k hk => ?_, fun incs hc => ?_,
    fun incs h1 hlen k hk => ?_⟩
  · rw [simulateSde_eq, length_traj]
  · rw [simulateSde_eq, simulateSde_eq, traj_take]
  · simp only [simulateSde_eq]
    rw [traj_append, lastState_eq]
  · rw [simulateSde_eq, getElem?_traj _ _ _ _ hk, foldl_flatten]
    congr 1
    have hfl : (incs.take (k + 1)).flatten.length = steps * (k + 1) := by
      rw [List.length_flatten, List.map_congr_left (g := fun _ => steps) (fun a ha => hlen a (List.mem_of_mem_take ha)), List.map_const',
        List.sum_replicate, List.length_take, min_eq_left (by omega), smul_eq_mul, mul_comm]
    rw [← hfl]
    generalize (incs.take (k + 1)).flatten = l
    have hg : ∀ x inc, integrationBody B mAndCov (dt / steps) true x inc = (mAndCov x (dt / steps)).1 := by
      intro x inc
      rw [integrationBody]
      simp only [if_true, h0]
      have : (0 : Matrix (Fin d) (Fin d) ℝ).map Real.sqrt = 0 := by ext i j; simp
      rw [this, zero_mulVec, add_zero]
    clear hfl
    induction l generalizing x0 with
    | nil => rfl
    | cons a l ih => rw [List.foldl_cons, hg, ih, List.length_cons, Function.iterate_succ_apply]
  · rw [simulateSde_eq, simulateSde_eq]
    congr 1
    ext1 x
    ext1 inc
    congr 1
    ext1 x
    ext1 inc
    rw [integrationBody, integrationBody]
    obtain ⟨c, hc0, hc1⟩ := hc x (dt / steps)
    simp only [if_true, Bool.false_eq_true, if_false, hc1, chol_diagonal B hB c hc0]
  · have hfl : incs.flatten.length = steps * incs.length := by
      rw [List.length_flatten, List.map_congr_left (g := fun _ => steps) (fun a ha => hlen a ha), List.map_const',
        List.sum_replicate, smul_eq_mul, mul_comm]
    have hpos : 1 ≤ steps * (k + 1) := Nat.mul_pos h1 (by omega)
    have hle : steps * (k + 1) ≤ steps * incs.length := Nat.mul_le_mul_left _ hk
    rw [simulateSde_eq, simulateSde_eq, getElem?_traj _ _ _ _ hk, getElem?_traj _ _ _ _ (by rw [List.length_map, hfl]; omega),
      foldl_flatten, foldl_flatten, Nat.sub_add_cancel hpos, ← List.map_take, take_flatten _ _ hlen]
    congr 2
    · simp
    · induction (incs.take (k + 1)).flatten with
      | nil => rfl
      | cons a l ih => rw [List.map_cons, List.flatten_cons, ← ih, List.singleton_append]

/-- the hypotheses on the covariance can be met: `X_{k+1} = X_k + N(0, h)`. -/
example : ∀ (x : Fin 2 → ℝ) (h : ℝ), ∃ c : Fin 2 → ℝ, (∀ i, 0 < c i) ∧
    ((fun (x : Fin 2 → ℝ) (h : ℝ) => (x, diagonal fun _ : Fin 2 => 1 + h ^ 2)) x h).2 = diagonal c :=
  fun _ h => ⟨fun _ => 1 + h ^ 2, fun _ => by positivity, rfl⟩

end Mfs.Props

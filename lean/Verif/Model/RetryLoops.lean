import Verif.Model.Prng

/-!
# The Monte Carlo loops that repeat a simulation until it is usable

`/repo/dardel/prey_predator/{mf,pf,ghf_ekf}.py` and `/repo/dardel/time_profile/mf.py`. An entry `none` of an array is a NaN. A value `none` of a loop means that
it does not end. The simulators and the filters are arguments; so are the keys in `rng_keys.npy`.
-/

namespace Mfs.Retry

open Mfs.Prng

variable {K D : Type}

/-- `np.any(np.isnan(xs))` for an array of shape `(T, 2)`. -/
def hasNan (xs : List (Fin 2 → Option ℝ)) : Prop := ∃ x ∈ xs, ∃ i, x i = none

/-- `np.abs(xs - means)`. -/
def absDiff (xs means : List (Fin 2 → Option ℝ)) : List (Fin 2 → Option ℝ) :=
  List.zipWith (fun x m i => (x i).bind fun a => (m i).map fun b => |a - b|) xs means

open _root_.Classical in
/-- `_, xs, ys = simulate(key)` and the loop `while np.any(np.isnan(xs))`, `/repo/dardel/prey_predator/mf.py:74-79`, `pf.py:63-68`, `ghf_ekf.py:70-75`: the last
key and its data; `bad` is the condition of the loop. -/
noncomputable def simulateUntil (G : Gen K) (simulate : K → D) (bad : D → Prop) (key : K) : Option (K × D) :=
  if bad (simulate key) then simulateUntil G simulate bad (G.fst key) else some (key, simulate key)
partial_fixpoint

/-- the states and the measurements of a simulation. -/
abbrev Data := List (Fin 2 → Option ℝ) × List Bool

/-- the errors saved in run `k` of `/repo/dardel/prey_predator/mf.py:68-92`; `momentFilter` returns the means. -/
noncomputable def preyMfRun (G : Gen K) (simulate : K → Data) (momentFilter : List Bool → List (Fin 2 → Option ℝ))
    (rngKeys : List K) (k : ℕ) : Option (List (Fin 2 → Option ℝ)) :=
  rngKeys[k]?.bind fun key => (simulateUntil G simulate (fun d => hasNan d.1) key).map fun r => absDiff r.2.1 (momentFilter r.2.2)

/-- the errors saved in run `k` of `/repo/dardel/prey_predator/pf.py:57-77`; `bf` returns the means of the particles. -/
noncomputable def preyPfRun (G : Gen K) (simulate : K → Data) (bf : List Bool → K → List (Fin 2 → Option ℝ))
    (rngKeys : List K) (k : ℕ) : Option (List (Fin 2 → Option ℝ)) :=
  rngKeys[k]?.bind fun key => (simulateUntil G simulate (fun d => hasNan d.1) key).map fun r => absDiff r.2.1 (bf r.2.2 (G.fst r.1))

/-- the two arrays of errors saved in run `k` of `/repo/dardel/prey_predator/ghf_ekf.py:64-86`. -/
noncomputable def preyGaussRun (G : Gen K) (simulate : K → Data) (ghf ekf : List Bool → List (Fin 2 → Option ℝ))
    (rngKeys : List K) (k : ℕ) : Option (List (Fin 2 → Option ℝ) × List (Fin 2 → Option ℝ)) :=
  rngKeys[k]?.bind fun key => (simulateUntil G simulate (fun d => hasNan d.1) key).map fun r =>
    (absDiff r.2.1 (ghf r.2.2), absDiff r.2.1 (ekf r.2.2))

open _root_.Classical in
/-- the loop `while True`, `/repo/dardel/time_profile/mf.py:94-104`: the last value of `key_nan` and the last `elapse`. `bad ys` says that the result of the filter
for `ys` contains a NaN, `cost ys` is the time it takes. -/
noncomputable def timedLoop (G : Gen K) (simulator : K → D) (bad : D → Prop) (cost : D → ℝ) (keyNan : K) (ys : D) : Option (K × ℝ) :=
  if bad ys then timedLoop G simulator bad cost (G.fst keyNan) (simulator (G.fst keyNan)) else some (keyNan, cost ys)
partial_fixpoint

/-- `elapsed_times`, `/repo/dardel/time_profile/mf.py:78-108`: the runs `k = 0, …, maxmc - 1`; the run `k = -1` compiles the filter and has no effect on the result. -/
noncomputable def elapsedTimes (G : Gen K) (simulator : K → D) (bad : D → Prop) (cost : D → ℝ) (rngKeys : List K) (maxmc : ℕ) : Option (List ℝ) :=
  rngKeys.getLast?.bind fun keyNan =>
    ((List.range maxmc).foldlM (fun (s : K × List ℝ) k =>
      rngKeys[k]?.bind fun key => (timedLoop G simulator bad cost s.1 (simulator key)).map fun r => (r.1, s.2 ++ [r.2])) (keyNan, [])).map (·.2)

/-- `elapsed_times` of `/repo/dardel/time_profile/ghf.py:50-77` and `pf.py:46-73`: run `k` filters the data of key `k`. -/
def elapsedTimesPlain (simulator : K → D) (cost : D → ℝ) (rngKeys : List K) (maxmc : ℕ) : Option (List ℝ) :=
  (List.range maxmc).mapM fun k => rngKeys[k]?.map fun key => cost (simulator key)

end Mfs.Retry

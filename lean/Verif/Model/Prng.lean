import Verif.Model.Smc
import Verif.Model.GaussianSum
import Verif.Model.Resampling
import Verif.Model.Utils
import Verif.Model.SsModels
import Mathlib.Data.Fin.VecNotation

/-!
# Model of the handling of random keys

A generator is a deterministic function of the key. `split key num` is `jax.random.split(key, num)`; `uniform key size i` and
`normal key size i` are the entries (in row-major order) of `jax.random.uniform(key, shape)` and `jax.random.normal(key, shape)`
for a shape with `size` entries.
-/

namespace Mfs.Prng

open Matrix

/-- a pseudo-random generator. -/
structure Gen (K : Type) where
  split : K → ℕ → List K
  uniform : K → ℕ → ℕ → ℝ
  normal : K → ℕ → ℕ → ℝ

variable {K : Type}

/-- `jax.random.split(key, num)[i]`. -/
def Gen.key (G : Gen K) (key : K) (num i : ℕ) : K := (G.split key num).getD i key

/-- `key, _ = jax.random.split(key)`. -/
def Gen.fst (G : Gen K) (key : K) : K := G.key key 2 0

/-- `jax.random.choice(key, a, (n,), p=p)`: the position of `p_cuml[-1] * (1 - u)` in the cumulated weights; `ss` is
`jnp.searchsorted`. -/
def choice (G : Gen K) (ss : List ℝ → ℝ → ℕ) (key : K) (p : List ℝ) (n i : ℕ) : ℕ :=
  ss (Resampling.cumsum p) (p.sum * (1 - G.uniform key n i))

/-- `jax.random.bernoulli(key, p, (n,))`. -/
noncomputable def bernoulli (G : Gen K) (key : K) (n : ℕ) (p : ℕ → ℝ) (i : ℕ) : Bool := decide (G.uniform key n i < p i)

/-- `GaussianSum1D.sampler`, `/repo/mfs/utils.py:55-58`, with its keys. Indices too large are clamped. -/
noncomputable def sampler1 (G : Gen K) (ss : List ℝ → ℝ → ℕ) (comps : List Moments1.Component) {n : ℕ} (key : K) : Fin n → ℝ := fun i =>
  let c := comps.getD (min (choice G ss key (comps.map (·.weight)) n i) (comps.length - 1)) ⟨0, 0, 0⟩
  c.mean + Real.sqrt c.variance * G.normal (G.fst key) n i

/-- `GaussianSumND.sampler`, `/repo/mfs/utils.py:101-105`, with its keys. -/
noncomputable def samplerND {d : ℕ} (G : Gen K) (ss : List ℝ → ℝ → ℕ) (B : Backend) (comps : List (MomentsND.Component d)) {n : ℕ} (key : K) :
    Fin n → Fin d → ℝ := fun i =>
  let c := comps.getD (min (choice G ss key (comps.map (·.weight)) n i) (comps.length - 1)) ⟨0, 0, 0⟩
  c.mean + B.chol (symmetrize c.cov) *ᵥ fun j => G.normal (G.fst key) (n * d) (i * d + j)

/-- `simulate_sde`, `/repo/mfs/utils.py:190-249`, with its key. -/
noncomputable def simulateSde (G : Gen K) (B : Backend) {d : ℕ} (mAndCov : (Fin d → ℝ) → ℝ → (Fin d → ℝ) × Matrix (Fin d) (Fin d) ℝ)
    (x0 : Fin d → ℝ) (dt : ℝ) (T : ℕ) (key : K) (diagonalCov : Bool := false) (integrationSteps : ℕ := 1) : List (Fin d → ℝ) :=
  Utils.simulateSde B mAndCov x0 dt ((List.range T).map fun t => (List.range integrationSteps).map fun s => fun j : Fin d =>
    G.normal (G.fst key) (T * integrationSteps * d) ((t * integrationSteps + s) * d + j)) diagonalCov integrationSteps

/-- `systematic(weights, key)` and `stratified(weights, key)`, `/repo/mfs/classical_filters_smoothers/resampling.py:43-59`. -/
noncomputable def systematicOrStratified (G : Gen K) (ss : List ℝ → ℝ → ℕ) (isSystematic : Bool) {n : ℕ} (weights : Fin n → ℝ) (key : K) :
    Fin n → ℕ := fun j =>
  (Resampling.systematicOrStratified ss (List.ofFn weights) fun k => if isSystematic then G.uniform key 1 0 else G.uniform key n k).getD j 0

/-- `multinomial(weights, key)`, `/repo/mfs/classical_filters_smoothers/resampling.py:62-66`. -/
noncomputable def multinomial (G : Gen K) (ss : List ℝ → ℝ → ℕ) {n : ℕ} (weights : Fin n → ℝ) (key : K) : Fin n → ℕ := fun j =>
  (Resampling.multinomial ss (List.ofFn weights) ((List.range (n + 1)).map (G.uniform key (n + 1)))).getD j 0

/-- `proposal_sampler` of the particle-filter scripts in one dimension, `/repo/dardel/benes_bernoulli/pf.py:37-39`; `m` and `v` are
the conditional mean and variance. -/
noncomputable def scriptTransition (G : Gen K) (m v : ℝ → ℝ) {n : ℕ} (x : Fin n → ℝ) (key : K) : Fin n → ℝ := fun i =>
  m (x i) + Real.sqrt (v (x i)) * G.normal key n i

/-- `proposal_sampler` of `/repo/dardel/prey_predator/pf.py:45-47`. -/
noncomputable def scriptTransitionND {d : ℕ} (G : Gen K) (B : Backend) (m : (Fin d → ℝ) → Fin d → ℝ)
    (cov : (Fin d → ℝ) → Matrix (Fin d) (Fin d) ℝ) {n : ℕ} (x : Fin n → Fin d → ℝ) (key : K) : Fin n → Fin d → ℝ := fun i =>
  m (x i) + B.chol (symmetrize (cov (x i))) *ᵥ fun j => G.normal key (n * d) (i * d + j)

/-- `bootstrap_filter`, `/repo/mfs/classical_filters_smoothers/smc.py:26-84`, with the keys of the generator. -/
noncomputable def bootstrapFilter {X Y : Type} {n : ℕ} [NeZero n] (G : Gen K) (transition : (Fin n → X) → K → Fin n → X)
    (pdf : Y → (Fin n → X) → Fin n → ℝ) (ys : List Y) (init : K → Fin n → X) (key : K)
    (resample : (Fin n → X) → (Fin n → ℝ) → K → Fin n → X) : List (Fin n → X) × ℝ :=
  Smc.bootstrapFilter transition pdf ys init key resample G.fst G.split

/-- `simulate` of `prey_predator`, `/repo/mfs/multi_dims/ss_models.py:70-93`. -/
noncomputable def preySimulate (G : Gen K) (ss : List ℝ → ℝ → ℕ) (B : Backend) (comps : List (MomentsND.Component 2))
    (alp beta delta gamma sigma dt : ℝ) (T : ℕ) (key : K) (integrationSteps : ℕ := 100) : (Fin 2 → ℝ) × List (Fin 2 → ℝ) × List Bool :=
  let keyX0 := G.key key 3 0
  let keyWs := G.key key 3 1
  let keyYs := G.key key 3 2
  let ddt := dt / integrationSteps
  let ddws := (List.range T).map fun t => (List.range integrationSteps).map fun s => fun j : Fin 2 =>
    Real.sqrt ddt * G.normal keyWs (T * integrationSteps * 2) ((t * integrationSteps + s) * 2 + j)
  let x0 := samplerND G ss B comps (n := 1) keyX0 0
  let xs := (scan (fun x dws =>
    let x' := (scan (fun x ddw => (SsModels.preyMilstein alp beta delta gamma sigma ddt x ddw, ())) x dws).1
    (x', x')) x0 ddws).2
  let ys := (List.range T).map fun t => bernoulli G keyYs T (fun t => SsModels.preyEmission ((xs.getD t 0) 0)) t
  (x0, xs, ys)

/-- the data and the particle filter of `/repo/dardel/benes_bernoulli/pf.py:52-62` from one key: the true trajectory, the measurements,
the initial particles and the filtered particles. -/
noncomputable def benesRun {n : ℕ} [NeZero n] (G : Gen K) (ss : List ℝ → ℝ → ℕ) (B : Backend) (comps : List Moments1.Component)
    (mAndCov : (Fin 1 → ℝ) → ℝ → (Fin 1 → ℝ) × Matrix (Fin 1) (Fin 1) ℝ) (m v : ℝ → ℝ) (dt : ℝ) (T : ℕ) (key : K) :
    List (Fin 1 → ℝ) × List Bool × (Fin n → ℝ) × List (Fin n → ℝ) :=
  let keyX0 := G.key key 3 0
  let keyXs := G.key key 3 1
  let keyYs := G.key key 3 2
  let x0 := sampler1 G ss comps (n := 1) keyX0 0
  let xs := simulateSde G B mAndCov (fun _ => x0) dt T keyXs false 100
  let ys := (List.range T).map fun t => bernoulli G keyYs T (fun t => SsModels.logistic ((xs.getD t 0) 0)) t
  let keyPf := G.fst keyYs
  (xs, ys, sampler1 G ss comps keyPf, (bootstrapFilter G (scriptTransition G m v)
    (fun (y : Bool) s i => SsModels.benesPmf (if y then 1 else 0) (s i)) ys (sampler1 G ss comps) keyPf
    (Smc.resampleIdx (systematicOrStratified G ss false))).1)

/-- the same for `/repo/dardel/prey_predator/pf.py:60-74`, from the key of the accepted simulation. -/
noncomputable def preyRun {n : ℕ} [NeZero n] (G : Gen K) (ss : List ℝ → ℝ → ℕ) (B : Backend) (comps : List (MomentsND.Component 2))
    (alp beta delta gamma sigma dt : ℝ) (m : (Fin 2 → ℝ) → Fin 2 → ℝ) (cov : (Fin 2 → ℝ) → Matrix (Fin 2) (Fin 2) ℝ) (T : ℕ) (key : K) :
    ((Fin 2 → ℝ) × List (Fin 2 → ℝ) × List Bool) × (Fin n → Fin 2 → ℝ) × List (Fin n → Fin 2 → ℝ) :=
  let sim := preySimulate G ss B comps alp beta delta gamma sigma dt T key
  let keyPf := G.fst key
  (sim, samplerND G ss B comps keyPf, (bootstrapFilter G (scriptTransitionND G B m cov)
    (fun (y : Bool) s i => SsModels.preyPmf (if y then 1 else 0) (s i)) sim.2.2 (samplerND G ss B comps) keyPf
    (Smc.resampleIdx (systematicOrStratified G ss false))).1)

end Mfs.Prng

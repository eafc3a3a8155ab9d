import Mathlib.Data.Nat.Digits.Defs
import Mathlib.Data.List.Basic

/-!
# The files that the job scripts write and that the plot scripts read

The shell scripts `/repo/dardel/run_*.sh`, the Python scripts that they call and the scripts of `/repo/reproduce_paper_plots` are modelled as programs on a
store of files. Of a file only its name is kept. A Python script stops at the first file that it cannot load (an exception), and the shell script goes on
with its next line, since none of them sets `-e`.

Simplifications: the programs that a shell script starts in the background between two `wait`s run one after the other; the jobs given to Slurm run one
after the other, in an order that the theorems leave open; the contents of the files, and so the shapes of the arrays in them, are not modelled; running out
of memory or of time is not modelled. The folders exist.
-/

namespace Mfs.JobFiles

/-- the text that an f-string writes for a natural number: its decimal digits. -/
def dec (n : ℕ) : List Char := if n = 0 then ['0'] else (Nat.digits 10 n).reverse.map Nat.digitChar

/-- a file: its folder below `/repo/dardel` and its name. -/
structure Path where
  dir : String
  base : List Char
deriving DecidableEq

/-- the effects of a line of a Python script. -/
inductive Cmd where
  /-- `np.load(filename)` -/
  | load (f : Path)
  /-- `np.savez(filename, …)` -/
  | save (f : Path)
  /-- `np.load('rng_keys.npy')[k]` -/
  | key (k : ℕ)

/-- the file of `/repo/dardel/generate_rng_key.py:12`. -/
def keysFile : Path := ⟨".", "rng_keys.npy".toList⟩

/-- the number of keys, `/repo/dardel/generate_rng_key.py:7`. -/
def maxKeys : ℕ := 1000000

/-- a Python script run on a store: the store that it leaves and whether it came to its end. -/
def runProg : List Cmd → List Path → List Path × Bool
  | [], fs => (fs, true)
  | .load f :: p, fs => if f ∈ fs then runProg p fs else (fs, false)
  | .save f :: p, fs => runProg p (f :: fs)
  | .key k :: p, fs => if keysFile ∈ fs ∧ k < maxKeys then runProg p fs else (fs, false)

/-- a line of a shell script: a call of a Python script, or `rm dir/pre*`. -/
inductive Line where
  | python (p : List Cmd)
  | rm (dir : String) (pre : List Char)

def runLine (fs : List Path) : Line → List Path
  | .python p => (runProg p fs).1
  | .rm d pre => fs.filter fun f => ¬ (f.dir = d ∧ pre <+: f.base)

/-- a shell script. -/
def runShell (lines : List Line) (fs : List Path) : List Path := lines.foldl runLine fs

/-- several jobs, in the order of the list. -/
def runJobs (jobs : List (List Line)) (fs : List Path) : List Path := jobs.foldl (fun fs j => runShell j fs) fs

/-- the values of `k` of the two loops `for (( i=0;i<SEQUENTIAL_MAX;i++ ))`, `for (( j=0;j<PARALLEL_MAX;j++ ))` with `k=$(( i*PARALLEL_MAX+j ))`,
`/repo/dardel/run_convergence_pf.sh:30-34` (also in `run_benes_bernoulli_brute_force.sh:29-33`, `run_benes_bernoulli_ghf_pf.sh:39-43`,
`run_parameter_estimation_ghf_ekf.sh:29-33`, `run_parameter_estimation_mf.sh:29-33`). With the task of the job array in the place of `i`:
`run_parameter_estimation_pf.sh:29-31`, `run_parameter_estimation_pf_cr.sh:29-31`. -/
def runs (par seq : ℕ) : List ℕ := (List.range seq).flatMap fun i => (List.range par).map fun j => i * par + j

/-- the values of `k` of the task `t` of a job array: `st_mc=$(( SLURM_ARRAY_TASK_ID*SEQUENTIAL_RUNS ))`, `ed_mc=$(( st_mc+SEQUENTIAL_RUNS-1 ))` and
`for k in range(args.st_mc, args.ed_mc + 1)`, `/repo/dardel/run_prey_predator_mf.sh:25-27`, `/repo/dardel/prey_predator/mf.py:68`. The bounds are integers. -/
def taskRuns (n t : ℕ) : List ℕ :=
  let st : ℤ := t * n
  let ed : ℤ := st + n - 1
  (List.range (ed + 1 - st).toNat).map fun i : ℕ => (st + (i : ℤ)).toNat

/-- the numbers of the brace expansion `{2..15}`. -/
def orders : List ℕ := (List.range 14).map (· + 2)

/-! ## Names of files -/

/-- `/repo/dardel/convergence/convergence_mf.py:168`. -/
def convMfFile (mode : String) (N : ℕ) : Path :=
  ⟨"results/convergence", "mf_".toList ++ (mode.toList ++ ("_N_".toList ++ (dec N ++ ".npz".toList)))⟩

/-- `/repo/dardel/convergence/convergence_pf.py:139`. -/
def convPfRunFile (n k : ℕ) : Path :=
  ⟨"results/convergence", "pf_".toList ++ (dec n ++ ("_mc_".toList ++ (dec k ++ ".npz".toList)))⟩

/-- `/repo/dardel/convergence/convergence_pf_post_processing.py:26`. -/
def convPfFile (n : ℕ) : Path := ⟨"results/convergence", "pf_".toList ++ (dec n ++ ".npz".toList)⟩

/-- `/repo/reproduce_paper_plots/plot_convergence.py:65`. -/
def convPfPlotFile : Path := ⟨"results/convergence", "pf.npz".toList⟩

/-- `/repo/dardel/benes_bernoulli/brute_force.py:79`. -/
def bfRunFile (k : ℕ) : Path := ⟨"results/benes_bernoulli_brute_force", "mc_".toList ++ (dec k ++ ".npz".toList)⟩

/-- `/repo/dardel/benes_bernoulli/post_processing_brute_force.py:53`. -/
def bfFile (b m : ℕ) : Path :=
  ⟨"results/benes_bernoulli_brute_force", "b_".toList ++ (dec b ++ ("_m_".toList ++ (dec m ++ ".npz".toList)))⟩

/-- `/repo/dardel/benes_bernoulli/ghf.py:73`. -/
def ghfFile (gh tme : ℕ) : Path :=
  ⟨"results/benes_bernoulli_ghf", "gh_".toList ++ (dec gh ++ ("_tme_".toList ++ (dec tme ++ ".npz".toList)))⟩

/-- `/repo/dardel/benes_bernoulli/pf.py:74`. -/
def bpfRunFile (b m k : ℕ) : Path :=
  ⟨"results/benes_bernoulli_pf",
    "b_".toList ++ (dec b ++ ("_m_".toList ++ (dec m ++ ("_mc_".toList ++ (dec k ++ ".npz".toList)))))⟩

/-- `/repo/dardel/benes_bernoulli/post_processing_pf.py:42`. -/
def bpfFile (b m : ℕ) : Path :=
  ⟨"results/benes_bernoulli_pf", "b_".toList ++ (dec b ++ ("_m_".toList ++ (dec m ++ ".npz".toList)))⟩

/-- `/repo/dardel/benes_bernoulli/mf.py:83`; `t` is `'_normal'` or `''`. -/
def bmfFile (mode t : String) (N k : ℕ) : Path :=
  ⟨"results/benes_bernoulli_mf",
    mode.toList ++ (t.toList ++ ("_N_".toList ++ (dec N ++ ("_mc_".toList ++ (dec k ++ ".npz".toList)))))⟩

/-- `/repo/dardel/benes_bernoulli/compute_errs.py:115`. -/
def errsFile (b m : ℕ) (mode t : String) (N : ℕ) : Path :=
  ⟨"results/benes_bernoulli_errs", "errs_b_".toList ++ (dec b ++ ("_m_".toList ++ (dec m ++ ("_".toList ++
    (mode.toList ++ (t.toList ++ ("_N_".toList ++ (dec N ++ ".npz".toList))))))))⟩

/-- `/repo/dardel/parameter_estimation/ghf_ekf.py:97`, without `--euler`. -/
def estGhFile (gh k : ℕ) : Path :=
  ⟨"results/parameter_estimation_ghf_ekf", "gh_".toList ++ (dec gh ++ ("_mc_".toList ++ (dec k ++ ".npz".toList)))⟩

/-- `/repo/dardel/parameter_estimation/ghf_ekf.py:106`, without `--euler`. -/
def estEkfFile (k : ℕ) : Path := ⟨"results/parameter_estimation_ghf_ekf", "ekf_mc_".toList ++ (dec k ++ ".npz".toList)⟩

/-- `/repo/dardel/parameter_estimation/mf.py:76`, without `--euler`. -/
def estMfFile (N k : ℕ) : Path :=
  ⟨"results/parameter_estimation_mf", "N_".toList ++ (dec N ++ ("_mc_".toList ++ (dec k ++ ".npz".toList)))⟩

/-- `/repo/dardel/parameter_estimation/pf.py:89`, without `--euler`. -/
def estPfFile (cr : Bool) (k : ℕ) : Path :=
  ⟨if cr then "results/parameter_estimation_pf_cr" else "results/parameter_estimation_pf",
    "mc_".toList ++ (dec k ++ ".npz".toList)⟩

/-- `/repo/dardel/prey_predator/pf.py:71`. -/
def preyPfFile (tr : String) (k : ℕ) : Path :=
  ⟨"results/prey_predator_pf", tr.toList ++ ("_mc_".toList ++ (dec k ++ ".npz".toList))⟩

/-- `/repo/dardel/prey_predator/ghf_ekf.py:78`. -/
def preyGhfFile (tr : String) (k : ℕ) : Path :=
  ⟨"results/prey_predator_ghf_ekf", tr.toList ++ ("_mc_".toList ++ (dec k ++ ".npz".toList))⟩

/-- `/repo/dardel/prey_predator/mf.py:82`. -/
def preyMfFile (mode tr : String) (N k : ℕ) : Path :=
  ⟨"results/prey_predator_mf", mode.toList ++ ("_".toList ++ (tr.toList ++ ("_N_".toList ++ (dec N ++
    ("_mc_".toList ++ (dec k ++ ".npz".toList))))))⟩

/-- `/repo/dardel/time_profile/mf.py:79`, without `--normal`. -/
def timeMfFile (mode : String) (N : ℕ) : Path :=
  ⟨"results/times", "mf_".toList ++ (mode.toList ++ ("_N_".toList ++ (dec N ++ ".npz".toList)))⟩

/-- `/repo/dardel/time_profile/ghf.py:52`. -/
def timeGhfFile (gh : ℕ) : Path := ⟨"results/times", "ghf_".toList ++ (dec gh ++ ".npz".toList)⟩

/-- `/repo/dardel/time_profile/pf.py:48`. -/
def timePfFile (n : ℕ) : Path := ⟨"results/times", "pf_".toList ++ (dec n ++ ".npz".toList)⟩

/-! ## Shell scripts -/

/-- a Python script that takes the keys `0, …, n-1` and then writes one file, as `/repo/dardel/convergence/convergence_mf.py:137-169`,
`/repo/dardel/benes_bernoulli/ghf.py:54-75`, `/repo/dardel/time_profile/{mf,ghf,pf}.py` (the compile run `k = -1` of the last three takes the last key, which
exists whenever the file does). -/
def keysThenSave (n : ℕ) (f : Path) : Line := .python ((List.range n).map Cmd.key ++ [.save f])

/-- `/repo/dardel/run_convergence_mf.sh:24-31`. -/
def jobConvMf : List Line :=
  orders.flatMap fun N => [keysThenSave 10000 (convMfFile "raw" N), keysThenSave 10000 (convMfFile "central" N)]

/-- `/repo/dardel/run_convergence_pf.sh:29-41` and `43-55` for one number of particles; `convergence_pf_post_processing.py:17-27`. -/
def convPfPart (par seq n : ℕ) : List Line :=
  (runs par seq).map (fun k => .python [.key k, .save (convPfRunFile n k)]) ++
    [.python ((List.range (par * seq)).map (fun k => .load (convPfRunFile n k)) ++ [.save (convPfFile n)]),
      .rm "results/convergence" ("pf_".toList ++ (dec n ++ "_mc_".toList))]

/-- `/repo/dardel/run_convergence_pf.sh:24-55`. -/
def jobConvPf (par seq : ℕ) : List Line := convPfPart par seq 10000 ++ convPfPart par seq 100000

/-- `post_processing_brute_force.py:42-53`. -/
def bfPost (b maxmc : ℕ) : Line :=
  .python ((List.range maxmc).map (fun k => .load (bfRunFile k)) ++ [.save (bfFile b 2000)])

/-- `/repo/dardel/run_benes_bernoulli_brute_force.sh:24-44`. -/
def jobBf (par seq : ℕ) : List Line :=
  (runs par seq).map (fun k => .python [.key k, .save (bfRunFile k)]) ++
    [bfPost 2 (par * seq), bfPost 5 (par * seq), .rm "results/benes_bernoulli_brute_force" "mc_".toList]

/-- `/repo/dardel/benes_bernoulli/mf.py:71-92`. -/
def bmf (mode t : String) (maxmc N : ℕ) : Line :=
  .python ((List.range maxmc).flatMap fun k => [.key k, .save (bmfFile mode t N k)])

/-- the modes of the moment filter in the order of the scripts. -/
def modes : List String := ["raw", "central", "scaled"]

/-- `/repo/dardel/run_benes_bernoulli_mf.sh:24-45`. -/
def jobBmf : List Line :=
  modes.flatMap fun mode => orders.flatMap fun N => [bmf mode "" 1000 N, bmf mode "_normal" 1000 N]

/-- `/repo/dardel/run_benes_bernoulli_ghf_pf.sh:38-50` and `52-64` for one `b`. The script `post_processing_pf.py:16` is called without `--maxmc` and so with
its default, `1000`; its loop is `post_processing_pf.py:34-42`. -/
def bpfPart (par seq b : ℕ) : List Line :=
  (runs par seq).map (fun k => .python [.key k, .save (bpfRunFile b 2000 k)]) ++
    [.python ((List.range 1000).map (fun k => .load (bpfRunFile b 2000 k)) ++ [.save (bpfFile b 2000)]),
      .rm "results/benes_bernoulli_pf" ("b_".toList ++ (dec b ++ "_m_2000_mc_".toList))]

/-- `/repo/dardel/run_benes_bernoulli_ghf_pf.sh:30-64`. -/
def jobGhfPf (par seq : ℕ) : List Line :=
  keysThenSave (par * seq) (ghfFile 11 3) :: (bpfPart par seq 2 ++ bpfPart par seq 5)

/-- `/repo/dardel/benes_bernoulli/compute_errs.py:38-115`. -/
def computeErrs (b : ℕ) (mode t : String) (N maxmc : ℕ) : Line :=
  .python ([.load (bfFile b 2000), .load (ghfFile 11 3), .load (bpfFile b 2000)] ++
    (List.range maxmc).map (fun k => .load (bmfFile mode t N k)) ++ [.save (errsFile b 2000 mode t N)])

/-- `/repo/dardel/run_benes_bernoulli_compute_errs.sh:24-54`. -/
def jobErrs : List Line :=
  modes.flatMap fun mode => orders.flatMap fun N =>
    [computeErrs 2 mode "" N 1000, computeErrs 2 mode "_normal" N 1000,
      computeErrs 5 mode "" N 1000, computeErrs 5 mode "_normal" N 1000]

/-- `/repo/dardel/run_parameter_estimation_ghf_ekf.sh:24-37`; the default of `--gh` is 11, `ghf_ekf.py:19`. -/
def jobEstGhf (par seq : ℕ) : List Line :=
  (runs par seq).map fun k => .python [.key k, .save (estGhFile 11 k), .save (estEkfFile k)]

/-- `/repo/dardel/run_parameter_estimation_mf.sh:24-38`. -/
def jobEstMf (par seq : ℕ) : List Line := (runs par seq).map fun k => .python [.key k, .save (estMfFile 7 k)]

/-- `/repo/dardel/run_parameter_estimation_pf.sh:25-35` and `run_parameter_estimation_pf_cr.sh:25-35` with a job array of `tasks` tasks. -/
def jobEstPf (cr : Bool) (par tasks : ℕ) : List Line :=
  (runs par tasks).map fun k => .python [.key k, .save (estPfFile cr k)]

/-- `/repo/dardel/run_prey_predator_ghf_ekf.sh:24-26`. -/
def jobPreyGhf : List Line :=
  [.python ((List.range 10000).flatMap fun k => [.key k, .save (preyGhfFile "tme_2" k)])]

/-- one task of the moment filter, `/repo/dardel/prey_predator/mf.py:68-92`. -/
def preyMf (tr : String) (N n t : ℕ) : Line :=
  .python ((taskRuns n t).flatMap fun k => [.key k, .save (preyMfFile "central" tr N k)])

/-- `/repo/dardel/run_prey_predator_mf.sh:25-31` with a job array of `tasks` tasks. -/
def jobPreyMf (n tasks : ℕ) : List Line :=
  (List.range tasks).flatMap fun t => [preyMf "tme_normal_2" 5 n t, preyMf "tme_2" 5 n t]

/-- `/repo/dardel/run_prey_predator_mf_gpu.sh:11-32`, called with the argument `N`. -/
def jobPreyMfGpu (N n tasks : ℕ) : List Line := (List.range tasks).map (preyMf "tme_2" N n)

/-- `/repo/dardel/run_prey_predator_pf.sh:25-29`, `/repo/dardel/prey_predator/pf.py:57-77`. -/
def jobPreyPf (n tasks : ℕ) : List Line :=
  (List.range tasks).map fun t => .python ((taskRuns n t).flatMap fun k => [.key k, .save (preyPfFile "tme_2" k)])

/-- `/repo/dardel/run_time_profile.sh:24-37`. -/
def jobTimes : List Line :=
  orders.map (fun N => keysThenSave 1000 (timeMfFile "raw" N)) ++
    [keysThenSave 1000 (timeGhfFile 11), keysThenSave 1000 (timePfFile 10000)]

/-- the numbers that the README tells the user to change, `/repo/dardel/README.md`: `PARALLEL_MAX` and `SEQUENTIAL_MAX` of each script (or the number of
runs of a task and the number of tasks of a job array). -/
structure Params where
  conv : ℕ × ℕ
  bf : ℕ × ℕ
  ghfPf : ℕ × ℕ
  estGhf : ℕ × ℕ
  estMf : ℕ × ℕ
  estPf : ℕ × ℕ
  estPfCr : ℕ × ℕ
  preyMf : ℕ × ℕ
  preyPf : ℕ × ℕ

/-- the numbers in the scripts. -/
def defaults : Params :=
  ⟨(20, 500), (10, 100), (10, 100), (25, 40), (25, 40), (10, 100), (10, 100), (100, 100), (100, 100)⟩

/-- the jobs of `/repo/dardel/run_all.sh:1-24`. -/
def runAll (q : Params) : List (List Line) :=
  [jobConvMf, jobConvPf q.conv.1 q.conv.2, jobBf q.bf.1 q.bf.2, jobBmf, jobGhfPf q.ghfPf.1 q.ghfPf.2,
    jobEstGhf q.estGhf.1 q.estGhf.2, jobEstMf q.estMf.1 q.estMf.2, jobEstPf false q.estPf.1 q.estPf.2,
    jobEstPf true q.estPfCr.1 q.estPfCr.2, jobPreyGhf, jobPreyMf q.preyMf.1 q.preyMf.2,
    jobPreyPf q.preyPf.1 q.preyPf.2, jobTimes]

/-! ## Plot scripts -/

/-- the files read by `/repo/reproduce_paper_plots/plot_convergence.py:37-38,65,82-83`, with `mode = 'central'` (line 14). -/
def plotConvergence : List Cmd :=
  ([3, 7, 11, 15].map fun N => .load (convMfFile "central" N)) ++ [.load convPfPlotFile] ++
    orders.map fun N => .load (convMfFile "central" N)

/-- the files read by `/repo/reproduce_paper_plots/plot_benes_bernoulli_errs_and_times.py:19-53`. -/
def plotBenes : List Cmd :=
  [.load (errsFile 2 2000 "central" "_normal" 15)] ++ (orders.map fun N => .load (timeMfFile "raw" N)) ++
    [.load (timeGhfFile 11), .load (timePfFile 10000)]

/-- the files read by `/repo/reproduce_paper_plots/plot_parameter_estimation.py:27-81`. -/
def plotEstimation : List Cmd :=
  ((List.range 1000).flatMap fun k => [.load (estGhFile 11 k), .load (estEkfFile k)]) ++
    ((List.range 1000).map fun k => .load (estMfFile 7 k)) ++
    ((List.range 1000).map fun k => .load (estPfFile false k)) ++
    ((List.range 1000).map fun k => .load (estPfFile true k))

/-- the files read by `/repo/reproduce_paper_plots/plot_prey_predator_errs.py:36-41,64-70`. -/
def plotPrey : List Cmd :=
  ((List.range 10000).map fun k => .load (preyPfFile "tme_2" k)) ++
    [5, 7].flatMap fun N => (List.range 10000).map fun k => .load (preyMfFile "central" "tme_2" N k)

/-- a script comes to its end. -/
def Succeeds (p : List Cmd) (fs : List Path) : Prop := (runProg p fs).2 = true

end Mfs.JobFiles

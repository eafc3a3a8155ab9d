import Verif.Lemmas.JobFiles

/-!
# C202: after the jobs have run, the plot scripts find their files

`runAll q` is the list of jobs that `run_all.sh` gives to Slurm, with the numbers `q` of parallel and sequential runs that the README tells the user to
change. The jobs run in any order (`List.Perm`), on a store that holds only the file of the random keys.
-/

namespace Mfs.Props

open Mfs.JobFiles

/-- The loops of the scripts give every run `0, …, P·S-1` once and in order, and so do the tasks of a job array. -/
theorem C202_runs (par seq n tasks : ℕ) :
    runs par seq = List.range (par * seq) ∧ (List.range tasks).flatMap (taskRuns n) = List.range (n * tasks) :=
  ⟨runs_eq par seq, tasks_eq n tasks⟩

example : runs 2 3 = [0, 1, 2, 3, 4, 5] ∧ taskRuns 3 2 = [6, 7, 8] := by decide

/-- Different runs write different files: the names are injective in the number of the run. -/
theorem C202_names (n b m N : ℕ) (mode t tr : String) (cr : Bool) :
    Function.Injective (convPfRunFile n) ∧ Function.Injective bfRunFile ∧ Function.Injective (bpfRunFile b m) ∧
    Function.Injective (bmfFile mode t N) ∧ Function.Injective (estGhFile n) ∧ Function.Injective estEkfFile ∧
    Function.Injective (estMfFile N) ∧ Function.Injective (estPfFile cr) ∧ Function.Injective (preyPfFile tr) ∧
    Function.Injective (preyMfFile mode tr N) := by
  refine ⟨?_, ?_, ?_, ?_, ?_, ?_, ?_, ?_, ?_, ?_⟩ <;> intro k l h <;>
    simpa [convPfRunFile, bfRunFile, bpfRunFile, bmfFile, estGhFile, estEkfFile, estMfFile, estPfFile, preyPfFile,
      preyMfFile, dec_eq_iff] using h

variable {q : Params} {jobs : List (List Line)}

theorem kept_all (h : jobs.Perm (runAll q)) {f : Path} (hf : Safe f) : ∀ j ∈ jobs, Kept j f :=
  fun _ hj => hf.kept (h.mem_iff.1 hj)

/-- the writes of a job of `run_all.sh`. -/
theorem writes_of (h : jobs.Perm (runAll q)) {J : List Line} (hJ : J ∈ runAll q) {f : Path} (hf : Safe f)
    (hw : ∀ gs, keysFile ∈ gs → f ∈ runShell J gs) : f ∈ runJobs jobs [keysFile] :=
  runJobs_writes (h.mem_iff.2 hJ) (by simp) (kept_all h safe_keys) (kept_all h hf) hw

/-- a file that is there has been written by a job of `run_all.sh`. -/
theorem saved_of (h : jobs.Perm (runAll q)) {f : Path} (hf : f ∈ runJobs jobs [keysFile]) (hne : f.dir ≠ ".") :
    ∃ j ∈ runAll q, ∃ p, Line.python p ∈ j ∧ Cmd.save f ∈ p := by
  rcases runJobs_sub jobs hf with hf | ⟨j, hj, hp⟩
  · simp at hf; subst hf; exact (hne rfl).elim
  · exact ⟨j, h.mem_iff.1 hj, hp⟩

theorem safe_of_dir {f : Path} (h : f.dir ∉ rmList.map Prod.fst) : Safe f :=
  fun r hr e => h (List.mem_map.2 ⟨r, hr, e.1.symm⟩)

theorem load_estimation {f : Path} : Cmd.load f ∈ plotEstimation ↔ ∃ k < 1000,
    f = estGhFile 11 k ∨ f = estEkfFile k ∨ f = estMfFile 7 k ∨ f = estPfFile false k ∨ f = estPfFile true k := by
  simp [plotEstimation]
  grind

/-- **Figure 6.** After the jobs of `run_all.sh`, in any order, the script of the figure finds its files if and only if each of the four estimation scripts
makes at least the `1000` runs that the plot script has written into it. -/
theorem C202_estimation (h : jobs.Perm (runAll q)) :
    Succeeds plotEstimation (runJobs jobs [keysFile]) ↔
      1000 ≤ q.estGhf.1 * q.estGhf.2 ∧ 1000 ≤ q.estMf.1 * q.estMf.2 ∧ 1000 ≤ q.estPf.1 * q.estPf.2 ∧
        1000 ≤ q.estPfCr.1 * q.estPfCr.2 := by
  rw [succeeds_loads]
  swap
  · intro c hc; simp [plotEstimation] at hc; grind
  constructor
  · intro hl
    have h1 := saved_cases (saved_of h (hl (estGhFile 11 999) (load_estimation.2 ⟨999, by norm_num, by simp⟩))
      (by simp [estGhFile]))
    have h2 := saved_cases (saved_of h (hl (estMfFile 7 999) (load_estimation.2 ⟨999, by norm_num, by simp⟩))
      (by simp [estMfFile]))
    have h3 := saved_cases (saved_of h (hl (estPfFile false 999) (load_estimation.2 ⟨999, by norm_num, by simp⟩))
      (by simp [estPfFile]))
    have h4 := saved_cases (saved_of h (hl (estPfFile true 999) (load_estimation.2 ⟨999, by norm_num, by simp⟩))
      (by simp [estPfFile]))
    simp [convMfFile, convPfRunFile, convPfFile, bfRunFile, bfFile, bmfFile, ghfFile, bpfRunFile, bpfFile, estGhFile,
      estEkfFile, estMfFile, estPfFile, preyGhfFile, preyMfFile, preyPfFile, timeMfFile, timeGhfFile, timePfFile,
      dec_eq_iff, dec_vals] at h1 h2 h3 h4
    omega
  · rintro ⟨h1, h2, h3, h4⟩ f hf
    obtain ⟨k, hk, hf⟩ := load_estimation.1 hf
    have hkey : k < maxKeys := by unfold maxKeys; omega
    have safe : Safe f := by
      apply safe_of_dir
      rcases hf with rfl | rfl | rfl | rfl | rfl <;> simp [rmList, estGhFile, estEkfFile, estMfFile, estPfFile]
    rcases hf with hf | hf | hf | hf | hf
    · refine writes_of h (J := jobEstGhf q.estGhf.1 q.estGhf.2) (by simp [runAll]) safe fun gs hg => ?_
      have hno : ∀ d pre, Line.rm d pre ∉ jobEstGhf q.estGhf.1 q.estGhf.2 := by intro d pre hm; simp [jobEstGhf] at hm
      refine runShell_writes (p := [.key k, .save (estGhFile 11 k), .save (estEkfFile k)]) ?_ hg (kept_of_no_rm hno _) ?_
        (by simp [hf]) (kept_of_no_rm hno _)
      · rw [jobEstGhf, runs_eq]; exact List.mem_map.2 ⟨k, by simp; omega, rfl⟩
      · intro c hc; simp at hc
        rcases hc with rfl | rfl | rfl
        · exact ⟨by simp, hkey⟩
        · trivial
        · trivial
    · refine writes_of h (J := jobEstGhf q.estGhf.1 q.estGhf.2) (by simp [runAll]) safe fun gs hg => ?_
      have hno : ∀ d pre, Line.rm d pre ∉ jobEstGhf q.estGhf.1 q.estGhf.2 := by intro d pre hm; simp [jobEstGhf] at hm
      refine runShell_writes (p := [.key k, .save (estGhFile 11 k), .save (estEkfFile k)]) ?_ hg (kept_of_no_rm hno _) ?_
        (by simp [hf]) (kept_of_no_rm hno _)
      · rw [jobEstGhf, runs_eq]; exact List.mem_map.2 ⟨k, by simp; omega, rfl⟩
      · intro c hc; simp at hc
        rcases hc with rfl | rfl | rfl
        · exact ⟨by simp, hkey⟩
        · trivial
        · trivial
    · refine writes_of h (J := jobEstMf q.estMf.1 q.estMf.2) (by simp [runAll]) safe fun gs hg => ?_
      rw [hf]
      exact loop_writes (estMfFile 7) _ _ hg (by omega) hkey
    · refine writes_of h (J := jobEstPf false q.estPf.1 q.estPf.2) (by simp [runAll]) safe fun gs hg => ?_
      rw [hf]
      exact loop_writes (estPfFile false) _ _ hg (by omega) hkey
    · refine writes_of h (J := jobEstPf true q.estPfCr.1 q.estPfCr.2) (by simp [runAll]) safe fun gs hg => ?_
      rw [hf]
      exact loop_writes (estPfFile true) _ _ hg (by omega) hkey

/-- With the numbers in the scripts the files are there. -/
example : Succeeds plotEstimation (runJobs (runAll defaults) [keysFile]) :=
  (C202_estimation (List.Perm.refl _)).2 (by simp [defaults])

/-- Without Slurm, as the README describes, there is one task of ten runs of the particle filter, and the plot script fails. -/
example : ¬ Succeeds plotEstimation (runJobs (runAll { defaults with estPf := (10, 1) }) [keysFile]) :=
  fun hs => by have := (C202_estimation (List.Perm.refl _)).1 hs; simp at this

/-! ## Figure 3 -/

theorem load_convergence {f : Path} : Cmd.load f ∈ plotConvergence ↔
    f = convPfPlotFile ∨ ∃ N, 2 ≤ N ∧ N ≤ 15 ∧ f = convMfFile "central" N := by
  simp only [plotConvergence, List.mem_append, List.mem_map, List.mem_cons, List.not_mem_nil, or_false, Cmd.load.injEq,
    mem_orders]
  constructor
  · rintro ((⟨N, hN, rfl⟩ | rfl) | ⟨N, hN, rfl⟩)
    · exact Or.inr ⟨N, by omega, by omega, rfl⟩
    · exact Or.inl rfl
    · exact Or.inr ⟨N, hN.1, hN.2, rfl⟩
  · rintro (rfl | ⟨N, h1, h2, rfl⟩)
    · exact Or.inl (Or.inr rfl)
    · exact Or.inr ⟨N, ⟨h1, h2⟩, rfl⟩

theorem plotConvergence_loads : ∀ c ∈ plotConvergence, ∃ f, c = Cmd.load f := by
  intro c hc; simp [plotConvergence] at hc; grind

/-- **Figure 3, refuted.** Whatever the numbers of runs and the order of the jobs, the script of the figure stops at the results of the particle filter: it
loads `pf.npz`, and the jobs write `pf_10000.npz` and `pf_100000.npz`. -/
theorem C202_convergence_refuted (h : jobs.Perm (runAll q)) :
    ¬ Succeeds plotConvergence (runJobs jobs [keysFile]) := by
  rw [succeeds_loads _ _ plotConvergence_loads]
  intro hl
  have h1 := saved_cases (saved_of h (hl convPfPlotFile (load_convergence.2 (Or.inl rfl))) (by simp [convPfPlotFile]))
  simp [convMfFile, convPfRunFile, convPfFile, bfRunFile, bfFile, bmfFile, ghfFile, bpfRunFile, bpfFile, estGhFile,
    estEkfFile, estMfFile, estPfFile, preyGhfFile, preyMfFile, preyPfFile, timeMfFile, timeGhfFile, timePfFile,
    convPfPlotFile] at h1

/-- what `run_convergence_pf.sh` leaves. -/
theorem conv_pf (h : jobs.Perm (runAll q)) (hq : q.conv.1 * q.conv.2 ≤ maxKeys) :
    convPfFile 10000 ∈ runJobs jobs [keysFile] ∧ convPfFile 100000 ∈ runJobs jobs [keysFile] := by
  have hs : ∀ n, (n = 10000 ∨ n = 100000) → Safe (convPfFile n) := by
    intro n hn r hr
    simp only [rmList, List.mem_cons, List.not_mem_nil, or_false] at hr
    rcases hn with rfl | rfl <;> rcases hr with rfl | rfl | rfl | rfl | rfl <;>
      simp [convPfFile, dec_vals]
  have hrm : ∀ n m, (n = 10000 ∨ n = 100000) → (m = 10000 ∨ m = 100000) → ∀ j : List Line,
      j = [Line.rm "results/convergence" ("pf_".toList ++ (dec n ++ "_mc_".toList))] → Kept j (convPfFile m) := by
    intro n m hn hm j hj d pre hmem
    subst hj
    simp at hmem
    obtain ⟨rfl, rfl⟩ := hmem
    rcases hn with rfl | rfl <;> rcases hm with rfl | rfl <;> simp [convPfFile, dec_vals]
  have hpart : ∀ n, (n = 10000 ∨ n = 100000) → ∀ gs, keysFile ∈ gs →
      convPfFile n ∈ runShell (convPfPart q.conv.1 q.conv.2 n) gs := by
    intro n hn gs hg
    exact part_writes (convPfRunFile n) (convPfFile n) _ _ _ _ hg le_rfl hq (hrm n n hn hn _ rfl)
  have hkeep : ∀ n m, (n = 10000 ∨ n = 100000) → (m = 10000 ∨ m = 100000) →
      Kept (convPfPart q.conv.1 q.conv.2 n) (convPfFile m) := by
    intro n m hn hm d pre hmem
    refine hrm n m hn hm _ rfl d pre ?_
    simpa [convPfPart] using hmem
  have hkk : ∀ n, Kept (convPfPart q.conv.1 q.conv.2 n) keysFile := by
    intro n d pre hmem
    simp [convPfPart] at hmem
    simp [keysFile, hmem]
  constructor
  · refine writes_of h (J := jobConvPf q.conv.1 q.conv.2) (by simp [runAll]) (hs _ (Or.inl rfl)) fun gs hg => ?_
    rw [jobConvPf, runShell_append]
    exact runShell_kept _ (hpart _ (Or.inl rfl) gs hg) (hkeep _ _ (Or.inr rfl) (Or.inl rfl))
  · refine writes_of h (J := jobConvPf q.conv.1 q.conv.2) (by simp [runAll]) (hs _ (Or.inr rfl)) fun gs hg => ?_
    rw [jobConvPf, runShell_append]
    exact hpart _ (Or.inr rfl) _ (runShell_kept _ hg (hkk _))

/-- **Figure 3, what holds.** All other files of the script are there, the results of the particle filter are there under their two names, and once one of
them is copied to `pf.npz` the script finds its files. -/
theorem C202_convergence_partial (h : jobs.Perm (runAll q)) (hq : q.conv.1 * q.conv.2 ≤ maxKeys) :
    (∀ f, Cmd.load f ∈ plotConvergence → f ≠ convPfPlotFile → f ∈ runJobs jobs [keysFile]) ∧
    convPfFile 10000 ∈ runJobs jobs [keysFile] ∧ convPfFile 100000 ∈ runJobs jobs [keysFile] ∧
    Succeeds plotConvergence (convPfPlotFile :: runJobs jobs [keysFile]) := by
  have hmf : ∀ N, 2 ≤ N → N ≤ 15 → convMfFile "central" N ∈ runJobs jobs [keysFile] := by
    intro N h2 h15
    have hsafe : Safe (convMfFile "central" N) := by
      intro r hr
      simp only [rmList, List.mem_cons, List.not_mem_nil, or_false] at hr
      rcases hr with rfl | rfl | rfl | rfl | rfl <;> simp [convMfFile]
    refine writes_of h (J := jobConvMf) (by simp [runAll]) hsafe fun gs hg => ?_
    have hno : ∀ d pre, Line.rm d pre ∉ jobConvMf := by intro d pre hm; simp [jobConvMf, keysThenSave] at hm
    refine runShell_writes (p := (List.range 10000).map Cmd.key ++ [.save (convMfFile "central" N)]) ?_ hg
      (kept_of_no_rm hno _) ?_ (by simp) (kept_of_no_rm hno _)
    · exact List.mem_flatMap.2 ⟨N, mem_orders.2 ⟨h2, h15⟩, by simp [keysThenSave]⟩
    · intro c hc
      rcases List.mem_append.1 hc with hc | hc
      · obtain ⟨k, hk, rfl⟩ := List.mem_map.1 hc
        have := List.mem_range.1 hk
        exact ⟨by simp, by unfold maxKeys; omega⟩
      · simp at hc; subst hc; trivial
  have hall : ∀ f, Cmd.load f ∈ plotConvergence → f ≠ convPfPlotFile → f ∈ runJobs jobs [keysFile] := by
    intro f hf hne
    rcases load_convergence.1 hf with hf | ⟨N, h2, h15, rfl⟩
    · exact (hne hf).elim
    · exact hmf N h2 h15
  refine ⟨hall, (conv_pf h hq).1, (conv_pf h hq).2, ?_⟩
  rw [succeeds_loads _ _ plotConvergence_loads]
  intro f hf
  by_cases e : f = convPfPlotFile
  · simp [e]
  · exact List.mem_cons_of_mem _ (hall f hf e)

example : ¬ Succeeds plotConvergence (runJobs (runAll defaults) [keysFile]) :=
  C202_convergence_refuted (List.Perm.refl _)

example : convPfFile 100000 ∈ runJobs (runAll defaults) [keysFile] :=
  (C202_convergence_partial (List.Perm.refl _) (by simp [defaults, maxKeys])).2.2.1

/-! ## Figure 7 -/

theorem load_prey {f : Path} : Cmd.load f ∈ plotPrey ↔ ∃ k < 10000,
    f = preyPfFile "tme_2" k ∨ f = preyMfFile "central" "tme_2" 5 k ∨ f = preyMfFile "central" "tme_2" 7 k := by
  simp only [plotPrey, List.mem_append, List.mem_map, List.mem_flatMap, List.mem_range, List.mem_cons, List.not_mem_nil,
    or_false, Cmd.load.injEq]
  constructor
  · rintro (⟨k, hk, rfl⟩ | ⟨N, rfl | rfl, k, hk, rfl⟩)
    · exact ⟨k, hk, Or.inl rfl⟩
    · exact ⟨k, hk, Or.inr (Or.inl rfl)⟩
    · exact ⟨k, hk, Or.inr (Or.inr rfl)⟩
  · rintro ⟨k, hk, rfl | rfl | rfl⟩
    · exact Or.inl ⟨k, hk, rfl⟩
    · exact Or.inr ⟨5, Or.inl rfl, k, hk, rfl⟩
    · exact Or.inr ⟨7, Or.inr rfl, k, hk, rfl⟩

theorem plotPrey_loads : ∀ c ∈ plotPrey, ∃ f, c = Cmd.load f := by
  intro c hc
  simp only [plotPrey, List.mem_append, List.mem_map, List.mem_flatMap] at hc
  rcases hc with ⟨k, _, rfl⟩ | ⟨N, _, k, _, rfl⟩ <;> exact ⟨_, rfl⟩

/-- **Figure 7, refuted.** Whatever the numbers of runs and the order of the jobs, the script of the figure fails after `run_all.sh`: the files for
`N = 7` are written by no job. -/
theorem C202_prey_refuted (h : jobs.Perm (runAll q)) : ¬ Succeeds plotPrey (runJobs jobs [keysFile]) := by
  rw [succeeds_loads _ _ plotPrey_loads]
  intro hl
  have h1 := saved_cases (saved_of h (hl (preyMfFile "central" "tme_2" 7 0) (load_prey.2 ⟨0, by norm_num, by simp⟩))
    (by simp [preyMfFile]))
  simp [convMfFile, convPfRunFile, convPfFile, bfRunFile, bfFile, bmfFile, ghfFile, bpfRunFile, bpfFile, estGhFile,
    estEkfFile, estMfFile, estPfFile, preyGhfFile, preyMfFile, preyPfFile, timeMfFile, timeGhfFile, timePfFile,
    dec_vals] at h1

/-- `run_all.sh` with `run_prey_predator_mf_gpu.sh 7` in the place of `run_prey_predator_mf.sh`, as its comment says, fails as well: now the files for
`N = 5` are missing. -/
theorem C202_prey_replaced {n tasks : ℕ} (h : jobs.Perm ((runAll q).set 10 (jobPreyMfGpu 7 n tasks))) :
    ¬ Succeeds plotPrey (runJobs jobs [keysFile]) := by
  rw [succeeds_loads _ _ plotPrey_loads]
  intro hl
  have hm := hl (preyMfFile "central" "tme_2" 5 0) (load_prey.2 ⟨0, by norm_num, by simp⟩)
  rcases runJobs_sub jobs hm with hm | ⟨j, hj, p, hp, hs⟩
  · simp [keysFile, preyMfFile] at hm
  · have hj' := h.mem_iff.1 hj
    by_cases hg : j = jobPreyMfGpu 7 n tasks
    · subst hg
      simp [jobPreyMfGpu, preyMf] at hp
      obtain ⟨t, _, rfl⟩ := hp
      simp [preyMfFile, dec_vals] at hs
    · have hr : j ∈ runAll { q with preyMf := (0, 0) } := by
        simp only [runAll, List.set_cons_succ, List.set_cons_zero, List.mem_cons, List.not_mem_nil, or_false] at hj' ⊢
        rcases hj' with h' | h' | h' | h' | h' | h' | h' | h' | h' | h' | h' | h' | h'
        · exact Or.inl h'
        · exact Or.inr (Or.inl h')
        · exact Or.inr (Or.inr (Or.inl h'))
        · exact Or.inr (Or.inr (Or.inr (Or.inl h')))
        · exact Or.inr (Or.inr (Or.inr (Or.inr (Or.inl h'))))
        · exact Or.inr (Or.inr (Or.inr (Or.inr (Or.inr (Or.inl h')))))
        · exact Or.inr (Or.inr (Or.inr (Or.inr (Or.inr (Or.inr (Or.inl h'))))))
        · exact Or.inr (Or.inr (Or.inr (Or.inr (Or.inr (Or.inr (Or.inr (Or.inl h')))))))
        · exact Or.inr (Or.inr (Or.inr (Or.inr (Or.inr (Or.inr (Or.inr (Or.inr (Or.inl h'))))))))
        · exact Or.inr (Or.inr (Or.inr (Or.inr (Or.inr (Or.inr (Or.inr (Or.inr (Or.inr (Or.inl h')))))))))
        · exact (hg h').elim
        · exact Or.inr (Or.inr (Or.inr (Or.inr (Or.inr (Or.inr (Or.inr (Or.inr (Or.inr (Or.inr (Or.inr (Or.inl h')))))))))))
        · exact Or.inr (Or.inr (Or.inr (Or.inr (Or.inr (Or.inr (Or.inr (Or.inr (Or.inr (Or.inr (Or.inr (Or.inr (h'))))))))))))
      have h1 := saved_cases ⟨j, hr, p, hp, hs⟩
      simp [convMfFile, convPfRunFile, convPfFile, bfRunFile, bfFile, bmfFile, ghfFile, bpfRunFile, bpfFile, estGhFile,
        estEkfFile, estMfFile, estPfFile, preyGhfFile, preyMfFile, preyPfFile, timeMfFile, timeGhfFile, timePfFile,
        dec_vals] at h1

/-- the files of a job array of the prey-predator scripts. -/
theorem task_writes {J : List Line} (F : ℕ → Path) (n tasks : ℕ)
    (hJ : ∀ t < tasks, Line.python ((taskRuns n t).flatMap fun k => [.key k, .save (F k)]) ∈ J)
    (hno : ∀ d pre, Line.rm d pre ∉ J) (hkeys : n * tasks ≤ maxKeys) {k : ℕ} (hk : k < n * tasks) {gs : List Path}
    (hg : keysFile ∈ gs) : F k ∈ runShell J gs := by
  obtain ⟨t, ht, hkt⟩ := (mem_tasks n tasks k).2 hk
  refine runShell_writes (hJ t ht) hg (kept_of_no_rm hno _) ?_ (by simp; exact ⟨k, hkt, rfl⟩) (kept_of_no_rm hno _)
  intro c hc
  simp at hc
  obtain ⟨l, hl, rfl | rfl⟩ := hc
  · exact ⟨by simp, lt_of_lt_of_le ((mem_tasks n tasks l).1 ⟨t, ht, hl⟩) hkeys⟩
  · trivial

/-- **Figure 7, what holds.** With `run_prey_predator_mf_gpu.sh 7` in addition, in any order, and at least `10000` runs in each of the three job arrays, the
script finds its files. -/
theorem C202_prey_partial {n tasks : ℕ} (h : jobs.Perm (jobPreyMfGpu 7 n tasks :: runAll q))
    (h1 : 10000 ≤ q.preyPf.1 * q.preyPf.2) (h2 : 10000 ≤ q.preyMf.1 * q.preyMf.2) (h3 : 10000 ≤ n * tasks)
    (k1 : q.preyPf.1 * q.preyPf.2 ≤ maxKeys) (k2 : q.preyMf.1 * q.preyMf.2 ≤ maxKeys) (k3 : n * tasks ≤ maxKeys) :
    Succeeds plotPrey (runJobs jobs [keysFile]) := by
  have hgpu : ∀ d pre, Line.rm d pre ∉ jobPreyMfGpu 7 n tasks := by
    intro d pre hm; simp [jobPreyMfGpu, preyMf] at hm
  have hkept : ∀ f, Safe f → ∀ j ∈ jobs, Kept j f := by
    intro f hf j hj
    rcases List.mem_cons.1 (h.mem_iff.1 hj) with rfl | hj
    · exact kept_of_no_rm hgpu f
    · exact hf.kept hj
  rw [succeeds_loads _ _ plotPrey_loads]
  intro f hf
  obtain ⟨k, hk, hf⟩ := load_prey.1 hf
  have safe : Safe f := by
    apply safe_of_dir
    rcases hf with rfl | rfl | rfl <;> simp [rmList, preyPfFile, preyMfFile]
  have go : ∀ J, J ∈ jobPreyMfGpu 7 n tasks :: runAll q → (∀ gs, keysFile ∈ gs → f ∈ runShell J gs) →
      f ∈ runJobs jobs [keysFile] := fun J hJ hw =>
    runJobs_writes (h.mem_iff.2 hJ) (by simp) (hkept _ safe_keys) (hkept _ safe) hw
  rcases hf with hf | hf | hf
  · refine go (jobPreyPf q.preyPf.1 q.preyPf.2) (by simp [runAll]) fun gs hg => ?_
    rw [hf]
    refine task_writes (preyPfFile "tme_2") q.preyPf.1 q.preyPf.2 ?_ ?_ k1 (by omega) hg
    · intro t ht; exact List.mem_map.2 ⟨t, List.mem_range.2 ht, rfl⟩
    · intro d pre hm; simp [jobPreyPf] at hm
  · refine go (jobPreyMf q.preyMf.1 q.preyMf.2) (by simp [runAll]) fun gs hg => ?_
    rw [hf]
    refine task_writes (preyMfFile "central" "tme_2" 5) q.preyMf.1 q.preyMf.2 ?_ ?_ k2 (by omega) hg
    · intro t ht; exact List.mem_flatMap.2 ⟨t, List.mem_range.2 ht, by simp [preyMf]⟩
    · intro d pre hm; simp [jobPreyMf, preyMf] at hm
  · refine go (jobPreyMfGpu 7 n tasks) (by simp) fun gs hg => ?_
    rw [hf]
    refine task_writes (preyMfFile "central" "tme_2" 7) n tasks ?_ hgpu k3 (by omega) hg
    intro t ht; exact List.mem_map.2 ⟨t, List.mem_range.2 ht, rfl⟩

example : ¬ Succeeds plotPrey (runJobs (runAll defaults) [keysFile]) := C202_prey_refuted (List.Perm.refl _)

example : Succeeds plotPrey (runJobs (jobPreyMfGpu 7 100 100 :: runAll defaults) [keysFile]) :=
  C202_prey_partial (List.Perm.refl _) (by simp [defaults]) (by simp [defaults]) (by simp) (by simp [defaults, maxKeys])
    (by simp [defaults, maxKeys]) (by simp [maxKeys])

/-! ## Figure 4 -/

theorem load_benes {f : Path} : Cmd.load f ∈ plotBenes ↔
    f = errsFile 2 2000 "central" "_normal" 15 ∨ (∃ N, 2 ≤ N ∧ N ≤ 15 ∧ f = timeMfFile "raw" N) ∨ f = timeGhfFile 11 ∨
      f = timePfFile 10000 := by
  simp only [plotBenes, List.mem_append, List.mem_map, List.mem_cons, List.not_mem_nil, or_false, Cmd.load.injEq, mem_orders]
  constructor
  · rintro ((rfl | ⟨N, hN, rfl⟩) | rfl | rfl)
    · exact Or.inl rfl
    · exact Or.inr (Or.inl ⟨N, hN.1, hN.2, rfl⟩)
    · exact Or.inr (Or.inr (Or.inl rfl))
    · exact Or.inr (Or.inr (Or.inr rfl))
  · rintro (rfl | ⟨N, h1, h2, rfl⟩ | rfl | rfl)
    · exact Or.inl (Or.inl rfl)
    · exact Or.inl (Or.inr ⟨N, ⟨h1, h2⟩, rfl⟩)
    · exact Or.inr (Or.inl rfl)
    · exact Or.inr (Or.inr rfl)

theorem plotBenes_loads : ∀ c ∈ plotBenes, ∃ f, c = Cmd.load f := by
  intro c hc
  simp only [plotBenes, List.mem_append, List.mem_map, List.mem_cons, List.not_mem_nil, or_false] at hc
  rcases hc with (rfl | ⟨N, _, rfl⟩) | rfl | rfl <;> exact ⟨_, rfl⟩

theorem errs_no_rm : ∀ d pre, Line.rm d pre ∉ jobErrs := by
  intro d pre hm; simp [jobErrs, computeErrs] at hm

/-- a script that takes `n` keys and writes a file. -/
theorem keysThenSave_writes {J : List Line} {n : ℕ} {f : Path} (hJ : keysThenSave n f ∈ J) (hn : n ≤ maxKeys)
    (hk : Kept J keysFile) (hf : Kept J f) {gs : List Path} (hg : keysFile ∈ gs) : f ∈ runShell J gs := by
  refine runShell_writes hJ hg hk ?_ (by simp) hf
  intro c hc
  rcases List.mem_append.1 hc with hc | hc
  · obtain ⟨k, hk, rfl⟩ := List.mem_map.1 hc
    exact ⟨by simp, lt_of_lt_of_le (List.mem_range.1 hk) hn⟩
  · simp at hc; subst hc; trivial

theorem C202_benes_long (h : jobs.Perm (runAll q)) (hbf : q.bf.1 * q.bf.2 ≤ maxKeys)
    (hk : q.ghfPf.1 * q.ghfPf.2 ≤ maxKeys) (hn : 1000 ≤ q.ghfPf.1 * q.ghfPf.2) :
    Succeeds plotBenes (runShell jobErrs (runJobs jobs [keysFile])) := by
  have hmax : (1000 : ℕ) ≤ maxKeys := by unfold maxKeys; omega
  -- the files of the three jobs
  have f1 : bfFile 2 2000 ∈ runJobs jobs [keysFile] := by
    have hs : Safe (bfFile 2 2000) := by
      intro r hr
      simp only [rmList, List.mem_cons, List.not_mem_nil, or_false] at hr
      rcases hr with rfl | rfl | rfl | rfl | rfl <;> simp [bfFile]
    refine writes_of h (J := jobBf q.bf.1 q.bf.2) (by simp [runAll]) hs fun gs hg => ?_
    refine part_writes bfRunFile (bfFile 2 2000) _ _ _ _ hg le_rfl hbf ?_
    intro d pre hm
    simp [bfPost] at hm
    simp [hm, bfFile]
  have f2 : ghfFile 11 3 ∈ runJobs jobs [keysFile] := by
    have hs : Safe (ghfFile 11 3) := safe_of_dir (by simp [rmList, ghfFile])
    have hJ : jobGhfPf q.ghfPf.1 q.ghfPf.2 ∈ runAll q := by simp [runAll]
    exact writes_of h hJ hs fun gs hg =>
      keysThenSave_writes (by simp [jobGhfPf]) hk (safe_keys.kept hJ) (hs.kept hJ) hg
  have f3 : bpfFile 2 2000 ∈ runJobs jobs [keysFile] := by
    have hs : Safe (bpfFile 2 2000) := by
      intro r hr
      simp only [rmList, List.mem_cons, List.not_mem_nil, or_false] at hr
      rcases hr with rfl | rfl | rfl | rfl | rfl <;> simp [bpfFile, dec_vals]
    have hJ : jobGhfPf q.ghfPf.1 q.ghfPf.2 ∈ runAll q := by simp [runAll]
    refine writes_of h hJ hs fun gs hg => ?_
    have e : jobGhfPf q.ghfPf.1 q.ghfPf.2 = [keysThenSave (q.ghfPf.1 * q.ghfPf.2) (ghfFile 11 3)] ++
        (bpfPart q.ghfPf.1 q.ghfPf.2 2 ++ bpfPart q.ghfPf.1 q.ghfPf.2 5) := rfl
    rw [e, runShell_append, runShell_append]
    refine runShell_kept _ ?_ fun d pre hm => hs.kept hJ d pre (by rw [e]; simp [hm])
    refine part_writes (bpfRunFile 2 2000) (bpfFile 2 2000) _ _ _ _ ?_ hn hmax ?_
    · exact runShell_kept _ hg fun d pre hm => by simp [keysThenSave] at hm
    · intro d pre hm
      simp at hm
      simp [hm, bpfFile, dec_vals]
  have f4 : ∀ k < 1000, bmfFile "central" "_normal" 15 k ∈ runJobs jobs [keysFile] := by
    intro k hk'
    have hs : Safe (bmfFile "central" "_normal" 15 k) := safe_of_dir (by simp [rmList, bmfFile])
    have hJ : jobBmf ∈ runAll q := by simp [runAll]
    refine writes_of h hJ hs fun gs hg => ?_
    refine runShell_writes (p := (List.range 1000).flatMap fun k => [.key k, .save (bmfFile "central" "_normal" 15 k)]) ?_ hg
      (safe_keys.kept hJ) ?_ (List.mem_flatMap.2 ⟨k, List.mem_range.2 hk', by simp⟩) (hs.kept hJ)
    · exact List.mem_flatMap.2 ⟨"central", by simp [modes], List.mem_flatMap.2 ⟨15, mem_orders.2 ⟨by norm_num, by norm_num⟩,
        by simp [bmf]⟩⟩
    · intro c hc
      obtain ⟨l, hl, hc⟩ := List.mem_flatMap.1 hc
      simp at hc
      rcases hc with rfl | rfl
      · exact ⟨by simp, lt_of_lt_of_le (List.mem_range.1 hl) hmax⟩
      · trivial
  have ft : ∀ f, keysThenSave 1000 f ∈ jobTimes → Safe f → f ∈ runJobs jobs [keysFile] := by
    intro f hf hs
    have hJ : jobTimes ∈ runAll q := by simp [runAll]
    exact writes_of h hJ hs fun gs hg => keysThenSave_writes hf hmax (safe_keys.kept hJ) (hs.kept hJ) hg
  have keep : ∀ f, f ∈ runJobs jobs [keysFile] → f ∈ runShell jobErrs (runJobs jobs [keysFile]) := fun f hf =>
    runShell_kept _ hf (kept_of_no_rm errs_no_rm f)
  rw [succeeds_loads _ _ plotBenes_loads]
  intro f hf
  rcases load_benes.1 hf with rfl | ⟨N, h2, h15, rfl⟩ | rfl | rfl
  · refine runShell_writes_ready (p := [.load (bfFile 2 2000), .load (ghfFile 11 3), .load (bpfFile 2 2000)] ++
      (List.range 1000).map (fun k => .load (bmfFile "central" "_normal" 15 k)) ++
        [.save (errsFile 2 2000 "central" "_normal" 15)]) ?_ errs_no_rm ?_ (by simp)
    · exact List.mem_flatMap.2 ⟨"central", by simp [modes], List.mem_flatMap.2 ⟨15, mem_orders.2 ⟨by norm_num, by norm_num⟩,
        by simp [computeErrs]⟩⟩
    · intro c hc
      simp only [List.mem_append, List.mem_cons, List.not_mem_nil, or_false, List.mem_map, List.mem_range] at hc
      rcases hc with ((rfl | rfl | rfl) | ⟨k, hk', rfl⟩) | rfl
      · exact f1
      · exact f2
      · exact f3
      · exact f4 k hk'
      · trivial
  · refine keep _ (ft _ ?_ (safe_of_dir (by simp [rmList, timeMfFile])))
    exact List.mem_append.2 (Or.inl (List.mem_map.2 ⟨N, mem_orders.2 ⟨h2, h15⟩, rfl⟩))
  · exact keep _ (ft _ (by simp [jobTimes]) (safe_of_dir (by simp [rmList, timeGhfFile])))
  · exact keep _ (ft _ (by simp [jobTimes]) (safe_of_dir (by simp [rmList, timePfFile])))

theorem C202_benes_short (h : jobs.Perm (runAll q)) (hn : q.ghfPf.1 * q.ghfPf.2 < 1000) :
    ¬ Succeeds plotBenes (runShell jobErrs (runJobs jobs [keysFile])) := by
  let Bad : Path → Prop := fun f => (∃ k, q.ghfPf.1 * q.ghfPf.2 ≤ k ∧ f = bpfRunFile 2 2000 k) ∨ f = bpfFile 2 2000
  have hdir : ∀ f, Bad f → f.dir = "results/benes_bernoulli_pf" := by
    rintro f (⟨k, _, rfl⟩ | rfl) <;> rfl
  have h1 : ∀ f, Bad f → f ∉ runJobs jobs [keysFile] := by
    refine runJobs_blocked jobs ?_ ?_
    · intro j hj p hp
      by_cases H : ∃ f, Bad f ∧ Cmd.save f ∈ p
      · obtain ⟨f, hf, hs⟩ := H
        rcases saved_bpf (h.mem_iff.1 hj) hp hs (hdir f hf) with ⟨b, hb, k, hk, e⟩ | ⟨b, hb, e, hp'⟩
        · exfalso
          rcases hf with ⟨l, hl, e'⟩ | e' <;> rw [e'] at e <;> rcases hb with rfl | rfl <;>
            simp [bpfRunFile, bpfFile, dec_vals, dec_eq_iff] at e
          omega
        · have hb2 : b = 2 := by
            rcases hb with rfl | rfl
            · rfl
            · exfalso
              rcases hf with ⟨l, hl, e'⟩ | e' <;> rw [e'] at e <;> simp [bpfRunFile, bpfFile, dec_vals] at e
          subst hb2
          have hmem : Cmd.load (bpfRunFile 2 2000 (q.ghfPf.1 * q.ghfPf.2)) ∈
              (List.range 1000).map (fun k => Cmd.load (bpfRunFile 2 2000 k)) :=
            List.mem_map.2 ⟨_, List.mem_range.2 hn, rfl⟩
          obtain ⟨a, c, hac⟩ := List.append_of_mem hmem
          refine Or.inr ⟨a, _, c ++ [Cmd.save (bpfFile 2 2000)], ?_, Or.inl ⟨_, le_rfl, rfl⟩, ?_⟩
          · rw [hp', hac]; simp
          · intro g _ hg
            have : Cmd.save g ∈ (List.range 1000).map (fun k => Cmd.load (bpfRunFile 2 2000 k)) := by
              rw [hac]; simp [hg]
            obtain ⟨k, _, hk⟩ := List.mem_map.1 this
            simp at hk
      · exact Or.inl fun f hf hs => H ⟨f, hf, hs⟩
    · intro f hf hm
      have := hdir f hf
      simp at hm; subst hm
      simp [keysFile] at this
  have h2 : errsFile 2 2000 "central" "_normal" 15 ∉ runJobs jobs [keysFile] := by
    intro hm
    have h1 := saved_cases (saved_of h hm (by simp [errsFile]))
    simp [convMfFile, convPfRunFile, convPfFile, bfRunFile, bfFile, bmfFile, ghfFile, bpfRunFile, bpfFile, estGhFile,
      estEkfFile, estMfFile, estPfFile, preyGhfFile, preyMfFile, preyPfFile, timeMfFile, timeGhfFile, timePfFile,
      errsFile] at h1
  let Bad2 : Path → Prop := fun f => f = bpfFile 2 2000 ∨ f = errsFile 2 2000 "central" "_normal" 15
  have h3 : ∀ f, Bad2 f → f ∉ runShell jobErrs (runJobs jobs [keysFile]) := by
    refine runShell_blocked jobErrs ?_ ?_
    · intro p hp
      have main : ∀ b mode t N, Line.python p = computeErrs b mode t N 1000 → (b = 2 ∨ b = 5) → Blocked Bad2 p := by
        intro b mode t N e hb
        rw [computeErrs, Line.python.injEq] at e
        rcases hb with rfl | rfl
        · refine Or.inr ⟨[.load (bfFile 2 2000), .load (ghfFile 11 3)], bpfFile 2 2000, _, by rw [e]; rfl, Or.inl rfl, ?_⟩
          intro f _ hs; simp at hs
        · refine Or.inl fun f hf hs => ?_
          rw [e] at hs
          simp at hs
          rcases hf with rfl | rfl <;> simp [bpfFile, errsFile, dec_vals] at hs
      obtain ⟨mode, _, hp⟩ := List.mem_flatMap.1 hp
      obtain ⟨N, _, hp⟩ := List.mem_flatMap.1 hp
      simp only [List.mem_cons, List.not_mem_nil, or_false] at hp
      rcases hp with e | e | e | e
      · exact main 2 mode _ N e (Or.inl rfl)
      · exact main 2 mode _ N e (Or.inl rfl)
      · exact main 5 mode _ N e (Or.inr rfl)
      · exact main 5 mode _ N e (Or.inr rfl)
    · rintro f (rfl | rfl)
      · exact h1 _ (Or.inr rfl)
      · exact h2
  rw [succeeds_loads _ _ plotBenes_loads]
  intro hl
  exact h3 _ (Or.inr rfl) (hl _ (load_benes.2 (Or.inl rfl)))

/-- **Figure 4.** After the jobs of `run_all.sh`, in any order, and then `run_benes_bernoulli_compute_errs.sh`, the script of the figure finds its files if and
only if `run_benes_bernoulli_ghf_pf.sh` makes at least `1000` runs: it calls its post-processing without the number of runs, which then looks for the default
of `1000`. (No script has more runs than there are keys.) -/
theorem C202_benes (h : jobs.Perm (runAll q)) (hbf : q.bf.1 * q.bf.2 ≤ maxKeys) (hk : q.ghfPf.1 * q.ghfPf.2 ≤ maxKeys) :
    Succeeds plotBenes (runShell jobErrs (runJobs jobs [keysFile])) ↔ 1000 ≤ q.ghfPf.1 * q.ghfPf.2 :=
  ⟨fun hs => by by_contra hn; exact C202_benes_short h (by omega) hs, C202_benes_long h hbf hk⟩

/-- Without the last script the figure fails. -/
theorem C202_benes_order (h : jobs.Perm (runAll q)) : ¬ Succeeds plotBenes (runJobs jobs [keysFile]) := by
  rw [succeeds_loads _ _ plotBenes_loads]
  intro hl
  have h1 := saved_cases (saved_of h (hl _ (load_benes.2 (Or.inl rfl))) (by simp [errsFile]))
  simp [convMfFile, convPfRunFile, convPfFile, bfRunFile, bfFile, bmfFile, ghfFile, bpfRunFile, bpfFile, estGhFile,
    estEkfFile, estMfFile, estPfFile, preyGhfFile, preyMfFile, preyPfFile, timeMfFile, timeGhfFile, timePfFile,
    errsFile] at h1

example : Succeeds plotBenes (runShell jobErrs (runJobs (runAll defaults) [keysFile])) :=
  (C202_benes (List.Perm.refl _) (by simp [defaults, maxKeys]) (by simp [defaults, maxKeys])).2 (by simp [defaults])

/-- With a hundred runs in each script of the Benes--Bernoulli experiment, as a user with a small computer would choose, the figure fails. -/
example : ¬ Succeeds plotBenes (runShell jobErrs
    (runJobs (runAll { defaults with bf := (10, 10), ghfPf := (10, 10) }) [keysFile])) :=
  fun hs => by
    have := (C202_benes (List.Perm.refl _) (by simp [maxKeys]) (by simp [maxKeys])).1 hs
    simp at this

end Mfs.Props

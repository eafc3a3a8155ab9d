import Verif.Model.JobFiles
import Mathlib.Data.Nat.Digits.Lemmas
import Mathlib.Tactic.IntervalCases
import Mathlib.Tactic.NormNum
import Mathlib.Tactic.Ring

/-! # Lemmas on the programs of `Verif.Model.JobFiles` -/

namespace Mfs.JobFiles

/-! ## Decimal numbers -/

/-- the number that a list of decimal digits stands for. -/
def decVal (l : List Char) : ℕ := Nat.ofDigits 10 (l.reverse.map fun c => c.toNat - 48)

theorem decVal_dec (n : ℕ) : decVal (dec n) = n := by
  unfold decVal dec
  split
  · next h => subst h; decide
  · have hd : ((Nat.digits 10 n).map ((fun c : Char => c.toNat - 48) ∘ Nat.digitChar)) = Nat.digits 10 n := by
      conv_rhs => rw [← List.map_id (Nat.digits 10 n)]
      apply List.map_congr_left
      intro d hd
      have hlt : d < 10 := Nat.digits_lt_base (by norm_num) hd
      interval_cases d <;> rfl
    rw [← List.map_reverse, List.reverse_reverse, List.map_map, hd, Nat.ofDigits_digits]

theorem dec_inj : Function.Injective dec := fun a b h => by
  rw [← decVal_dec a, ← decVal_dec b, h]

theorem dec_eq_iff {a b : ℕ} : dec a = dec b ↔ a = b := dec_inj.eq_iff

/-! ## Loops -/

theorem runs_eq (par seq : ℕ) : runs par seq = List.range (par * seq) := by
  unfold runs
  induction seq with
  | zero => simp
  | succ s ih =>
    rw [List.range_succ, List.flatMap_append, ih, Nat.mul_succ, List.range_add]
    simp [Nat.mul_comm]

theorem taskRuns_eq (n t : ℕ) : taskRuns n t = (List.range n).map fun j => t * n + j := by
  unfold taskRuns
  have h : ((t : ℤ) * n + n - 1 + 1 - t * n).toNat = n := by
    have : ((t : ℤ) * n + n - 1 + 1 - t * n) = n := by ring
    rw [this]; simp
  simp only [h]
  apply List.map_congr_left
  intro j _
  have : ((t : ℤ) * n + j) = ((t * n + j : ℕ) : ℤ) := by push_cast; ring
  rw [this, Int.toNat_natCast]

theorem tasks_eq (n tasks : ℕ) : (List.range tasks).flatMap (taskRuns n) = List.range (n * tasks) := by
  rw [← runs_eq]
  unfold runs
  congr 1
  funext t
  exact taskRuns_eq n t

theorem mem_tasks (n tasks k : ℕ) : (∃ t < tasks, k ∈ taskRuns n t) ↔ k < n * tasks := by
  rw [← List.mem_range, ← tasks_eq]
  simp [List.mem_flatMap]

theorem mem_orders {N : ℕ} : N ∈ orders ↔ 2 ≤ N ∧ N ≤ 15 := by
  simp only [orders, List.mem_map, List.mem_range]
  constructor
  · rintro ⟨a, h, rfl⟩; omega
  · rintro ⟨h1, h2⟩; exact ⟨N - 2, by omega, by omega⟩

/-! ## Programs -/

/-- what a command needs from the store before the program starts. -/
def Cmd.Ready (fs : List Path) : Cmd → Prop
  | .load f => f ∈ fs
  | .save _ => True
  | .key k => keysFile ∈ fs ∧ k < maxKeys

theorem Cmd.Ready.mono {fs gs : List Path} (h : fs ⊆ gs) {c : Cmd} (hc : c.Ready fs) : c.Ready gs := by
  cases c with
  | load f => exact h hc
  | save f => trivial
  | key k => exact ⟨h hc.1, hc.2⟩

theorem runProg_mono (p : List Cmd) : ∀ fs : List Path, fs ⊆ (runProg p fs).1 := by
  induction p with
  | nil => intro fs; simp [runProg]
  | cons c p ih =>
    intro fs
    cases c with
    | load f => simp only [runProg]; split; exact ih fs; simp
    | save f => simp only [runProg]; exact fun x hx => ih _ (List.mem_cons_of_mem _ hx)
    | key k => simp only [runProg]; split; exact ih fs; simp

theorem runProg_sub (p : List Cmd) : ∀ (fs : List Path) (f : Path), f ∈ (runProg p fs).1 → f ∈ fs ∨ Cmd.save f ∈ p := by
  induction p with
  | nil => intro fs f h; exact Or.inl (by simpa [runProg] using h)
  | cons c p ih =>
    intro fs f
    cases c with
    | load g =>
      simp only [runProg]; split
      · intro h; rcases ih fs f h with h | h
        · exact Or.inl h
        · exact Or.inr (List.mem_cons_of_mem _ h)
      · intro h; exact Or.inl h
    | save g =>
      simp only [runProg]
      intro h; rcases ih _ f h with h | h
      · rcases List.mem_cons.1 h with h | h
        · subst h; exact Or.inr (by simp)
        · exact Or.inl h
      · exact Or.inr (List.mem_cons_of_mem _ h)
    | key k =>
      simp only [runProg]; split
      · intro h; rcases ih fs f h with h | h
        · exact Or.inl h
        · exact Or.inr (List.mem_cons_of_mem _ h)
      · intro h; exact Or.inl h

theorem runProg_ok (p : List Cmd) : ∀ (fs : List Path), (∀ c ∈ p, c.Ready fs) →
    (runProg p fs).2 = true ∧ ∀ f, Cmd.save f ∈ p → f ∈ (runProg p fs).1 := by
  induction p with
  | nil => intro fs _; simp [runProg]
  | cons c p ih =>
    intro fs h
    have hc := h c (by simp)
    have hp : ∀ c ∈ p, c.Ready fs := fun c hc => h c (List.mem_cons_of_mem _ hc)
    cases c with
    | load g =>
      have hg : g ∈ fs := hc
      simp only [runProg, hg, if_true]
      refine ⟨(ih fs hp).1, fun f hf => (ih fs hp).2 f (by simpa using hf)⟩
    | save g =>
      have hp' : ∀ c ∈ p, c.Ready (g :: fs) := fun c hc => (hp c hc).mono (by simp)
      simp only [runProg]
      refine ⟨(ih _ hp').1, fun f hf => ?_⟩
      rcases List.mem_cons.1 hf with hf | hf
      · injection hf with hf; subst hf
        exact runProg_mono p _ (by simp)
      · exact (ih _ hp').2 f hf
    | key k =>
      have hk : keysFile ∈ fs ∧ k < maxKeys := hc
      simp only [runProg, hk, and_self, if_true]
      refine ⟨(ih fs hp).1, fun f hf => (ih fs hp).2 f (by simpa using hf)⟩

/-- a program without `save`s comes to its end if and only if everything it needs is there. -/
theorem succeeds_loads (p : List Cmd) (fs : List Path) (hs : ∀ c ∈ p, ∃ f, c = Cmd.load f) :
    Succeeds p fs ↔ ∀ f, Cmd.load f ∈ p → f ∈ fs := by
  constructor
  · induction p with
    | nil => intro _ f h; simp at h
    | cons c p ih =>
      obtain ⟨g, rfl⟩ := hs c (by simp)
      intro h f hf
      simp only [Succeeds, runProg] at h
      split at h
      · next hg =>
        rcases List.mem_cons.1 hf with hf | hf
        · injection hf with hf; subst hf; exact hg
        · exact ih (fun c hc => hs c (List.mem_cons_of_mem _ hc)) h f hf
      · simp at h
  · intro h
    refine (runProg_ok p fs ?_).1
    intro c hc
    obtain ⟨f, rfl⟩ := hs c hc
    exact h f hc

/-! ## Shell scripts -/

/-- no line of the script removes the file. -/
def Kept (j : List Line) (f : Path) : Prop := ∀ d pre, Line.rm d pre ∈ j → ¬ (f.dir = d ∧ pre <+: f.base)

theorem runLine_kept {l : Line} {f : Path} {fs : List Path} (hf : f ∈ fs)
    (h : ∀ d pre, l = Line.rm d pre → ¬ (f.dir = d ∧ pre <+: f.base)) : f ∈ runLine fs l := by
  cases l with
  | python p => exact runProg_mono p fs hf
  | rm d pre =>
    simp only [runLine, List.mem_filter]
    exact ⟨hf, decide_eq_true (h d pre rfl)⟩

theorem runShell_kept (j : List Line) : ∀ {f : Path} {fs : List Path}, f ∈ fs → Kept j f → f ∈ runShell j fs := by
  induction j with
  | nil => intro f fs hf _; exact hf
  | cons l j ih =>
    intro f fs hf h
    exact ih (runLine_kept hf fun d pre e => h d pre (by simp [e])) fun d pre hm => h d pre (List.mem_cons_of_mem _ hm)

theorem runShell_append (a b : List Line) (fs : List Path) : runShell (a ++ b) fs = runShell b (runShell a fs) := by
  simp [runShell, List.foldl_append]

theorem runShell_sub (j : List Line) : ∀ {f : Path} {fs : List Path}, f ∈ runShell j fs →
    f ∈ fs ∨ ∃ p, Line.python p ∈ j ∧ Cmd.save f ∈ p := by
  induction j with
  | nil => intro f fs h; exact Or.inl h
  | cons l j ih =>
    intro f fs h
    rcases ih (fs := runLine fs l) h with h | ⟨p, hp, hs⟩
    · cases l with
      | python p =>
        rcases runProg_sub p fs f h with h | h
        · exact Or.inl h
        · exact Or.inr ⟨p, by simp, h⟩
      | rm d pre => exact Or.inl (List.mem_of_mem_filter h)
    · exact Or.inr ⟨p, List.mem_cons_of_mem _ hp, hs⟩

/-- a program that needs only its keys writes its files. -/
theorem runShell_writes {j : List Line} {p : List Cmd} (hp : Line.python p ∈ j)
    {fs : List Path} (hk : keysFile ∈ fs) (hj : Kept j keysFile)
    (hr : ∀ c ∈ p, c.Ready [keysFile]) {f : Path} (hs : Cmd.save f ∈ p) (hf : Kept j f) : f ∈ runShell j fs := by
  obtain ⟨a, b, rfl⟩ := List.append_of_mem hp
  rw [runShell_append]
  have h1 : keysFile ∈ runShell a fs := runShell_kept a hk fun d pre hm => hj d pre (by simp [hm])
  have h2 : f ∈ runLine (runShell a fs) (.python p) :=
    (runProg_ok p _ fun c hc => (hr c hc).mono (by simpa using h1)).2 f hs
  exact runShell_kept b h2 fun d pre hm => hf d pre (by simp [hm])

theorem runJobs_sub (jobs : List (List Line)) : ∀ {f : Path} {fs : List Path}, f ∈ runJobs jobs fs →
    f ∈ fs ∨ ∃ j ∈ jobs, ∃ p, Line.python p ∈ j ∧ Cmd.save f ∈ p := by
  induction jobs with
  | nil => intro f fs h; exact Or.inl h
  | cons j jobs ih =>
    intro f fs h
    rcases ih (fs := runShell j fs) h with h | ⟨j', hj', h⟩
    · rcases runShell_sub j h with h | h
      · exact Or.inl h
      · exact Or.inr ⟨j, by simp, h⟩
    · exact Or.inr ⟨j', List.mem_cons_of_mem _ hj', h⟩

theorem runJobs_kept (jobs : List (List Line)) : ∀ {f : Path} {fs : List Path}, f ∈ fs → (∀ j ∈ jobs, Kept j f) →
    f ∈ runJobs jobs fs := by
  induction jobs with
  | nil => intro f fs h _; exact h
  | cons j jobs ih =>
    intro f fs h hk
    exact ih (runShell_kept j h (hk j (by simp))) fun j' hj' => hk j' (List.mem_cons_of_mem _ hj')

/-- a file that one of the jobs writes and none removes. -/
theorem runJobs_writes {jobs : List (List Line)} {J : List Line} (hJ : J ∈ jobs) {f : Path} {fs : List Path}
    (hk : keysFile ∈ fs) (h1 : ∀ j ∈ jobs, Kept j keysFile) (h2 : ∀ j ∈ jobs, Kept j f)
    (hw : ∀ gs, keysFile ∈ gs → f ∈ runShell J gs) : f ∈ runJobs jobs fs := by
  obtain ⟨a, b, rfl⟩ := List.append_of_mem hJ
  have e : runJobs (a ++ J :: b) fs = runJobs b (runShell J (runJobs a fs)) := by
    simp [runJobs, List.foldl_append]
  rw [e]
  refine runJobs_kept b (hw _ (runJobs_kept a hk fun j hj => h1 j (by simp [hj]))) fun j hj => h2 j (by simp [hj])

/-! ## What the jobs remove -/

theorem dec_vals : dec 2 = ['2'] ∧ dec 5 = ['5'] ∧ dec 7 = ['7'] ∧ dec 10000 = "10000".toList ∧
    dec 100000 = "100000".toList ∧ dec 2000 = "2000".toList ∧ dec 11 = "11".toList ∧ dec 3 = ['3'] := by
  refine ⟨?_, ?_, ?_, ?_, ?_, ?_, ?_, ?_⟩ <;> simp [dec]

/-- the patterns given to `rm`. -/
def rmList : List (String × List Char) :=
  [("results/convergence", "pf_10000_mc_".toList), ("results/convergence", "pf_100000_mc_".toList),
    ("results/benes_bernoulli_brute_force", "mc_".toList), ("results/benes_bernoulli_pf", "b_2_m_2000_mc_".toList),
    ("results/benes_bernoulli_pf", "b_5_m_2000_mc_".toList)]

theorem rm_mem {q : Params} {j : List Line} (hj : j ∈ runAll q) {d : String} {pre : List Char}
    (h : Line.rm d pre ∈ j) : (d, pre) ∈ rmList := by
  have e := dec_vals
  simp only [runAll, List.mem_cons, List.not_mem_nil, or_false] at hj
  rcases hj with rfl | rfl | rfl | rfl | rfl | rfl | rfl | rfl | rfl | rfl | rfl | rfl | rfl
  · simp [jobConvMf, keysThenSave] at h
  · simp [jobConvPf, convPfPart, e] at h
    rcases h with ⟨rfl, rfl⟩ | ⟨rfl, rfl⟩ <;> simp [rmList]
  · simp [jobBf, bfPost] at h
    obtain ⟨rfl, rfl⟩ := h; simp [rmList]
  · simp [jobBmf, bmf] at h
  · simp [jobGhfPf, bpfPart, keysThenSave, e] at h
    rcases h with ⟨rfl, rfl⟩ | ⟨rfl, rfl⟩ <;> simp [rmList]
  · simp [jobEstGhf] at h
  · simp [jobEstMf] at h
  · simp [jobEstPf] at h
  · simp [jobEstPf] at h
  · simp [jobPreyGhf] at h
  · simp [jobPreyMf, preyMf] at h
  · simp [jobPreyPf] at h
  · simp [jobTimes, keysThenSave] at h

/-- a file that no pattern matches. -/
def Safe (f : Path) : Prop := ∀ r ∈ rmList, ¬ (f.dir = r.1 ∧ r.2 <+: f.base)

theorem Safe.kept {f : Path} (h : Safe f) {q : Params} {j : List Line} (hj : j ∈ runAll q) : Kept j f :=
  fun _ _ hm => h _ (rm_mem hj hm)

theorem safe_keys : Safe keysFile := by
  intro r hr; simp [rmList] at hr; rcases hr with rfl | rfl | rfl | rfl | rfl <;> simp [keysFile]

/-! ## What the jobs write -/

theorem kept_of_no_rm {j : List Line} (h : ∀ d pre, Line.rm d pre ∉ j) (f : Path) : Kept j f :=
  fun d pre hm => (h d pre hm).elim

/-- the loop of the runs of a part of a script writes the files of all runs whose key exists. -/
theorem loop_writes (F : ℕ → Path) (par seq : ℕ) {fs : List Path} (hk : keysFile ∈ fs) {k : ℕ} (h : k < par * seq)
    (hkey : k < maxKeys) :
    F k ∈ runShell ((runs par seq).map fun k => Line.python [.key k, .save (F k)]) fs := by
  have hno : ∀ d pre, Line.rm d pre ∉ (runs par seq).map fun k => Line.python [.key k, .save (F k)] := by
    intro d pre hm; simp at hm
  refine runShell_writes (p := [.key k, .save (F k)]) ?_ hk (kept_of_no_rm hno _) ?_ (by simp) (kept_of_no_rm hno _)
  · rw [runs_eq]; exact List.mem_map.2 ⟨k, by simpa using h, rfl⟩
  · intro c hc; simp at hc
    rcases hc with rfl | rfl
    · exact ⟨by simp, hkey⟩
    · trivial

/-- a loop of runs, then a script that loads `m` of their files and writes `g`. -/
theorem part_writes (F : ℕ → Path) (g : Path) (par seq m : ℕ) (rest : List Line) {fs : List Path} (hk : keysFile ∈ fs)
    (hm : m ≤ par * seq) (hkey : m ≤ maxKeys) (hrest : Kept rest g) :
    g ∈ runShell (((runs par seq).map fun k => Line.python [.key k, .save (F k)]) ++
      (.python ((List.range m).map (fun k => .load (F k)) ++ [.save g]) :: rest)) fs := by
  rw [runShell_append]
  refine runShell_kept rest (fs := runLine _ _) ?_ hrest
  refine (runProg_ok _ _ ?_).2 g (by simp)
  intro c hc
  simp at hc
  rcases hc with ⟨k, hk', rfl⟩ | rfl
  · exact loop_writes F par seq hk (by omega) (by omega)
  · trivial

/-! ## Files that are never written -/

/-- a program that writes none of the files `Bad`, or that loads one of them before it writes one. -/
def Blocked (Bad : Path → Prop) (p : List Cmd) : Prop :=
  (∀ f, Bad f → Cmd.save f ∉ p) ∨
    ∃ p1 g p2, p = p1 ++ Cmd.load g :: p2 ∧ Bad g ∧ ∀ f, Bad f → Cmd.save f ∉ p1

theorem runProg_append_load (p1 p2 : List Cmd) (g : Path) : ∀ fs : List Path, g ∉ fs → Cmd.save g ∉ p1 →
    runProg (p1 ++ Cmd.load g :: p2) fs = ((runProg p1 fs).1, false) := by
  induction p1 with
  | nil => intro fs h _; simp [runProg, h]
  | cons c p1 ih =>
    intro fs h hs
    have hs' : Cmd.save g ∉ p1 := fun hm => hs (List.mem_cons_of_mem _ hm)
    cases c with
    | load f => simp only [List.cons_append, runProg]; split; exact ih fs h hs'; rfl
    | save f =>
      simp only [List.cons_append, runProg]
      refine ih _ ?_ hs'
      intro hm
      rcases List.mem_cons.1 hm with e | hm
      · subst e; exact hs (by simp)
      · exact h hm
    | key k => simp only [List.cons_append, runProg]; split; exact ih fs h hs'; rfl

theorem runProg_blocked {Bad : Path → Prop} {p : List Cmd} (hp : Blocked Bad p) {fs : List Path}
    (h : ∀ f, Bad f → f ∉ fs) : ∀ f, Bad f → f ∉ (runProg p fs).1 := by
  intro f hf hm
  rcases hp with hp | ⟨p1, g, p2, rfl, hg, hp⟩
  · rcases runProg_sub p fs f hm with hm | hm
    · exact h f hf hm
    · exact hp f hf hm
  · rw [runProg_append_load p1 p2 g fs (h g hg) (hp g hg)] at hm
    rcases runProg_sub p1 fs f hm with hm | hm
    · exact h f hf hm
    · exact hp f hf hm

theorem runShell_blocked {Bad : Path → Prop} (j : List Line) : ∀ {fs : List Path},
    (∀ p, Line.python p ∈ j → Blocked Bad p) → (∀ f, Bad f → f ∉ fs) → ∀ f, Bad f → f ∉ runShell j fs := by
  induction j with
  | nil => intro fs _ h f hf; exact h f hf
  | cons l j ih =>
    intro fs hj h
    refine ih (fs := runLine fs l) (fun p hp => hj p (List.mem_cons_of_mem _ hp)) ?_
    cases l with
    | python p => exact runProg_blocked (hj p (by simp)) h
    | rm d pre => exact fun f hf hm => h f hf (List.mem_of_mem_filter hm)

theorem runJobs_blocked {Bad : Path → Prop} (jobs : List (List Line)) : ∀ {fs : List Path},
    (∀ j ∈ jobs, ∀ p, Line.python p ∈ j → Blocked Bad p) → (∀ f, Bad f → f ∉ fs) → ∀ f, Bad f → f ∉ runJobs jobs fs := by
  induction jobs with
  | nil => intro fs _ h f hf; exact h f hf
  | cons j jobs ih =>
    intro fs hj h
    exact ih (fun j' hj' => hj j' (List.mem_cons_of_mem _ hj')) (runShell_blocked j (hj j (by simp)) h)

/-! ## Everything that the jobs write -/

/-- the files that the jobs of `run_all.sh` may write. -/
theorem saved_cases {q : Params} {f : Path} (hx : ∃ j ∈ runAll q, ∃ p, Line.python p ∈ j ∧ Cmd.save f ∈ p) :
    (∃ mode N, f = convMfFile mode N) ∨ (∃ n k, f = convPfRunFile n k) ∨ (∃ n, f = convPfFile n) ∨
    (∃ k, f = bfRunFile k) ∨ (∃ b, f = bfFile b 2000) ∨ (∃ mode t N k, f = bmfFile mode t N k) ∨ f = ghfFile 11 3 ∨
    (∃ b k, f = bpfRunFile b 2000 k) ∨ (∃ b, f = bpfFile b 2000) ∨
    (∃ k < q.estGhf.1 * q.estGhf.2, f = estGhFile 11 k ∨ f = estEkfFile k) ∨
    (∃ k < q.estMf.1 * q.estMf.2, f = estMfFile 7 k) ∨
    (∃ k < q.estPf.1 * q.estPf.2, f = estPfFile false k) ∨
    (∃ k < q.estPfCr.1 * q.estPfCr.2, f = estPfFile true k) ∨
    (∃ k, f = preyGhfFile "tme_2" k) ∨
    (∃ k < q.preyMf.1 * q.preyMf.2, f = preyMfFile "central" "tme_normal_2" 5 k ∨ f = preyMfFile "central" "tme_2" 5 k) ∨
    (∃ k < q.preyPf.1 * q.preyPf.2, f = preyPfFile "tme_2" k) ∨
    (∃ N, f = timeMfFile "raw" N) ∨ f = timeGhfFile 11 ∨ f = timePfFile 10000 := by
  obtain ⟨j, hj, p, hp, hs⟩ := hx
  simp only [runAll, List.mem_cons, List.not_mem_nil, or_false] at hj
  rcases hj with rfl | rfl | rfl | rfl | rfl | rfl | rfl | rfl | rfl | rfl | rfl | rfl | rfl
  · simp [jobConvMf, keysThenSave] at hp
    obtain ⟨N, _, hp | hp⟩ := hp <;> rw [hp] at hs <;> simp at hs <;> exact Or.inl ⟨_, _, hs⟩
  · simp [jobConvPf, convPfPart] at hp
    rcases hp with ⟨k, _, rfl⟩ | rfl | ⟨k, _, rfl⟩ | rfl <;> simp at hs
    · exact Or.inr (Or.inl ⟨_, _, hs⟩)
    · exact Or.inr (Or.inr (Or.inl ⟨_, hs⟩))
    · exact Or.inr (Or.inl ⟨_, _, hs⟩)
    · exact Or.inr (Or.inr (Or.inl ⟨_, hs⟩))
  · simp [jobBf, bfPost] at hp
    iterate 3 right
    rcases hp with ⟨k, _, rfl⟩ | rfl | rfl <;> simp at hs
    · exact Or.inl ⟨_, hs⟩
    · exact Or.inr (Or.inl ⟨_, hs⟩)
    · exact Or.inr (Or.inl ⟨_, hs⟩)
  · simp [jobBmf, bmf] at hp
    iterate 5 right
    left
    obtain ⟨mode, _, N, _, hp | hp⟩ := hp <;> rw [hp] at hs <;> simp at hs <;> obtain ⟨k, _, hs⟩ := hs <;> exact ⟨_, _, _, _, hs⟩
  · simp [jobGhfPf, bpfPart, keysThenSave] at hp
    iterate 6 right
    rcases hp with hp | ⟨k, _, hp⟩ | hp | ⟨k, _, hp⟩ | hp <;> (first | rw [hp] at hs | rw [← hp] at hs) <;> simp at hs
    · exact Or.inl hs
    · exact Or.inr (Or.inl ⟨_, _, hs⟩)
    · exact Or.inr (Or.inr (Or.inl ⟨_, hs⟩))
    · exact Or.inr (Or.inl ⟨_, _, hs⟩)
    · exact Or.inr (Or.inr (Or.inl ⟨_, hs⟩))
  · simp [jobEstGhf, runs_eq] at hp
    iterate 9 right
    left
    obtain ⟨k, hk, rfl⟩ := hp
    simp at hs
    exact ⟨k, hk, hs⟩
  · simp [jobEstMf, runs_eq] at hp
    iterate 10 right
    left
    obtain ⟨k, hk, rfl⟩ := hp
    simp at hs
    exact ⟨k, hk, hs⟩
  · simp [jobEstPf, runs_eq] at hp
    iterate 11 right
    left
    obtain ⟨k, hk, rfl⟩ := hp
    simp at hs
    exact ⟨k, hk, hs⟩
  · simp [jobEstPf, runs_eq] at hp
    iterate 12 right
    left
    obtain ⟨k, hk, rfl⟩ := hp
    simp at hs
    exact ⟨k, hk, hs⟩
  · simp [jobPreyGhf] at hp
    iterate 13 right
    left
    rw [hp] at hs
    simp at hs
    obtain ⟨k, _, hs⟩ := hs
    exact ⟨k, hs⟩
  · simp [jobPreyMf, preyMf] at hp
    iterate 14 right
    left
    obtain ⟨t, ht, rfl | rfl⟩ := hp <;> simp at hs <;> obtain ⟨k, hk, rfl⟩ := hs
    · exact ⟨k, (mem_tasks _ _ k).1 ⟨t, ht, hk⟩, Or.inl rfl⟩
    · exact ⟨k, (mem_tasks _ _ k).1 ⟨t, ht, hk⟩, Or.inr rfl⟩
  · simp [jobPreyPf] at hp
    iterate 15 right
    left
    obtain ⟨t, ht, rfl⟩ := hp
    simp at hs
    obtain ⟨k, hk, rfl⟩ := hs
    exact ⟨k, (mem_tasks _ _ k).1 ⟨t, ht, hk⟩, rfl⟩
  · simp [jobTimes, keysThenSave] at hp
    iterate 16 right
    rcases hp with ⟨N, _, hp⟩ | hp | hp <;> (first | rw [hp] at hs | rw [← hp] at hs) <;> simp at hs
    · exact Or.inl ⟨N, hs⟩
    · exact Or.inr (Or.inl hs)
    · exact Or.inr (Or.inr hs)

/-- the programs that write to the folder of the particle filter of the Benes--Bernoulli model. -/
theorem saved_bpf {q : Params} {f : Path} {j : List Line} (hj : j ∈ runAll q) {p : List Cmd} (hp : Line.python p ∈ j)
    (hs : Cmd.save f ∈ p) (hd : f.dir = "results/benes_bernoulli_pf") :
    (∃ b, (b = 2 ∨ b = 5) ∧ ∃ k < q.ghfPf.1 * q.ghfPf.2, f = bpfRunFile b 2000 k) ∨
    ∃ b, (b = 2 ∨ b = 5) ∧ f = bpfFile b 2000 ∧
      p = (List.range 1000).map (fun k => Cmd.load (bpfRunFile b 2000 k)) ++ [Cmd.save (bpfFile b 2000)] := by
  by_cases hg : j = jobGhfPf q.ghfPf.1 q.ghfPf.2
  · rw [hg] at hp
    simp only [jobGhfPf, bpfPart, keysThenSave, runs_eq, List.mem_cons, List.mem_append, List.mem_map, List.mem_range,
      List.not_mem_nil, or_false, Line.python.injEq, reduceCtorEq] at hp
    rcases hp with hp | (⟨k, hk, hp⟩ | hp) | ⟨k, hk, hp⟩ | hp
    · rw [hp] at hs; simp at hs; rw [hs] at hd; simp [ghfFile] at hd
    · rw [← hp] at hs; simp at hs; exact Or.inl ⟨2, Or.inl rfl, k, hk, hs⟩
    · refine Or.inr ⟨2, Or.inl rfl, ?_, hp⟩; rw [hp] at hs; simpa using hs
    · rw [← hp] at hs; simp at hs; exact Or.inl ⟨5, Or.inr rfl, k, hk, hs⟩
    · refine Or.inr ⟨5, Or.inr rfl, ?_, hp⟩; rw [hp] at hs; simpa using hs
  · exfalso
    simp only [runAll, List.mem_cons, List.not_mem_nil, or_false] at hj
    rcases hj with rfl | rfl | rfl | rfl | rfl | rfl | rfl | rfl | rfl | rfl | rfl | rfl | rfl
    · simp [jobConvMf, keysThenSave] at hp
      obtain ⟨N, _, hp | hp⟩ := hp <;> rw [hp] at hs <;> simp at hs <;> rw [hs] at hd <;> simp [convMfFile] at hd
    · simp [jobConvPf, convPfPart] at hp
      rcases hp with ⟨k, _, rfl⟩ | rfl | ⟨k, _, rfl⟩ | rfl <;> simp at hs <;> rw [hs] at hd <;>
        simp [convPfFile, convPfRunFile] at hd
    · simp [jobBf, bfPost] at hp
      rcases hp with ⟨k, _, rfl⟩ | rfl | rfl <;> simp at hs <;> rw [hs] at hd <;> simp [bfFile, bfRunFile] at hd
    · simp [jobBmf, bmf] at hp
      obtain ⟨mode, _, N, _, hp | hp⟩ := hp <;> rw [hp] at hs <;> simp at hs <;> obtain ⟨k, _, hs⟩ := hs <;>
        rw [hs] at hd <;> simp [bmfFile] at hd
    · exact hg rfl
    · simp [jobEstGhf] at hp
      obtain ⟨k, hk, rfl⟩ := hp
      simp at hs
      rcases hs with rfl | rfl <;> simp [estGhFile, estEkfFile] at hd
    · simp [jobEstMf] at hp
      obtain ⟨k, hk, rfl⟩ := hp
      simp at hs
      subst hs; simp [estMfFile] at hd
    · simp [jobEstPf] at hp
      obtain ⟨k, hk, rfl⟩ := hp
      simp at hs
      subst hs; simp [estPfFile] at hd
    · simp [jobEstPf] at hp
      obtain ⟨k, hk, rfl⟩ := hp
      simp at hs
      subst hs; simp [estPfFile] at hd
    · simp [jobPreyGhf] at hp
      rw [hp] at hs
      simp at hs
      obtain ⟨k, _, hs⟩ := hs
      rw [hs] at hd; simp [preyGhfFile] at hd
    · simp [jobPreyMf, preyMf] at hp
      obtain ⟨t, ht, rfl | rfl⟩ := hp <;> simp at hs <;> obtain ⟨k, hk, rfl⟩ := hs <;> simp [preyMfFile] at hd
    · simp [jobPreyPf] at hp
      obtain ⟨t, ht, rfl⟩ := hp
      simp at hs
      obtain ⟨k, hk, rfl⟩ := hs
      simp [preyPfFile] at hd
    · simp [jobTimes, keysThenSave] at hp
      rcases hp with ⟨N, _, hp⟩ | hp | hp <;> (first | rw [hp] at hs | rw [← hp] at hs) <;> simp at hs <;>
        rw [hs] at hd <;> simp [timeMfFile, timeGhfFile, timePfFile] at hd

/-- a program of a script without `rm` whose files are there at the start writes its own. -/
theorem runShell_writes_ready {j : List Line} {p : List Cmd} (hp : Line.python p ∈ j) {fs : List Path}
    (hj : ∀ d pre, Line.rm d pre ∉ j) (hr : ∀ c ∈ p, c.Ready fs) {f : Path} (hs : Cmd.save f ∈ p) : f ∈ runShell j fs := by
  obtain ⟨a, b, rfl⟩ := List.append_of_mem hp
  rw [runShell_append]
  have h1 : fs ⊆ runShell a fs := fun g hg => runShell_kept a hg fun d pre hm => (hj d pre (by simp [hm])).elim
  have h2 : f ∈ runLine (runShell a fs) (.python p) := (runProg_ok p _ fun c hc => (hr c hc).mono h1).2 f hs
  exact runShell_kept b h2 fun d pre hm => (hj d pre (by simp [hm])).elim

end Mfs.JobFiles

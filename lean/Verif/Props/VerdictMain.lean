import Verif.Props.Verdict
import Verif.Props.Log
import Verif.Props.Main
/-!
# What a clean run of the process certifies (C78)

As in Props/Verdict, but from the outside only: command line, exit status, standard error, files.
-/
namespace Verif.Props
open Verif Verif.Spec Verif.Spec.Smt Verif.Spec.Ssa Verif.Proof Verif.Proof.CommandLine

theorem parsedEntries_kind {inputs : List Input} {files : List File} {e : Entry} (h : e ∈ parsedEntries inputs files) : ∃ n f, e = .parsed n f := by
  induction inputs generalizing files with
  | nil => simp [parsedEntries] at h
  | cons inp inps ih =>
    cases files with
    | nil => simp [parsedEntries] at h
    | cons f fs =>
      rw [parsedEntries, List.mem_cons] at h
      exact h.elim (fun h => ⟨_, _, h⟩) ih

theorem rulesEntries_expanded {outdir : Str} {N : Nat} : ∀ {rs : List Rule} {k : Nat}, Entry.expanded N ∉ rulesEntries outdir k rs
  | [], _ => by simp [rulesEntries]
  | r :: rs, k => by
    rw [rulesEntries, List.mem_append, not_or]
    refine ⟨?_, rulesEntries_expanded⟩
    rw [ruleEntries]
    cases generate r <;> simp

theorem rulesEntries_errors {outdir : Str} : ∀ {rs : List Rule} {k : Nat}, (∀ t, Entry.error t ∉ rulesEntries outdir k rs) ↔ ∀ r ∈ rs, ∃ s, generate r = .ok s
  | [], _ => by simp [rulesEntries]
  | r :: rs, k => by
    have ih := rulesEntries_errors (outdir := outdir) (rs := rs) (k := k + 1)
    constructor
    · intro h r' hr'
      rcases List.mem_cons.1 hr' with rfl | hr'
      · cases hg : generate r' with
        | ok s => exact ⟨s, rfl⟩
        | err e => exact absurd (by rw [rulesEntries, ruleEntries, hg]; simp) (h e.text)
        | panic => exact absurd hg (generate_ne_panic r')
      · exact ih.1 (fun t ht => h t (by rw [rulesEntries]; exact List.mem_append_right _ ht)) r' hr'
    · intro h t ht
      rw [rulesEntries, List.mem_append] at ht
      rcases ht with ht | ht
      · obtain ⟨s, hs⟩ := h r (by simp)
        rw [ruleEntries, hs] at ht
        simp at ht
      · exact ih.2 (fun r' hr' => h r' (by simp [hr'])) t ht

/-- C78, for the process.  Suppose the process exits with status 0 for a command line that names the directory `dir` and the files `files`, and its standard error is read as a list of
entries.  If no entry is an error, and a correct solver answers `unsat` for each of the files numbered below the number of expanded rules in the log, then all simple rules of the files, for
every choice of alternatives, are supported and valid.  If the variable names are legal SMT-LIB names this check succeeds exactly then. -/
theorem C78_process (u : GoVersion) (lib : GoLib) (hg : FollowsGo u lib) (opened : Nat → Str → Input) (ans : List (Str × Str) → Option Err) (prog : Str) (args : List Str)
    (dir : Str) (files : List Str) (hm : Means args dir files) (hn : ∀ f ∈ files, '\n' ∉ f) (ho : '\n' ∉ dir) (inputs : List Input) (hi : InputsFor opened files inputs)
    (h0 : (mainProcess lib opened ans prog args).status = 0) (cwd : List Str) (d : Disk) :
    ∃ entries N, readLog (mainProcess lib opened ans prog args).stderr = some entries ∧ Entry.expanded N ∈ entries ∧ (∀ M, Entry.expanded M ∈ entries → M = N) ∧
      let check := (∀ t, Entry.error t ∉ entries) ∧ AllUnsat cwd dir N (d.run (diskSteps cwd (mainProcess lib opened ans prog args).events))
      (check → Verified lib inputs) ∧
      ((∀ inp ∈ inputs, ∀ f, parseBytes lib inp.data = .ok f → ∀ r ∈ f.rules, Simple r → ∀ x ∈ ruleVars r, legalName x = true) → Verified lib inputs → check) := by
  cases inputs_unique hi (inputsOf_for opened files)
  rw [process_go hm] at h0 ⊢
  have hr : (runCmd lib ans dir (inputsOf opened files)).2 = .ok () := by
    revert h0
    generalize (runCmd lib ans dir (inputsOf opened files)).2 = x
    cases x <;> simp [exitStatus]
  have hnames : ∀ inp ∈ inputsOf opened files, '\n' ∉ inp.name := by
    intro inp hinp
    simp only [inputsOf, List.mem_map] at hinp
    obtain ⟨p, hp, rfl⟩ := hinp
    exact hn p.1 ((List.mem_zipIdx hp).2.2 ▸ List.getElem_mem _)
  obtain ⟨asts, hl, hlog⟩ := C58_success u lib hg ans dir (inputsOf opened files) hnames ho hr
  have hN : Event.expanded (verified asts).length ∈ (runCmd lib ans dir (inputsOf opened files)).1 := by
    obtain ⟨asts', hl', _, htr⟩ := run_ok (Prod.ext rfl hr : runCmd lib ans dir (inputsOf opened files) = ((runCmd lib ans dir (inputsOf opened files)).1, .ok ()))
    cases loads_unique hl hl'
    rw [htr]
    simp [allEvents]
  have herr : (∀ t, Entry.error t ∉ loadEntries (inputsOf opened files) asts ++ rulesEntries dir 0 (verified asts)) ↔
      ∀ e, Event.genError e ∉ (runCmd lib ans dir (inputsOf opened files)).1 := by
    rw [no_genError_iff hr hl, ← rulesEntries_errors (outdir := dir) (k := 0)]
    refine forall_congr' fun t => ?_
    rw [List.mem_append, not_or]
    refine and_iff_right ?_
    rw [loadEntries, List.mem_append, not_or]
    refine ⟨fun h => ?_, by simp⟩
    obtain ⟨_, _, e⟩ := parsedEntries_kind h
    cases e
  refine ⟨_, (verified asts).length, hlog, by simp [loadEntries], ?_, ?_, ?_⟩
  · intro M hM
    rw [List.mem_append, loadEntries, List.mem_append] at hM
    rcases hM with (h | h) | h
    · obtain ⟨_, _, e⟩ := parsedEntries_kind h
      cases e
    · simpa using h
    · exact absurd h rulesEntries_expanded
  · rintro ⟨h1, h2⟩
    exact clean_run hr (herr.1 h1) hN h2
  · intro hleg hv
    obtain ⟨h1, h2⟩ := (C78_exact lib ans cwd dir (inputsOf opened files) d hr hleg _ hN).2 hv
    exact ⟨herr.2 h1, h2⟩

/-- The hypotheses are met by the command line `-outdir out sub.rules` for the file with the rule `(Sub8 (Add8 x y) y) => x`. -/
example : FollowsGo asciiGo (refLib asciiGo) ∧ Means ["-outdir".toList, "out".toList, "sub.rules".toList] "out".toList ["sub.rules".toList] ∧
    InputsFor (fun _ _ => subInput) ["sub.rules".toList] [subInput] ∧
    (mainProcess (refLib asciiGo) (fun _ _ => subInput) cmdFine "ssarules".toList ["-outdir".toList, "out".toList, "sub.rules".toList]).status = 0 := by
  refine ⟨refLib_follows _, parse_means (by decide +kernel), ?_, by decide +kernel⟩
  intro i
  cases i with
  | zero => rfl
  | succ i => simp

end Verif.Props

import Verif.Proof.CommandLine
import Verif.Props.Log
import Verif.Props.Disk
/-!
# Properties of the process (C60)

`mainProcess lib opened ans prog args` is the program called with the name `prog` and the arguments `args`.
-/
namespace Verif.Props
open Verif Verif.Spec Verif.Proof Verif.Proof.CommandLine

/-! The example: one file, in a directory given in one of four ways. -/

def mainOpened : Nat → Str → Input := fun _ name => { name := name, data := utf8 "(And8 x x) => x\n".toList, openErr := if name.head? = some '-' then some (.other "no such file".toList) else none }
def mainRun (args : List Str) : Process := mainProcess demoLib mainOpened cmdFine "ssarules".toList args
def mainSeen (args : List Str) : List Str × Nat × Str := ((writesOf (mainRun args).events).map (·.1), (mainRun args).status, (mainRun args).stderr)

def mainLog : Str := "ssarules: parsed 1 rules from f\nssarules: parsed 1 rules total\nssarules: filter simple: 1 rules\nssarules: expand alternates: 1 rules\nssarules: rule: (And8 x x) => x\nssarules: smt2: written to o/0000.smt2\n".toList

theorem main_fine : mainSeen ["-outdir".toList, "p".toList, "--outdir=o".toList, "f".toList] = (["o/0000.smt2".toList], 0, mainLog) := by decide +kernel

theorem main_after : (mainSeen ["f".toList, "-outdir".toList, "o".toList]).1 = [] ∧ (mainSeen ["f".toList, "-outdir".toList, "o".toList]).2.1 = 1 := by
  constructor <;> decide +kernel

theorem main_wrong : mainSeen ["-outdir".toList, "p".toList, "-outdi".toList, "o".toList] =
    ([], 2, "flag provided but not defined: -outdi\nUsage of ssarules:\n  -outdir string\n    \toutput directory\n".toList) := by decide +kernel

/-! ## The command line -/

/-- C60.  A command line means one thing: it makes sense, in one way; or it asks for help; or it is wrong, for one reason. -/
theorem C60_one_meaning (args : List Str) :
    ((∃ dir files, Means args dir files ∧ (∀ dir' files', Means args dir' files' → dir' = dir ∧ files' = files)) ∧ ¬ HelpLine args ∧ ∀ t, ¬ WrongLine args t) ∨
    ((¬ ∃ dir files, Means args dir files) ∧ HelpLine args ∧ ∀ t, ¬ WrongLine args t) ∨
    ((¬ ∃ dir files, Means args dir files) ∧ ¬ HelpLine args ∧ ∃ t, WrongLine args t ∧ ∀ t', WrongLine args t' → t' = t) := by
  cases h : parseArgs [] args with
  | go dir files =>
    left
    refine ⟨⟨dir, files, parse_means h, ?_⟩, ?_, ?_⟩
    · intro dir' files' hm
      have := (means_parse hm).symm.trans h
      injection this with e1 e2
      exact ⟨e1, e2⟩
    · intro hh; rw [parse_asks.2 hh] at h; cases h
    · intro t ht; rw [parse_bad.2 ht] at h; cases h
  | help =>
    right; left
    refine ⟨?_, parse_asks.1 h, ?_⟩
    · rintro ⟨d, f, hm⟩; rw [means_parse hm] at h; cases h
    · intro t ht; rw [parse_bad.2 ht] at h; cases h
  | bad t =>
    right; right
    refine ⟨?_, ?_, t, parse_bad.1 h, ?_⟩
    · rintro ⟨d, f, hm⟩; rw [means_parse hm] at h; cases h
    · intro hh; rw [parse_asks.2 hh] at h; cases h
    · intro t' ht
      have := (parse_bad.2 ht).symm.trans h
      injection this

/-- The inputs the model makes of the file names. -/
def inputsOf (opened : Nat → Str → Input) (files : List Str) : List Input := (files.zipIdx).map fun p => { opened p.2 p.1 with name := p.1 }

theorem inputsOf_for (opened : Nat → Str → Input) (files : List Str) : InputsFor opened files (inputsOf opened files) := by
  intro i
  simp only [inputsOf, List.getElem?_map, List.getElem?_zipIdx]
  cases files[i]? <;> simp

theorem inputs_unique {opened files inputs inputs'} (h : InputsFor opened files inputs) (h' : InputsFor opened files inputs') : inputs = inputs' := by
  apply List.ext_getElem?
  intro i
  rw [h i, h' i]

theorem process_go {lib opened ans prog args dir files} (h : Means args dir files) :
    mainProcess lib opened ans prog args =
      ⟨(runCmd lib ans dir (inputsOf opened files)).1, exitStatus (runCmd lib ans dir (inputsOf opened files)).2, stderrText (runCmd lib ans dir (inputsOf opened files))⟩ := by
  rw [mainProcess, means_parse h]; rfl

theorem run_no_panic (lib : GoLib) (ans : List (Str × Str) → Option Err) (outdir : Str) (inputs : List Input) :
    (runCmd lib ans outdir inputs).2 = .ok () ∨ ∃ e, (runCmd lib ans outdir inputs).2 = .err e := by
  rcases C43_failure_modes lib ans outdir inputs with h | ⟨_, _, e, _, h⟩ | ⟨_, _, m, n, _, _, _, _, _, h⟩ | ⟨e, h, _⟩
  · exact .inl h
  · exact .inr ⟨_, h⟩
  · exact .inr ⟨_, h⟩
  · exact .inr ⟨_, h⟩

/-- C60.  If the command line makes sense, the process does with the directory and the files it names, in their order, what the other properties say about the command;
and it exits with 0 if that succeeds and with 1 if it fails. -/
theorem C60_runs (lib : GoLib) (opened : Nat → Str → Input) (ans : List (Str × Str) → Option Err) (prog : Str) (args : List Str) (dir : Str) (files : List Str)
    (h : Means args dir files) :
    ∃ inputs, InputsFor opened files inputs ∧ (mainProcess lib opened ans prog args).events = (runCmd lib ans dir inputs).1 ∧
      (mainProcess lib opened ans prog args).stderr = stderrText (runCmd lib ans dir inputs) ∧
      ((runCmd lib ans dir inputs).2 = .ok () ∧ (mainProcess lib opened ans prog args).status = 0 ∨
        ∃ e, (runCmd lib ans dir inputs).2 = .err e ∧ (mainProcess lib opened ans prog args).status = 1) := by
  refine ⟨inputsOf opened files, inputsOf_for opened files, ?_, ?_, ?_⟩
  · rw [process_go h]
  · rw [process_go h]
  · rw [process_go h]
    rcases run_no_panic lib ans dir (inputsOf opened files) with e | ⟨e, he⟩
    · exact .inl ⟨e, by rw [e]; rfl⟩
    · exact .inr ⟨e, he, by rw [he]; rfl⟩

/-- C60.  If the command line is wrong or asks for help, no file is read or written, and all there is on standard error is what is wrong and how the program is used. -/
theorem C60_refuses (lib : GoLib) (opened : Nat → Str → Input) (ans : List (Str × Str) → Option Err) (prog : Str) (args : List Str) :
    (∀ text, WrongLine args text → mainProcess lib opened ans prog args = ⟨[], 2, text ++ "\n".toList ++ usage prog⟩) ∧
    (HelpLine args → mainProcess lib opened ans prog args = ⟨[], 0, usage prog⟩) := by
  refine ⟨?_, ?_⟩
  · intro text h
    rw [mainProcess, parse_bad.2 h]
    show Process.mk _ _ _ = _
    congr 1
    rw [List.append_assoc]; rfl
  · intro h
    rw [mainProcess, parse_asks.2 h]
    rfl

/-- C60.  The exit status.  0: help was asked for, or everything went well; 1: the command line makes sense but a file does not load, a simple rule has alternations of
different sizes or a write fails; 2: the command line is wrong.  There is no other. -/
theorem C60_status (lib : GoLib) (opened : Nat → Str → Input) (ans : List (Str × Str) → Option Err) (prog : Str) (args : List Str) :
    ((mainProcess lib opened ans prog args).status = 0 ↔
      HelpLine args ∨ ∃ dir files inputs, Means args dir files ∧ InputsFor opened files inputs ∧
        (∃ asts, Loads lib inputs asts ∧ (∀ r ∈ simpleRules asts, Agree (ruleSizes r)) ∧ AllWritten ans (allEvents dir inputs asts))) ∧
    ((mainProcess lib opened ans prog args).status = 2 ↔ ∃ text, WrongLine args text) ∧
    (mainProcess lib opened ans prog args).status ≤ 2 := by
  cases hp : parseArgs [] args with
  | help =>
    have hh := parse_asks.1 hp
    have e := (C60_refuses lib opened ans prog args).2 hh
    rw [e]
    refine ⟨⟨fun _ => .inl hh, fun _ => rfl⟩, ⟨fun h => absurd h (by simp), ?_⟩, by simp⟩
    rintro ⟨t, ht⟩
    rw [parse_bad.2 ht] at hp; cases hp
  | bad t =>
    have hw := parse_bad.1 hp
    have e := (C60_refuses lib opened ans prog args).1 t hw
    rw [e]
    refine ⟨⟨fun h => absurd h (by simp), ?_⟩, ⟨fun _ => ⟨t, hw⟩, fun _ => rfl⟩, Nat.le_refl 2⟩
    rintro (h | ⟨dir, files, _, hm, _⟩)
    · rw [parse_asks.2 h] at hp; cases hp
    · rw [means_parse hm] at hp; cases hp
  | go dir files =>
    have hm := parse_means hp
    obtain ⟨inputs, hi, -, -, hs⟩ := C60_runs lib opened ans prog args dir files hm
    have hok : (runCmd lib ans dir inputs).2 = .ok () ↔
        ∃ asts, Loads lib inputs asts ∧ (∀ r ∈ simpleRules asts, Agree (ruleSizes r)) ∧ AllWritten ans (allEvents dir inputs asts) := by
      constructor
      · intro h
        apply Classical.byContradiction
        intro hn
        by_cases hl : ∃ asts, Loads lib inputs asts ∧ ∀ r ∈ simpleRules asts, Agree (ruleSizes r)
        · obtain ⟨asts, hl, ha⟩ := hl
          rcases run_loaded (ans := ans) (outdir := dir) hl ha with ⟨_, hw⟩ | ⟨p, n, s, rest, e, _, h2, _⟩
          · exact hn ⟨asts, hl, ha, hw⟩
          · rw [h2] at h; cases h
        · obtain ⟨_, e, he⟩ := C42_no_output lib ans dir inputs hl
          rw [he] at h; cases h
      · rintro ⟨asts, hl, ha, hw⟩
        rcases run_loaded (ans := ans) (outdir := dir) hl ha with ⟨e, _⟩ | ⟨p, n, s, rest, e, h1, h2, h3, _⟩
        · rw [e]
        · have := hw p n s rest h1
          rw [this] at h3; cases h3
    have h2 : ¬ ∃ text, WrongLine args text := by
      rintro ⟨t, ht⟩
      rw [parse_bad.2 ht] at hp; cases hp
    have h0 : ¬ HelpLine args := by
      intro h; rw [parse_asks.2 h] at hp; cases hp
    refine ⟨⟨?_, ?_⟩, ⟨?_, fun h => absurd h h2⟩, ?_⟩
    · intro h
      rcases hs with ⟨e, _⟩ | ⟨e, _, hst⟩
      · exact .inr ⟨dir, files, inputs, hm, hi, hok.1 e⟩
      · rw [hst] at h; cases h
    · rintro (h | ⟨dir', files', inputs', hm', hi', hl⟩)
      · exact absurd h h0
      · have := (means_parse hm').symm.trans hp
        injection this with e1 e2
        subst e1; subst e2
        cases inputs_unique hi hi'
        have := hok.2 hl
        rcases hs with ⟨_, hst⟩ | ⟨e, he, _⟩
        · exact hst
        · rw [he] at this; cases this
    · intro h
      rcases hs with ⟨_, hst⟩ | ⟨_, _, hst⟩ <;> · rw [hst] at h; cases h
    · rcases hs with ⟨_, hst⟩ | ⟨_, _, hst⟩ <;> rw [hst] <;> simp

/-- C60.  Whatever the process writes is the script of a rule of the files named on the command line and goes to the directory named there. -/
theorem C60_written (lib : GoLib) (opened : Nat → Str → Input) (ans : List (Str × Str) → Option Err) (prog : Str) (args : List Str) (cwd : List Str) (n s : Str)
    (h : (n, s) ∈ writesOf (mainProcess lib opened ans prog args).events) :
    ∃ dir files inputs asts i, Means args dir files ∧ InputsFor opened files inputs ∧ Loads lib inputs asts ∧ HasScript asts i s ∧
      IsScriptPlace cwd dir i (locate cwd n) := by
  cases hp : parseArgs [] args with
  | help => rw [(C60_refuses lib opened ans prog args).2 (parse_asks.1 hp)] at h; cases h
  | bad t => rw [(C60_refuses lib opened ans prog args).1 t (parse_bad.1 hp)] at h; cases h
  | go dir files =>
    have hm := parse_means hp
    obtain ⟨inputs, hi, he, -⟩ := C60_runs lib opened ans prog args dir files hm
    rw [he] at h
    obtain ⟨asts, hl, i, hs, hpl⟩ := C41_written_place lib ans cwd dir inputs n s h
    exact ⟨dir, files, inputs, asts, i, hm, hi, hl, hs, hpl⟩

theorem loads_opened {lib} : ∀ {inputs asts}, Loads lib inputs asts → ∀ inp ∈ inputs, inp.openErr = none
  | _, _, .nil, _, h => absurd h (by simp)
  | _, _, .cons h1 _ _ _ hl, inp, h => by
    rcases List.mem_cons.1 h with rfl | h
    · exact h1
    · exact loads_opened hl inp h

/-- C60.  Options come first: from the first argument on that is not an option, everything is the name of a file.  So if an option comes after a file, and there is no file with
that name, the process fails and writes nothing. -/
theorem C60_options_first (lib : GoLib) (opened : Nat → Str → Input) (ans : List (Str × Str) → Option Err) (prog : Str) (opts : List Str) (d f : Str) (more : List Str)
    (ho : Options opts d) (hf : ¬ IsOption f) (late : Str) (hlate : late ∈ more) (hno : ∀ i, (opened i late).openErr ≠ none) :
    (mainProcess lib opened ans prog (opts ++ f :: more)).status = 1 ∧ writesOf (mainProcess lib opened ans prog (opts ++ f :: more)).events = [] := by
  have hm : Means (opts ++ f :: more) d (f :: more) := .files ho (by intro s e; simp only [List.head?_cons, Option.some.injEq] at e; exact e ▸ hf)
  obtain ⟨inputs, hi, he, -, hs⟩ := C60_runs lib opened ans prog _ d _ hm
  have hn : ¬ ∃ asts, Loads lib inputs asts ∧ ∀ r ∈ simpleRules asts, Agree (ruleSizes r) := by
    rintro ⟨asts, hl, -⟩
    obtain ⟨i, hlt, hi'⟩ := List.getElem_of_mem (List.mem_cons_of_mem f hlate)
    have e := hi i
    rw [List.getElem?_eq_getElem hlt, hi'] at e
    rw [Option.map_some] at e
    have := loads_opened hl _ (List.mem_of_getElem? e)
    exact hno i this
  obtain ⟨h1, e, h2⟩ := C42_no_output lib ans d inputs hn
  refine ⟨?_, by rw [he]; exact h1⟩
  rcases hs with ⟨h, _⟩ | ⟨_, _, h⟩
  · rw [h] at h2; cases h2
  · exact h

/-! The hypotheses hold in the examples. -/

example : Means ["-outdir".toList, "p".toList, "--outdir=o".toList, "f".toList] "o".toList ["f".toList] :=
  .files (opts := ["-outdir".toList, "p".toList] ++ ["--outdir=o".toList]) (.more (.more .none (.next _)) (.same2 ['o']))
    (by intro s e; cases e; rintro ⟨c, t, h⟩; cases h)

example : WrongLine ["-outdir".toList, "p".toList, "-outdi".toList, "o".toList] "flag provided but not defined: -outdi".toList :=
  ⟨["-outdir".toList, "p".toList], "p".toList, _, rfl, .more .none (.next _),
    .unknown (name := "outdi".toList) (by unfold IsName; decide) (by decide) (by decide) (by decide) (.plain (dashes := ['-']) (.inl rfl))⟩

example : HelpLine ["--help=1".toList, "f".toList] :=
  ⟨[], [], _, rfl, .none, .help (name := "help".toList) (.inr rfl) (.value (dashes := ['-', '-']) (v := ['1']) (.inr rfl))⟩

/-- a file whose name looks like an option -/
example : Means ["--".toList, "-outdir".toList] [] ["-outdir".toList] := .dashes .none

example : ¬ IsOption "f".toList ∧ "-outdir".toList ∈ ["-outdir".toList, "o".toList] ∧ ∀ i, (mainOpened i "-outdir".toList).openErr ≠ none := by
  refine ⟨?_, by simp, ?_⟩
  · rintro ⟨c, t, h⟩; cases h
  · intro i h; cases h

end Verif.Props

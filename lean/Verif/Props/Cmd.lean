import Verif.Proof.Cmd
import Verif.Props.Parse
import Verif.Props.Smt2
/-!
# Properties of the command (C40–C46)

`runCmd lib ans outdir inputs` is the command: `inputs` gives for every argument what opening, reading and closing the file yields,
`ans` answers every write (an error or not) depending on all writes so far, so `∀ ans` ranges over all write-failure patterns.  The result
is the list of events and the error `run` returns.
-/
namespace Verif.Props
open Verif Verif.Spec Verif.Proof Verif.Spec.Ssa Verif.Spec.Smt

/-! The example: two files; five rules, the second of them not simple, the first with alternatives, the third unknown to the generator. -/

def cmdText1 : Str := "(Add(8|16) x y) => (Add(8|16) y x)\n(And8 x x) && c => x\n".toList
def cmdText2 : Str := "(Foo x) => x // not known\n(And8 x x) => x\n(Sub8 x y) => x\n".toList
def cmdInputs : List Input := [{ name := ['a'], data := utf8 cmdText1 }, { name := ['b'], data := utf8 cmdText2 }]
def cmdOut : Str := "out".toList
/-- all writes succeed -/
def cmdFine : List (Str × Str) → Option Err := fun _ => none
/-- the second write fails -/
def cmdFull : List (Str × Str) → Option Err := fun ws => if ws.length = 2 then some (.other "disk full".toList) else none

/-- the names written and whether the run succeeded -/
def cmdNames (r : List Event × Res Unit) : List Str × Option (Res Unit) := ((writesOf r.1).map (·.1), some r.2)

theorem cmd_fine : cmdNames (runCmd demoLib cmdFine cmdOut cmdInputs) =
    (["out/0000.smt2".toList, "out/0001.smt2".toList, "out/0003.smt2".toList, "out/0004.smt2".toList], some (.ok ())) := by decide +kernel

theorem cmd_full : cmdNames (runCmd demoLib cmdFull cmdOut cmdInputs) =
    (["out/0000.smt2".toList, "out/0001.smt2".toList], some (.err (.other "disk full".toList))) := by decide +kernel

/-! ## All runs -/

/-- A run that loads: what happens is all of `allEvents`, or the part up to the first failing write. -/
theorem run_loaded {lib ans outdir inputs files} (h : Loads lib inputs files) (ha : ∀ r ∈ simpleRules files, Agree (ruleSizes r)) :
    (runCmd lib ans outdir inputs = (allEvents outdir inputs files, .ok ()) ∧ AllWritten ans (allEvents outdir inputs files)) ∨
    ∃ p n s rest e, allEvents outdir inputs files = p ++ .write n s :: rest ∧ runCmd lib ans outdir inputs = (p ++ [.write n s], .err e) ∧
      ans (writesOf (p ++ [.write n s])) = some e ∧ AllWritten ans p := by
  have h0 : AllWritten ans (parsedEvents inputs files ++
      [.total (allRules files).length, .simple (simpleRules files).length, .expanded (verified files).length]) := by
    intro p n s rest he
    have : Event.write n s ∈ parsedEvents inputs files ++
      [.total (allRules files).length, .simple (simpleRules files).length, .expanded (verified files).length] := by rw [he]; simp
    have := mem_writesOf.2 this
    rw [writesOf_append, parsedEvents_writes] at this
    simp [writesOf] at this
  rw [runCmd, load_ok h ha]
  rcases genLoop_spec ans outdir (verified files) (verified_printable h) 0 _ h0 with ⟨e1, e2⟩ | ⟨p, n, s, rest, e, k1, k2, k3, k4⟩
  · left; exact ⟨e1, e2⟩
  · right
    exact ⟨_, n, s, rest, e, by rw [allEvents, k1]; simp, k2, k3, k4⟩

theorem run_not_loaded {lib ans outdir inputs} (h : ¬ ∃ files, Loads lib inputs files) :
    ∃ good inp rest files, inputs = good ++ inp :: rest ∧ Loads lib good files ∧ ∃ e, parseFile lib inp = .err e ∧
      runCmd lib ans outdir inputs = (parsedEvents good files, .err (.other ("parse: ".toList ++ e.text))) := by
  obtain ⟨good, inp, rest, files, h1, h2, e, h3, h4⟩ := parseAll_err h
  exact ⟨good, inp, rest, files, h1, h2, e, h3, by rw [runCmd, load, h4]⟩

theorem run_incompatible {lib ans outdir inputs files} (h : Loads lib inputs files) (ha : ¬ ∀ r ∈ simpleRules files, Agree (ruleSizes r)) :
    ∃ r ∈ simpleRules files, ∃ m ∈ ruleSizes r, ∃ n ∈ ruleSizes r, m ≠ n ∧
      runCmd lib ans outdir inputs = (parsedEvents inputs files ++ [.total (allRules files).length, .simple (simpleRules files).length],
        .err (.incompatible m n)) := by
  obtain ⟨r, hr, m, hm, n, hn, hne, e⟩ := load_incompatible h ha
  exact ⟨r, hr, m, hm, n, hn, hne, by rw [runCmd, e]⟩

theorem allEvents_writes (outdir inputs files) : writesOf (allEvents outdir inputs files) = writesOf (rulesEvents outdir 0 (verified files)) := by
  rw [allEvents, writesOf_append, writesOf_append, parsedEvents_writes]; simp [writesOf]

/-- What is written is always the beginning of what a run without failures writes; and something is written only if everything loads. -/
theorem run_writes {lib ans outdir inputs} (h : writesOf (runCmd lib ans outdir inputs).1 ≠ []) :
    ∃ files, Loads lib inputs files ∧ (∀ r ∈ simpleRules files, Agree (ruleSizes r)) ∧
      ∃ rest, allEvents outdir inputs files = (runCmd lib ans outdir inputs).1 ++ rest := by
  by_cases hl : ∃ files, Loads lib inputs files
  · obtain ⟨files, hl⟩ := hl
    by_cases ha : ∀ r ∈ simpleRules files, Agree (ruleSizes r)
    · refine ⟨files, hl, ha, ?_⟩
      rcases run_loaded (ans := ans) (outdir := outdir) hl ha with ⟨e, _⟩ | ⟨p, n, s, rest, e, h1, h2, _⟩
      · exact ⟨[], by rw [e]; simp⟩
      · exact ⟨rest, by rw [h2, h1]; simp⟩
    · obtain ⟨r, _, m, _, n, _, _, e⟩ := run_incompatible (ans := ans) (outdir := outdir) hl ha
      exfalso; apply h; rw [e, writesOf_append, parsedEvents_writes]; simp [writesOf]
  · obtain ⟨good, inp, rest, files, _, _, _, _, e⟩ := run_not_loaded (ans := ans) (outdir := outdir) hl
    exfalso; apply h; rw [e]; exact parsedEvents_writes _ _

theorem loads_unique {lib inputs files files'} (h : Loads lib inputs files) (h' : Loads lib inputs files') : files = files' := by
  induction h generalizing files' with
  | nil => cases h'; rfl
  | cons _ _ _ h4 _ ih =>
    cases h' with
    | cons _ _ _ k4 k5 =>
      rw [h4] at k4
      simp only [Res.ok.injEq] at k4
      rw [k4, ih k5]

/-! ## C40 -/

/-- C40.  In a successful run all inputs load, and the events are: the log of the parsed files; three log lines with the numbers of all,
simple and expanded rules; and then, for every expansion of every simple rule, in order, the log of the rule, and either the write of the
script the generator returns for it or the log of the generator's error.  Nothing else. -/
theorem C40_trace (lib : GoLib) (ans : List (Str × Str) → Option Err) (outdir : Str) (inputs : List Input) (tr : List Event)
    (h : runCmd lib ans outdir inputs = (tr, .ok ())) :
    ∃ files, Loads lib inputs files ∧ tr = allEvents outdir inputs files := by
  by_cases hl : ∃ files, Loads lib inputs files
  · obtain ⟨files, hl⟩ := hl
    refine ⟨files, hl, ?_⟩
    by_cases ha : ∀ r ∈ simpleRules files, Agree (ruleSizes r)
    · rcases run_loaded (ans := ans) (outdir := outdir) hl ha with ⟨e, _⟩ | ⟨p, n, s, rest, e, _, h2, _⟩
      · rw [e] at h; simp at h; exact h.symm
      · rw [h2] at h; simp at h
    · obtain ⟨r, _, m, _, n, _, _, e⟩ := run_incompatible (ans := ans) (outdir := outdir) hl ha
      rw [e] at h; simp at h
  · obtain ⟨good, inp, rest, files, _, _, _, _, e⟩ := run_not_loaded (ans := ans) (outdir := outdir) hl
    rw [e] at h; simp at h

/-- C40.  `load` yields exactly the expansions of the simple rules of all files, in order, whenever all files load and no simple rule has
alternations of different sizes. -/
theorem C40_load (lib : GoLib) (inputs : List Input) (files : List File) (h : Loads lib inputs files)
    (ha : ∀ r ∈ simpleRules files, Agree (ruleSizes r)) : (load lib inputs).2 = .ok ⟨verified files⟩ := by
  rw [load_ok h ha]

/-- C40.  Conversely these are the only rules `load` ever yields. -/
theorem C40_load_only (lib : GoLib) (inputs : List Input) (f : File) (h : (load lib inputs).2 = .ok f) :
    ∃ files, Loads lib inputs files ∧ f = ⟨verified files⟩ := by
  by_cases hl : ∃ files, Loads lib inputs files
  · obtain ⟨files, hl⟩ := hl
    refine ⟨files, hl, ?_⟩
    by_cases ha : ∀ r ∈ simpleRules files, Agree (ruleSizes r)
    · rw [load_ok hl ha] at h; simpa using h.symm
    · obtain ⟨r, _, m, _, n, _, _, e⟩ := load_incompatible hl ha
      rw [e] at h; simp at h
  · obtain ⟨good, inp, rest, files, _, _, _, _, e⟩ := parseAll_err hl
    rw [load, e] at h; simp at h

/-- the hypotheses hold in the example -/
theorem cmd_loads : ∃ files, Loads demoLib cmdInputs files := by
  have h : (runCmd demoLib cmdFine cmdOut cmdInputs).2 = .ok () := by
    have := congrArg Prod.snd cmd_fine
    simpa [cmdNames] using this
  obtain ⟨files, hf, _⟩ := C40_trace demoLib cmdFine cmdOut cmdInputs (runCmd demoLib cmdFine cmdOut cmdInputs).1 (Prod.ext rfl h)
  exact ⟨files, hf⟩

/-! ## C41 -/

/-- C41.  Different rule numbers have different file names, whatever the output directory. -/
theorem C41_names_distinct (outdir : Str) (i j : Nat) (h : joinPath outdir (scriptName i) = joinPath outdir (scriptName j)) : i = j :=
  path_inj h

example : scriptName 7 = "0007.smt2".toList ∧ scriptName 12345 = "12345.smt2".toList ∧
    joinPath "a/../out/".toList (scriptName 10000) = "out/10000.smt2".toList ∧ joinPath [] (scriptName 0) = "0000.smt2".toList := by decide +kernel

/-- C41.  In every run, whatever is written is the script of the rule whose number is in the name. -/
theorem C41_written_is_rule (lib : GoLib) (ans : List (Str × Str) → Option Err) (outdir : Str) (inputs : List Input) (n s : Str)
    (h : (n, s) ∈ writesOf (runCmd lib ans outdir inputs).1) :
    ∃ files, Loads lib inputs files ∧
      ∃ i r, (verified files)[i]? = some r ∧ n = joinPath outdir (scriptName i) ∧ generate r = .ok s := by
  obtain ⟨files, hl, _, rest, e⟩ := run_writes (fun he => by rw [he] at h; simp at h)
  refine ⟨files, hl, ?_⟩
  have h' : (n, s) ∈ writesOf (allEvents outdir inputs files) := by rw [e, writesOf_append]; simp [h]
  rw [allEvents_writes] at h'
  obtain ⟨k, r, h1, h2, h3⟩ := mem_rulesEvents_write (mem_writesOf.1 h')
  exact ⟨k, r, h1, by simpa using h2, h3⟩

/-- C41.  In a successful run file number `i` is written exactly if rule number `i` exists and the generator accepts it, with the generator's
script; a rule it rejects leaves a gap and shifts nothing. -/
theorem C41_written_iff (lib : GoLib) (ans : List (Str × Str) → Option Err) (outdir : Str) (inputs : List Input) (tr : List Event)
    (hr : runCmd lib ans outdir inputs = (tr, .ok ())) (files : List File) (hl : Loads lib inputs files) (i : Nat) (s : Str) :
    (joinPath outdir (scriptName i), s) ∈ writesOf tr ↔ ∃ r, (verified files)[i]? = some r ∧ generate r = .ok s := by
  obtain ⟨files', hl', rfl⟩ := C40_trace lib ans outdir inputs tr hr
  cases loads_unique hl hl'
  rw [allEvents_writes, mem_writesOf]
  constructor
  · intro h
    obtain ⟨k, r, h1, h2, h3⟩ := mem_rulesEvents_write h
    have := path_inj h2
    simp only [Nat.zero_add] at this
    subst this
    exact ⟨r, h1, h3⟩
  · rintro ⟨r, h1, h2⟩
    simpa using write_mem_rulesEvents (outdir := outdir) (i := 0) h1 h2

/-- C41.  No run writes a file name twice. -/
theorem C41_once (lib : GoLib) (ans : List (Str × Str) → Option Err) (outdir : Str) (inputs : List Input) :
    ((writesOf (runCmd lib ans outdir inputs).1).map (·.1)).Nodup := by
  by_cases h : writesOf (runCmd lib ans outdir inputs).1 = []
  · rw [h]; simp
  · obtain ⟨files, _, _, rest, e⟩ := run_writes h
    have hn : ((writesOf (rulesEvents outdir 0 (verified files))).map (·.1)).Nodup := rulesEvents_names
    rw [← allEvents_writes outdir inputs files, e, writesOf_append, List.map_append] at hn
    exact (List.nodup_append.1 hn).1

/-- the gap at number 2 in the example -/
example : "out/0002.smt2".toList ∉ (cmdNames (runCmd demoLib cmdFine cmdOut cmdInputs)).1 ∧
    "out/0003.smt2".toList ∈ (cmdNames (runCmd demoLib cmdFine cmdOut cmdInputs)).1 := by rw [cmd_fine]; decide +kernel

/-! ## C42 -/

/-- C42.  If some input cannot be opened, read, closed or parsed, or a simple rule has alternations of different sizes, nothing is written and
the run fails. -/
theorem C42_no_output (lib : GoLib) (ans : List (Str × Str) → Option Err) (outdir : Str) (inputs : List Input)
    (h : ¬ ∃ files, Loads lib inputs files ∧ ∀ r ∈ simpleRules files, Agree (ruleSizes r)) :
    writesOf (runCmd lib ans outdir inputs).1 = [] ∧ ∃ e, (runCmd lib ans outdir inputs).2 = .err e := by
  by_cases hl : ∃ files, Loads lib inputs files
  · obtain ⟨files, hl⟩ := hl
    obtain ⟨r, _, m, _, n, _, _, e⟩ := run_incompatible (ans := ans) (outdir := outdir) hl (fun ha => h ⟨files, hl, ha⟩)
    rw [e, writesOf_append, parsedEvents_writes]
    exact ⟨by simp [writesOf], _, rfl⟩
  · obtain ⟨good, inp, rest, files, _, _, _, _, e⟩ := run_not_loaded (ans := ans) (outdir := outdir) hl
    rw [e]
    exact ⟨parsedEvents_writes _ _, _, rfl⟩

/-- C42.  Otherwise the writes attempted are the first `k` of those of a run without failures; all but the last were answered without an
error, and the last one was too, if the run succeeds, and then all were attempted; if the run fails, with the last one's error. -/
theorem C42_write_failure (lib : GoLib) (ans : List (Str × Str) → Option Err) (outdir : Str) (inputs : List Input) (files : List File)
    (hl : Loads lib inputs files) (ha : ∀ r ∈ simpleRules files, Agree (ruleSizes r)) :
    ((runCmd lib ans outdir inputs).2 = .ok () ∧ (runCmd lib ans outdir inputs).1 = allEvents outdir inputs files ∧
      ∀ k, 0 < k → k ≤ (writesOf (allEvents outdir inputs files)).length → ans ((writesOf (allEvents outdir inputs files)).take k) = none) ∨
    ∃ k e, 0 < k ∧ k ≤ (writesOf (allEvents outdir inputs files)).length ∧
      writesOf (runCmd lib ans outdir inputs).1 = (writesOf (allEvents outdir inputs files)).take k ∧
      (runCmd lib ans outdir inputs).2 = .err e ∧ ans ((writesOf (allEvents outdir inputs files)).take k) = some e ∧
      (∀ j, 0 < j → j < k → ans ((writesOf (allEvents outdir inputs files)).take j) = none) ∧
      (∃ n s, (runCmd lib ans outdir inputs).1.getLast? = some (.write n s)) ∧ (runCmd lib ans outdir inputs).1 <+: allEvents outdir inputs files := by
  have key : ∀ tr, AllWritten ans tr → ∀ k, 0 < k → k ≤ (writesOf tr).length → ans ((writesOf tr).take k) = none := by
    intro tr hw k hk hkl
    have : ∃ p n s rest, tr = p ++ .write n s :: rest ∧ (writesOf tr).take k = writesOf (p ++ [.write n s]) := by
      clear hw
      induction tr generalizing k with
      | nil => simp [writesOf] at hkl; omega
      | cons x tr ih =>
        by_cases hx : ∃ n s, x = .write n s
        · obtain ⟨n, s, rfl⟩ := hx
          cases k with
          | zero => omega
          | succ k =>
            by_cases hk0 : k = 0
            · subst hk0; exact ⟨[], n, s, tr, rfl, rfl⟩
            · obtain ⟨p, n', s', rest, e, e'⟩ := ih k (by omega) (by simp [writesOf] at hkl ⊢; omega)
              refine ⟨.write n s :: p, n', s', rest, by rw [e]; rfl, ?_⟩
              have : writesOf (.write n s :: tr) = (n, s) :: writesOf tr := rfl
              rw [this, List.take_succ_cons, e']; rfl
        · have : writesOf (x :: tr) = writesOf tr := by cases x <;> first | rfl | exact absurd ⟨_, _, rfl⟩ hx
          have h2 : ∀ p, writesOf (x :: p) = writesOf p := by intro p; cases x <;> first | rfl | exact absurd ⟨_, _, rfl⟩ hx
          rw [this] at hkl ⊢
          obtain ⟨p, n', s', rest, e, e'⟩ := ih k hk hkl
          exact ⟨x :: p, n', s', rest, by rw [e]; rfl, by rw [e', List.cons_append, h2]⟩
    obtain ⟨p, n, s, rest, e, e'⟩ := this
    rw [e']; exact hw p n s rest e
  rcases run_loaded (ans := ans) (outdir := outdir) hl ha with ⟨e, hw⟩ | ⟨p, n, s, rest, e, h1, h2, h3, h4⟩
  · left; rw [e]; exact ⟨rfl, rfl, key _ hw⟩
  · right
    have hws : writesOf (allEvents outdir inputs files) = writesOf (p ++ [.write n s]) ++ writesOf rest := by
      rw [← writesOf_append, h1]; simp
    have hlen : (writesOf (p ++ [.write n s])).length = (writesOf p).length + 1 := by rw [writesOf_append]; simp [writesOf]
    have htk : (writesOf (allEvents outdir inputs files)).take (writesOf (p ++ [.write n s])).length = writesOf (p ++ [.write n s]) := by
      rw [hws]; simp
    refine ⟨(writesOf (p ++ [.write n s])).length, e, by omega, by rw [hws]; simp, ?_, ?_, ?_, ?_, ?_, ?_⟩
    · rw [htk, h2]
    · rw [h2]
    · rw [htk, h3]
    · intro j hj hjk
      have : (writesOf (allEvents outdir inputs files)).take j = (writesOf p).take j := by
        rw [h1, writesOf_append, List.take_append_of_le_length (by omega)]
      rw [this]
      exact key p h4 j hj (by omega)
    · exact ⟨n, s, by rw [h2]; simp⟩
    · exact ⟨rest, by rw [h2, h1]; simp⟩

/-- a missing file -/
example : ¬ ∃ files, Loads demoLib (cmdInputs ++ [{ name := ['c'], openErr := some (.other []), data := [] }]) files ∧
    ∀ r ∈ simpleRules files, Agree (ruleSizes r) := by
  rintro ⟨files, h, -⟩
  simp only [cmdInputs, List.cons_append, List.nil_append] at h
  cases h with | cons _ _ _ _ h => cases h with | cons _ _ _ _ h => cases h with | cons h _ _ _ _ => cases h

/-! ## C43 -/

/-- C43.  The command never panics, and fails only for one of three reasons: an input that cannot be opened, read, closed or parsed; a simple
rule with alternations of different sizes; a write that fails. -/
theorem C43_failure_modes (lib : GoLib) (ans : List (Str × Str) → Option Err) (outdir : Str) (inputs : List Input) :
    (runCmd lib ans outdir inputs).2 = .ok () ∨
    (∃ inp ∈ inputs, ∃ e, parseFile lib inp = .err e ∧ (runCmd lib ans outdir inputs).2 = .err (.other ("parse: ".toList ++ e.text))) ∨
    (∃ files r m n, Loads lib inputs files ∧ r ∈ simpleRules files ∧ m ∈ ruleSizes r ∧ n ∈ ruleSizes r ∧ m ≠ n ∧
      (runCmd lib ans outdir inputs).2 = .err (.incompatible m n)) ∨
    ∃ e, (runCmd lib ans outdir inputs).2 = .err e ∧ ans (writesOf (runCmd lib ans outdir inputs).1) = some e := by
  by_cases hl : ∃ files, Loads lib inputs files
  · obtain ⟨files, hl⟩ := hl
    by_cases ha : ∀ r ∈ simpleRules files, Agree (ruleSizes r)
    · rcases run_loaded (ans := ans) (outdir := outdir) hl ha with ⟨e, _⟩ | ⟨p, n, s, rest, e, _, h2, h3, _⟩
      · left; rw [e]
      · right; right; right; exact ⟨e, by rw [h2], by rw [h2]; exact h3⟩
    · obtain ⟨r, hr, m, hm, n, hn, hne, e⟩ := run_incompatible (ans := ans) (outdir := outdir) hl ha
      right; right; left
      exact ⟨files, r, m, n, hl, hr, hm, hn, hne, by rw [e]⟩
  · obtain ⟨good, inp, rest, files, rfl, _, e', hp, e⟩ := run_not_loaded (ans := ans) (outdir := outdir) hl
    right; left
    exact ⟨inp, by simp, e', hp, by rw [e]⟩

/-- C43.  If writes do not fail, the run succeeds exactly if every input loads and no simple rule has alternations of different sizes. -/
theorem C43_succeeds_iff (lib : GoLib) (outdir : Str) (inputs : List Input) :
    (runCmd lib (fun _ => none) outdir inputs).2 = .ok () ↔
      ∃ files, Loads lib inputs files ∧ ∀ r ∈ simpleRules files, Agree (ruleSizes r) := by
  constructor
  · intro h
    apply Classical.byContradiction
    intro hn
    obtain ⟨_, e, he⟩ := C42_no_output lib (fun _ => none) outdir inputs hn
    rw [h] at he; simp at he
  · rintro ⟨files, hl, ha⟩
    rcases run_loaded (ans := fun _ => none) (outdir := outdir) hl ha with ⟨e, _⟩ | ⟨p, n, s, rest, e, _, _, h3, _⟩
    · rw [e]
    · simp at h3

/-- C43.  The generator is only ever called for simple rules whose opcodes are plain and which can be printed. -/
theorem C43_generator_input (lib : GoLib) (inputs : List Input) (f : File) (h : (load lib inputs).2 = .ok f) :
    ∀ r ∈ f.rules, Simple r ∧ RulePlain r ∧ ∃ text, printBytes (.rule r) = .ok text := by
  obtain ⟨files, hl, rfl⟩ := C40_load_only lib inputs f h
  intro r hr
  have hpr := verified_printable hl r hr
  obtain ⟨r0, h0, i, _, rfl⟩ := mem_verified hr
  have hm := ruleWF_meaningful (loads_wf hl r0 (simpleRules_sub h0).1)
  refine ⟨(simple_mapRuleOps _ r0).2 (simpleRules_sub h0).2, (pickRule_plain hm i).2.1, showRule (pickRule i r0), ?_⟩
  rw [printBytes_eq]; exact if_pos hpr

/-! ## C44 -/

/-- C44.  If the command writes a script then the script belongs to an expansion of a simple rule of one of the input files; and if the script is
legal SMT-LIB it makes one query, which is unsatisfiable exactly if that expansion is valid. -/
theorem C44_end_to_end (lib : GoLib) (ans : List (Str × Str) → Option Err) (outdir : Str) (inputs : List Input) (n s : Str)
    (h : (n, s) ∈ writesOf (runCmd lib ans outdir inputs).1) :
    ∃ inp ∈ inputs, ∃ f r i, parseBytes lib inp.data = .ok f ∧ r ∈ f.rules ∧ Simple r ∧ i < count (ruleSizes r) ∧
      ∀ σ, execute s = some σ → ∃ q, σ.queries = [q] ∧ (¬ Sat q ↔ Valid (pickRule i r)) := by
  obtain ⟨files, hl, k, r', h1, _, hg⟩ := C41_written_is_rule lib ans outdir inputs n s h
  obtain ⟨r0, h0, i, hi, rfl⟩ := mem_verified (List.mem_of_getElem? h1)
  obtain ⟨hin, hs⟩ := simpleRules_sub h0
  obtain ⟨inp, hinp, f, hf, hr⟩ := loads_mem hl hin
  refine ⟨inp, hinp, f, r0, i, hf, hr, hs, hi, ?_⟩
  intro σ hσ
  have hn : ∀ x ∈ ruleVars (pickRule i r0), x ≠ [] ∧ ∀ c ∈ x, isSymChar c = true := by
    rw [pickRule_vars]; exact fun x hx => var_sym (ruleWF_vars (loads_wf hl r0 hin) x hx)
  have hlegal := (C37_legal_iff _ s hg hn).1 ⟨σ, hσ⟩
  obtain ⟨σ', q, e1, e2, e3⟩ := C32_script_decides_rule _ s hg hlegal
  rw [hσ] at e1
  simp only [Option.some.injEq] at e1
  subst e1
  exact ⟨q, e2, e3⟩

/-- C44.  The script is legal exactly if the variables of the rule are. -/
theorem C37_written_legal_iff (lib : GoLib) (ans : List (Str × Str) → Option Err) (outdir : Str) (inputs : List Input) (n s : Str)
    (h : (n, s) ∈ writesOf (runCmd lib ans outdir inputs).1) :
    ∃ files, Loads lib inputs files ∧ ∃ r ∈ verified files, generate r = .ok s ∧
      ((∃ σ, execute s = some σ) ↔ ∀ x ∈ ruleVars r, legalName x = true) := by
  obtain ⟨files, hl, k, r', h1, _, hg⟩ := C41_written_is_rule lib ans outdir inputs n s h
  have hm := List.mem_of_getElem? h1
  obtain ⟨r0, h0, i, hi, rfl⟩ := mem_verified hm
  refine ⟨files, hl, _, hm, hg, C37_legal_iff _ s hg ?_⟩
  rw [pickRule_vars]; exact fun x hx => var_sym (ruleWF_vars (loads_wf hl r0 (simpleRules_sub h0).1) x hx)

/-- C37.  For every parsed rule the generator accepts. -/
theorem C37_parsed (lib : GoLib) (bs : List UInt8) (f : File) (hp : parseBytes lib bs = .ok f) (r : Rule) (hr : r ∈ f.rules) (s : Str)
    (hg : generate r = .ok s) : (∃ σ, execute s = some σ) ↔ ∀ x ∈ ruleVars r, legalName x = true :=
  C37_legal_iff r s hg fun x hx => var_sym (ruleWF_vars (parse_wf hp r hr) x hx)

/-- an example for C44 and C37: the script written for the expansion `(Add16 x y) => (Add16 y x)`, which is legal -/
def cmdScript : Str := "(set-info :smt-lib-version 2.6)\n(set-logic QF_BV)\n; (Add16 x y) => (Add16 y x)\n(declare-const x (_ BitVec 16))\n(declare-const y (_ BitVec 16))\n(assert (not (= (bvadd x y) (bvadd y x))))\n(check-sat)\n(exit)\n".toList

example : ("out/0001.smt2".toList, cmdScript) ∈ writesOf (runCmd demoLib cmdFine cmdOut cmdInputs).1 ∧ (execute cmdScript).isSome = true := by
  decide +kernel

/-! ## C45, C46 -/

/-- C45.  After a successful run a file in the output directory that has a rule's name holds that rule's script, if the generator accepts the
rule; every other file is what it was before (in particular, the script an earlier run left for a rule that is now rejected stays). -/
theorem C45_files_after (lib : GoLib) (ans : List (Str × Str) → Option Err) (outdir : Str) (inputs : List Input) (tr : List Event)
    (hr : runCmd lib ans outdir inputs = (tr, .ok ())) (fs : Str → Option Str) :
    ∃ files, Loads lib inputs files ∧
      (∀ i r s, (verified files)[i]? = some r → generate r = .ok s → filesAfter fs (writesOf tr) (joinPath outdir (scriptName i)) = some s) ∧
      ∀ n, (¬ ∃ i r s, (verified files)[i]? = some r ∧ generate r = .ok s ∧ n = joinPath outdir (scriptName i)) →
        filesAfter fs (writesOf tr) n = fs n := by
  obtain ⟨files, hl, _⟩ := C40_trace lib ans outdir inputs tr hr
  have hn : ((writesOf tr).map (·.1)).Nodup := by
    have := C41_once lib ans outdir inputs
    rw [hr] at this; exact this
  refine ⟨files, hl, ?_, ?_⟩
  · intro i r s h1 h2
    exact filesAfter_mem hn ((C41_written_iff lib ans outdir inputs tr hr files hl i s).2 ⟨r, h1, h2⟩)
  · intro n h
    refine filesAfter_not_mem fun s hs => h ?_
    have hs' : (n, s) ∈ writesOf (runCmd lib ans outdir inputs).1 := by rw [hr]; exact hs
    obtain ⟨files', hl', i, r, h1, h2, h3⟩ := C41_written_is_rule lib ans outdir inputs n s hs'
    cases loads_unique hl hl'
    exact ⟨i, r, s, h1, h3, h2⟩

/-- C45.  Running the command a second time on the same inputs changes nothing. -/
theorem C45_rerun (lib : GoLib) (ans ans' : List (Str × Str) → Option Err) (outdir : Str) (inputs : List Input) (tr tr' : List Event)
    (hr : runCmd lib ans outdir inputs = (tr, .ok ())) (hr' : runCmd lib ans' outdir inputs = (tr', .ok ())) (fs : Str → Option Str) :
    filesAfter (filesAfter fs (writesOf tr)) (writesOf tr') = filesAfter fs (writesOf tr) := by
  obtain ⟨files, hl, rfl⟩ := C40_trace lib ans outdir inputs tr hr
  obtain ⟨files', hl', rfl⟩ := C40_trace lib ans' outdir inputs tr' hr'
  cases loads_unique hl hl'
  have hn : ((writesOf (allEvents outdir inputs files)).map (·.1)).Nodup := by
    have := C41_once lib ans outdir inputs
    rw [hr] at this; exact this
  funext n
  by_cases h : ∃ s, (n, s) ∈ writesOf (allEvents outdir inputs files)
  · obtain ⟨s, hs⟩ := h
    rw [filesAfter_mem hn hs, filesAfter_mem hn hs]
  · exact filesAfter_not_mem fun s hs => h ⟨s, hs⟩

/-- C46.  Adding input files at the end changes neither the names nor the contents of the files written for the others: if both runs succeed, what
the run on the shorter list writes is the beginning of what the run on the longer list writes. -/
theorem C46_more_inputs (lib : GoLib) (ans ans' : List (Str × Str) → Option Err) (outdir : Str) (a b : List Input) (tr tr' : List Event)
    (hr : runCmd lib ans outdir a = (tr, .ok ())) (hr' : runCmd lib ans' outdir (a ++ b) = (tr', .ok ())) :
    writesOf tr <+: writesOf tr' := by
  obtain ⟨fa, ha, rfl⟩ := C40_trace lib ans outdir a tr hr
  obtain ⟨fab, hab, rfl⟩ := C40_trace lib ans' outdir (a ++ b) tr' hr'
  obtain ⟨fa', fb, rfl, ha', _⟩ := loads_split hab
  cases loads_unique ha ha'
  rw [allEvents_writes, allEvents_writes, verified_append, rulesEvents_append, writesOf_append]
  exact List.prefix_append _ _

/-- the example for C45 and C46 -/
example : (∃ tr, runCmd demoLib cmdFine cmdOut cmdInputs = (tr, .ok ())) ∧ ∃ tr, runCmd demoLib cmdFine cmdOut (cmdInputs.take 1) = (tr, .ok ()) := by
  refine ⟨⟨_, Prod.ext rfl ?_⟩, ⟨_, Prod.ext rfl ?_⟩⟩
  · have := congrArg Prod.snd cmd_fine
    simpa [cmdNames] using this
  · show (runCmd demoLib cmdFine cmdOut (cmdInputs.take 1)).2 = .ok ()
    decide +kernel

end Verif.Props

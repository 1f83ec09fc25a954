import Verif.Proof.Log
import Verif.Props.Cmd
import Verif.Props.Roundtrip
import Verif.Props.ParseError
/-!
# Properties of the log of the command (C58)

`stderrText (runCmd …)` is everything the command writes to standard error.  `readLog` (Spec/Log.lean) reads it, knowing its format only.
-/
namespace Verif.Props
open Verif Verif.Spec Verif.Proof

theorem stderr_ok (tr : List Event) : stderrText (tr, .ok ()) = (tr.filterMap Event.message).flatMap logLine := by
  simp [stderrText]

theorem stderr_err (tr : List Event) (e : Err) : stderrText (tr, .err e) = (tr.filterMap Event.message).flatMap logLine ++ entryText e.text := rfl

theorem run_ok {lib ans outdir inputs tr} (h : runCmd lib ans outdir inputs = (tr, .ok ())) :
    ∃ files, Loads lib inputs files ∧ (∀ r ∈ simpleRules files, Agree (ruleSizes r)) ∧ tr = allEvents outdir inputs files := by
  obtain ⟨files, hl, htr⟩ := C40_trace lib ans outdir inputs tr h
  refine ⟨files, hl, ?_, htr⟩
  apply Classical.byContradiction
  intro ha
  obtain ⟨r, _, m, _, n, _, _, e⟩ := run_incompatible (ans := ans) (outdir := outdir) hl ha
  rw [e] at h; simp at h

theorem all_nl {u : GoVersion} {lib outdir inputs files} (hl : FollowsGo u lib) (hn : ∀ inp ∈ inputs, '\n' ∉ inp.name) (ho : '\n' ∉ outdir)
    (h : Loads lib inputs files) (ha : ∀ r ∈ simpleRules files, Agree (ruleSizes r)) : OneLiners (allEvents outdir inputs files) := by
  unfold allEvents
  exact oneLiners_append (oneLiners_append (parsed_nl hn) (counts_nl _ _ _))
    (rules_nl ho _ 0 fun r hr => ⟨verified_printable h r hr, (verified_line hl h ha r hr).2⟩)

/-! ## Examples -/

/-- The runs of the example in Props/Cmd, with the reference Go parser: one that succeeds, one whose second write fails. -/
def logFine : List Event × Res Unit := runCmd (refLib asciiGo) cmdFine cmdOut cmdInputs
def logFull : List Event × Res Unit := runCmd (refLib asciiGo) cmdFull cmdOut cmdInputs
/-- One whose second input does not parse. -/
def logBad : List Event × Res Unit := runCmd (refLib asciiGo) cmdFine cmdOut
  [{ name := ['a'], data := utf8 "(Foo x) => x\n".toList }, { name := ['b'], data := utf8 "(Foo x) => (\n".toList }]
/-- One with alternations of different sizes. -/
def logSizes : List Event × Res Unit := runCmd (refLib asciiGo) cmdFine cmdOut [{ name := ['a'], data := utf8 "(Add(8|16) x y) => (Add(8|16|32) y x)\n".toList }]

example : (stderrText logFine).take 100 = "ssarules: parsed 2 rules from a\nssarules: parsed 3 rules from b\nssarules: parsed 5 rules total\nssaru".toList := by decide +kernel
example : (readLog (stderrText logFine)).map (·.drop 4) = some [.expanded 5, .rule "(Add8 x y) => (Add8 y x)".toList, .written "out/0000.smt2".toList,
    .rule "(Add16 x y) => (Add16 y x)".toList, .written "out/0001.smt2".toList, .rule "(Foo x) => x".toList, .error "not supported: opcode Foo".toList,
    .rule "(And8 x x) => x".toList, .written "out/0003.smt2".toList, .rule "(Sub8 x y) => x".toList, .written "out/0004.smt2".toList] := by decide +kernel
example : (stderrText logFull).drop 247 = "ssarules: rule: (Add16 x y) => (Add16 y x)\nssarules: disk full\n".toList := by decide +kernel
example : (stderrText logBad).drop 42 = "parse: b:2:1 (13): no match found, expected: \"(\", \"//\", [ \\t\\r\\n] or [_a-zA-Z0-9]\n".toList := by decide +kernel
example : (stderrText logSizes).drop 96 = "ssarules: incompatible alternative counts 2 and 3\n".toList := by decide +kernel

/-- The hypotheses hold in the examples. -/
example : FollowsGo asciiGo (refLib asciiGo) ∧ (∀ inp ∈ cmdInputs, '\n' ∉ inp.name) ∧ '\n' ∉ cmdOut ∧ logFine.2 = .ok () ∧ logFull.2 ≠ .ok () ∧
    logBad.2 ≠ .ok () ∧ logSizes.2 ≠ .ok () :=
  ⟨refLib_follows _, by decide +kernel, by decide +kernel, by decide +kernel, by decide +kernel, by decide +kernel, by decide +kernel⟩

/-! ## C58 -/

/-- C58.  The log of a successful run, read line by line, says: for every input file the number of its rules; the numbers of all, of simple and of expanded rules;
then, for every expanded rule, in order, the rule as printed, and either the name of the file written for it or the generator's message.  Nothing else. -/
theorem C58_success (u : GoVersion) (lib : GoLib) (hg : FollowsGo u lib) (ans : List (Str × Str) → Option Err) (outdir : Str) (inputs : List Input)
    (hn : ∀ inp ∈ inputs, '\n' ∉ inp.name) (ho : '\n' ∉ outdir) (h : (runCmd lib ans outdir inputs).2 = .ok ()) :
    ∃ files, Loads lib inputs files ∧
      readLog (stderrText (runCmd lib ans outdir inputs)) = some (loadEntries inputs files ++ rulesEntries outdir 0 (verified files)) := by
  have hr : runCmd lib ans outdir inputs = ((runCmd lib ans outdir inputs).1, .ok ()) := Prod.ext rfl h
  obtain ⟨files, hl, ha, htr⟩ := run_ok hr
  refine ⟨files, hl, ?_⟩
  rw [hr, htr, stderr_ok, readLog_events _ (all_nl hg hn ho hl ha)]
  simp only [allEvents, List.filterMap_append, parsed_entries, rules_entries, loadEntries]
  rfl

/-- C58.  Every rule is in the log, with its number: the entries number `2 i` and `2 i + 1` after those about loading are about rule `i`.  The first is a text that is
parsed as exactly this rule; the second says where its script has been written, if there is one, and otherwise why there is none. -/
theorem C58_rule (u : GoVersion) (lib : GoLib) (hg : FollowsGo u lib) (ans : List (Str × Str) → Option Err) (outdir : Str) (inputs : List Input)
    (hn : ∀ inp ∈ inputs, '\n' ∉ inp.name) (ho : '\n' ∉ outdir) (h : (runCmd lib ans outdir inputs).2 = .ok ()) (files : List File) (hf : Loads lib inputs files)
    (i : Nat) (r : Rule) (hi : (verified files)[i]? = some r) :
    ∃ entries text outcome, readLog (stderrText (runCmd lib ans outdir inputs)) = some entries ∧
      entries[inputs.length + 3 + 2 * i]? = some (.rule text) ∧ parseBytes lib (utf8 (text ++ ['\n'])) = .ok ⟨[r]⟩ ∧
      entries[inputs.length + 3 + 2 * i + 1]? = some outcome ∧
      ((∃ s, generate r = .ok s ∧ outcome = .written (joinPath outdir (scriptName i)) ∧
          (joinPath outdir (scriptName i), s) ∈ writesOf (runCmd lib ans outdir inputs).1) ∨
        ∃ msg, Ssa.NoScript r msg ∧ outcome = .error msg) := by
  have hr : runCmd lib ans outdir inputs = ((runCmd lib ans outdir inputs).1, .ok ()) := Prod.ext rfl h
  obtain ⟨files', hl, ha, -⟩ := run_ok hr
  cases loads_unique hf hl
  obtain ⟨files', hl', hread⟩ := C58_success u lib hg ans outdir inputs hn ho h
  cases loads_unique hf hl'
  have hlen : (loadEntries inputs files).length = inputs.length + 3 := by
    have : ∀ (inputs : List Input) (files : List File), files.length = inputs.length → (parsedEntries inputs files).length = inputs.length := by
      intro inputs
      induction inputs with
      | nil => intro files _; cases files <;> rfl
      | cons inp inputs ih =>
        intro files hfl
        cases files with
        | nil => simp at hfl
        | cons f files => simp only [parsedEntries, List.length_cons, ih files (by simpa using hfl)]
    simp [loadEntries, this _ _ (loads_length hf)]
  have key : ∀ (rs : List Rule) (k i : Nat), rs[i]? = some r → (rulesEntries outdir k rs)[2 * i]? = (ruleEntries outdir (k + i) r)[0]? ∧
      (rulesEntries outdir k rs)[2 * i + 1]? = (ruleEntries outdir (k + i) r)[1]? := by
    intro rs
    induction rs with
    | nil => intro k i h; simp at h
    | cons r' rs ih =>
      intro k i h
      cases i with
      | zero => simp only [List.getElem?_cons_zero, Option.some.injEq] at h; subst h; exact ⟨rfl, rfl⟩
      | succ i =>
        have := ih (k + 1) i (by simpa using h)
        rw [show k + 1 + i = k + (i + 1) by omega] at this
        rw [← this.1, ← this.2]
        exact ⟨rfl, rfl⟩
  obtain ⟨k1, k2⟩ := key (verified files) 0 i hi
  rw [Nat.zero_add] at k1 k2
  have e1 : (loadEntries inputs files ++ rulesEntries outdir 0 (verified files))[inputs.length + 3 + 2 * i]? = (rulesEntries outdir 0 (verified files))[2 * i]? := by
    rw [List.getElem?_append_right (by omega), hlen]; congr 1; omega
  have e2 : (loadEntries inputs files ++ rulesEntries outdir 0 (verified files))[inputs.length + 3 + 2 * i + 1]? = (rulesEntries outdir 0 (verified files))[2 * i + 1]? := by
    rw [List.getElem?_append_right (by omega), hlen]; congr 1; omega
  refine ⟨_, showRule r, _, hread, by rw [e1, k1]; rfl, ?_, by rw [e2, k2]; rfl, ?_⟩
  · have hst := (verified_line hg hf ha r (List.mem_of_getElem? hi)).1
    have := parse_show hg (f := ⟨[r]⟩) (by simpa using hst)
    simpa [showNode] using this
  · cases hgen : generate r with
    | panic => exact absurd hgen (generate_ne_panic r)
    | ok s => exact .inl ⟨s, rfl, rfl, (C41_written_iff lib ans outdir inputs _ hr files hf i s).2 ⟨r, hi, hgen⟩⟩
    | err e => exact .inr ⟨e.text, (generate_err_iff r e.text).1 ⟨e, hgen, rfl⟩, rfl⟩

theorem inputError_of {lib inp e} (h : parseFile lib inp = .err e) : InputError lib inp e.text := by
  unfold parseFile at h
  cases ho : inp.openErr with
  | some e' => rw [ho] at h; cases h; exact .opening ho
  | none =>
    rw [ho] at h
    cases hc : inp.closeErr with
    | some e' =>
      have : e = e' := by
        rw [hc] at h
        cases hr : inp.readErr with
        | some e₁ => rw [hr] at h; cases h; rfl
        | none =>
          rw [hr] at h
          cases hd : parseData lib inp.name inp.data with
          | panic => rw [hd] at h; cases h
          | ok f => rw [hd] at h; cases h; rfl
          | err e₁ => rw [hd] at h; cases h; rfl
      subst this
      exact .closing ho hc
    | none =>
      rw [hc] at h
      cases hr : inp.readErr with
      | some e' => rw [hr] at h; cases h; exact .reading ho hc hr
      | none =>
        rw [hr] at h
        rcases parseData_spec lib inp.name inp.data with ⟨f, h1, h2⟩ | ⟨-, es, h1, h2⟩
        · rw [h2] at h; cases h
        · rw [h2] at h
          cases h
          have hj : ∀ l : List Str, strJoin ['\n'] l = ['\n'].intercalate l := by
            intro l
            induction l with
            | nil => rfl
            | cons x l ih =>
              cases l with
              | nil => simp [strJoin, List.intercalate]
              | cons y l => rw [strJoin, ih]; simp [List.intercalate, List.intersperse]
          show InputError lib inp (errListText _ es)
          rw [errListText, hj]
          exact .parsing ho hc hr h1

/-- C58.  The log of a run that fails: it ends with the error.  Before it there are the entries up to the failure: (1) an input does not load — the entries about
the inputs before it, and `parse: ` with what is wrong with this one; (2) two alternations of a simple rule have different sizes `m` and `n` — the entries about the inputs and
two numbers; (3) a write fails — the entries about everything before, the rule whose script could not be written, and the error of the write. -/
theorem C58_failure (u : GoVersion) (lib : GoLib) (hg : FollowsGo u lib) (ans : List (Str × Str) → Option Err) (outdir : Str) (inputs : List Input)
    (hn : ∀ inp ∈ inputs, '\n' ∉ inp.name) (ho : '\n' ∉ outdir) (h : (runCmd lib ans outdir inputs).2 ≠ .ok ()) :
    ∃ log, (∃ good inp rest files msg, inputs = good ++ inp :: rest ∧ Loads lib good files ∧ InputError lib inp msg ∧
        stderrText (runCmd lib ans outdir inputs) = log ++ entryText ("parse: ".toList ++ msg) ∧ readLog log = some (parsedEntries good files)) ∨
      (∃ files r m n, Loads lib inputs files ∧ r ∈ simpleRules files ∧ m ∈ ruleSizes r ∧ n ∈ ruleSizes r ∧ m ≠ n ∧
        stderrText (runCmd lib ans outdir inputs) = log ++ entryText ("incompatible alternative counts ".toList ++ numeral m ++ " and ".toList ++ numeral n) ∧
        readLog log = some (parsedEntries inputs files ++ [.total (allRules files).length, .simple (simpleRules files).length])) ∨
      ∃ files i r s e, Loads lib inputs files ∧ (verified files)[i]? = some r ∧ generate r = .ok s ∧
        (writesOf (runCmd lib ans outdir inputs).1).getLast? = some (joinPath outdir (scriptName i), s) ∧ ans (writesOf (runCmd lib ans outdir inputs).1) = some e ∧
        stderrText (runCmd lib ans outdir inputs) = log ++ entryText e.text ∧
        readLog log = some (loadEntries inputs files ++ rulesEntries outdir 0 ((verified files).take i) ++ [.rule (showRule r)]) := by
  by_cases hl : ∃ files, Loads lib inputs files
  · obtain ⟨files, hl⟩ := hl
    by_cases ha : ∀ r ∈ simpleRules files, Agree (ruleSizes r)
    · rcases run_loaded (ans := ans) (outdir := outdir) hl ha with ⟨e, _⟩ | ⟨p, n, s, rest, e, h1, h2, h3, _⟩
      · rw [e] at h; exact absurd rfl h
      · have hnl := all_nl hg hn ho hl ha
        refine ⟨((p ++ [Event.write n s]).filterMap Event.message).flatMap logLine, .inr (.inr ?_)⟩
        rw [h2]
        have h1' := h1
        unfold allEvents at h1
        rcases append_cons_split h1 with ⟨q, k1, -⟩ | ⟨q, rfl, k2⟩
        · exfalso
          have : Event.write n s ∈ parsedEvents inputs files ++ [.total (allRules files).length, .simple (simpleRules files).length, .expanded (verified files).length] := by
            rw [k1]; simp
          have := mem_writesOf.2 this
          rw [writesOf_append, parsedEvents_writes] at this
          simp [writesOf] at this
        · obtain ⟨i, r, e1, e2, e3, e4⟩ := rulesEvents_split _ _ _ k2
          rw [Nat.zero_add] at e3
          refine ⟨files, i, r, s, e, hl, e1, e2, ?_, h3, stderr_err _ _, ?_⟩
          · show (writesOf (_ ++ [Event.write n s])).getLast? = _
            rw [writesOf_append, e3]
            simp [writesOf]
          · rw [h1'] at hnl
            rw [readLog_events _ (fun ev he => hnl ev (by simp only [List.mem_append, List.mem_cons, List.not_mem_nil, or_false] at he ⊢; grind)), e4]
            simp only [List.filterMap_append, parsed_entries, rules_entries, loadEntries]
            simp [entryOf]
    · obtain ⟨r, hr, m, hm, n, hne', hne, e⟩ := run_incompatible (ans := ans) (outdir := outdir) hl ha
      refine ⟨((parsedEvents inputs files ++ [Event.total (allRules files).length, Event.simple (simpleRules files).length]).filterMap Event.message).flatMap logLine, .inr (.inl ?_)⟩
      rw [e]
      refine ⟨files, r, m, n, hl, hr, hm, hne', hne, ?_, ?_⟩
      · rw [stderr_err, decimal_eq, decimal_eq]; rfl
      · rw [readLog_events]
        · simp only [List.filterMap_append, parsed_entries]
          simp [entryOf]
        · refine oneLiners_append (parsed_nl hn) ?_
          have := counts_nl (allRules files).length (simpleRules files).length 0
          exact oneLiners_prefix (a := [_, _]) (b := [_]) this
  · obtain ⟨good, inp, rest, files, rfl, h2, e, h3, h4⟩ := run_not_loaded (ans := ans) (outdir := outdir) hl
    refine ⟨((parsedEvents good files).filterMap Event.message).flatMap logLine, .inl ⟨good, inp, rest, files, e.text, rfl, h2, inputError_of h3, ?_, ?_⟩⟩
    · rw [h4, stderr_err]; rfl
    · rw [readLog_events _ (parsed_nl fun inp hi => hn inp (by simp [hi])), parsed_entries]

end Verif.Props

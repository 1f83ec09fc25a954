import Verif.Proof.Crash
import Verif.Props.Log
import Verif.Props.Disk
/-!
# The log of a run that was stopped tells the truth about the disk (C79)

A run of the command is the sequence of its steps on the disk and on standard error (`effects`, Spec/Crash); it can be stopped after any of them.
-/
namespace Verif.Props
open Verif Verif.Spec Verif.Proof

/-- The messages of every run, up to the final error, are lines; and every message about a file comes after the write of the file. -/
theorem run_messages {u : GoVersion} {lib outdir inputs} (ans : List (Str × Str) → Option Err) (hl : FollowsGo u lib) (hn : ∀ inp ∈ inputs, '\n' ∉ inp.name) (ho : '\n' ∉ outdir) :
    OneLiners (runCmd lib ans outdir inputs).1 ∧ WrittenAfter (runCmd lib ans outdir inputs).1 := by
  by_cases hf : ∃ files, Loads lib inputs files
  · obtain ⟨files, hf⟩ := hf
    by_cases ha : ∀ r ∈ simpleRules files, Agree (ruleSizes r)
    · have h1 := all_nl hl hn ho hf ha
      have h2 : WrittenAfter (allEvents outdir inputs files) := by
        unfold allEvents
        refine writtenAfter_append (writtenAfter_append (writtenAfter_none (parsed_written _ _)) (writtenAfter_none (by simp))) (writtenAfter_rules _ _)
      rcases run_loaded (ans := ans) (outdir := outdir) hf ha with ⟨e, _⟩ | ⟨p, n, s, rest, e, he, hr, _⟩
      · rw [e]; exact ⟨h1, h2⟩
      · rw [hr]
        rw [he, show p ++ Event.write n s :: rest = (p ++ [Event.write n s]) ++ rest by simp] at h1 h2
        exact ⟨oneLiners_prefix h1, writtenAfter_prefix h2⟩
    · obtain ⟨r, _, m, _, n, _, _, e⟩ := run_incompatible (ans := ans) (outdir := outdir) hf ha
      rw [e]
      refine ⟨oneLiners_append (parsed_nl hn) ?_, writtenAfter_append (writtenAfter_none (parsed_written _ _)) (writtenAfter_none (by simp))⟩
      have := counts_nl (allRules files).length (simpleRules files).length 0
      exact oneLiners_prefix (a := [_, _]) (b := [_]) this
  · obtain ⟨good, inp, rest, files, rfl, h2, e, h3, h4⟩ := run_not_loaded (ans := ans) (outdir := outdir) hf
    rw [h4]
    exact ⟨parsed_nl fun inp hi => hn inp (by simp [hi]), writtenAfter_none (parsed_written _ _)⟩

theorem run_before {lib outdir inputs files} (ans : List (Str × Str) → Option Err) (hf : Loads lib inputs files) (done : List Event)
    (hd : done <+: (runCmd lib ans outdir inputs).1) (j : Nat) (s : Str) (hs : HasScript files j s) (hc : j + 1 < rulesIn done) :
    Event.written (joinPath outdir (scriptName j)) ∈ done := by
  obtain ⟨r, hj, hg⟩ := hs
  have key : done <+: allEvents outdir inputs files → Event.written (joinPath outdir (scriptName j)) ∈ done := by
    intro hp
    unfold allEvents at hp
    have h0 : rulesIn (parsedEvents inputs files ++ [.total (allRules files).length, .simple (simpleRules files).length, .expanded (verified files).length]) = 0 := by
      rw [rulesIn_append, rulesIn_parsed]; rfl
    rcases List.prefix_or_prefix_of_prefix hp (List.prefix_append _ _) with h | ⟨t, rfl⟩
    · have := rulesIn_prefix h
      omega
    · rw [rulesIn_append, h0, Nat.zero_add] at hc
      have := rules_before (outdir := outdir) (verified files) 0 t ((List.prefix_append_right_inj _).1 hp) j r s hj hg hc
      rw [Nat.zero_add] at this
      exact List.mem_append_right _ this
  by_cases ha : ∀ r ∈ simpleRules files, Agree (ruleSizes r)
  · rcases run_loaded (ans := ans) (outdir := outdir) hf ha with ⟨e, _⟩ | ⟨p, n, s, rest, e, he, hr, _⟩
    · rw [e] at hd; exact key hd
    · rw [hr] at hd
      refine key (hd.trans ?_)
      rw [he]; exact ⟨rest, by simp⟩
  · obtain ⟨r, _, m, _, n, _, _, e⟩ := run_incompatible (ans := ans) (outdir := outdir) hf ha
    rw [e] at hd
    have := rulesIn_prefix hd
    rw [rulesIn_append, rulesIn_parsed] at this
    change _ ≤ 0 + 0 at this
    omega

/-- Every message about a file comes after the write of the file, which was answered without an error. -/
theorem run_confirmed {lib outdir inputs} (ans : List (Str × Str) → Option Err) (name : Str) (h : Event.written name ∈ (runCmd lib ans outdir inputs).1) :
    ∃ p s rest, (runCmd lib ans outdir inputs).1 = p ++ .write name s :: rest ∧ ans (writesOf (p ++ [.write name s])) = none := by
  by_cases hf : ∃ files, Loads lib inputs files
  · obtain ⟨files, hf⟩ := hf
    by_cases ha : ∀ r ∈ simpleRules files, Agree (ruleSizes r)
    · have h2 : WrittenAfter (allEvents outdir inputs files) := by
        unfold allEvents
        refine writtenAfter_append (writtenAfter_append (writtenAfter_none (parsed_written _ _)) (writtenAfter_none (by simp))) (writtenAfter_rules _ _)
      have key : ∀ tr, WrittenAfter tr → AllWritten ans tr → Event.written name ∈ tr →
          ∃ p s rest, tr = p ++ .write name s :: rest ∧ ans (writesOf (p ++ [.write name s])) = none := by
        intro tr h2 hall hm
        obtain ⟨a, b, rfl⟩ := List.append_of_mem hm
        obtain ⟨s, hs⟩ := h2 a name b rfl
        obtain ⟨p, q, rfl⟩ := List.append_of_mem hs
        exact ⟨p, s, q ++ .written name :: b, by simp, hall p name s (q ++ .written name :: b) (by simp)⟩
      rcases run_loaded (ans := ans) (outdir := outdir) hf ha with ⟨e, hall⟩ | ⟨p, n, s, rest, e, he, hr, _, hall⟩
      · rw [e] at h ⊢; exact key _ h2 hall h
      · rw [hr] at h ⊢
        rw [he] at h2
        have hm : Event.written name ∈ p := by simpa using h
        obtain ⟨p', s', rest', rfl, hans⟩ := key p (writtenAfter_prefix h2) hall hm
        exact ⟨p', s', rest' ++ [.write n s], by simp, hans⟩
    · obtain ⟨r, _, m, _, n, _, _, e⟩ := run_incompatible (ans := ans) (outdir := outdir) hf ha
      rw [e] at h
      simp [parsed_written] at h
  · obtain ⟨good, inp, rest, files, rfl, h2, e, h3, h4⟩ := run_not_loaded (ans := ans) (outdir := outdir) hf
    rw [h4] at h
    simp [parsed_written] at h

/-! ## C79 -/

/-- C79.  All steps together are what the other properties are about: the disk after them is that after the run, the log is the text on standard error up to the
message of the error with which the process ends, if there is one. -/
theorem C79_all_steps (lib : GoLib) (ans : List (Str × Str) → Option Err) (cwd : List Str) (outdir : Str) (inputs : List Input) (d : Disk) (k : Nat)
    (hk : (effects cwd (runCmd lib ans outdir inputs).1).length ≤ k) :
    diskAfter d (stoppedEffects lib cwd outdir inputs ans k) = finished lib cwd outdir inputs ans d ∧
    stderrText (runCmd lib ans outdir inputs) = logAfter (stoppedEffects lib cwd outdir inputs ans k) ++
      match (runCmd lib ans outdir inputs).2 with | .err e => entryText e.text | _ => [] := by
  rw [stoppedEffects, List.take_of_length_le hk]
  refine ⟨?_, ?_⟩
  · rw [diskAfter, effects_disk]; rfl
  · rw [effects_log, texts_messages, stderrText]; rfl

/-- C79.  The disk of a stopped run is one of those C47 speaks about. -/
theorem C79_disk (lib : GoLib) (ans : List (Str × Str) → Option Err) (cwd : List Str) (outdir : Str) (inputs : List Input) (d : Disk) (k : Nat) :
    ∃ j, diskAfter d (stoppedEffects lib cwd outdir inputs ans k) = stopped lib cwd outdir inputs ans j d := by
  have h := (List.take_prefix k (effects cwd (runCmd lib ans outdir inputs).1)).filterMap Effect.disk?
  rw [effects_disk] at h
  rw [List.prefix_iff_eq_take] at h
  exact ⟨_, by rw [diskAfter, stoppedEffects, h, stopped]⟩

/-- C79.  If a run is stopped after any number of steps, in the middle of a write, between a write and its message, or in the middle of a message: whole lines at the
beginning of its log can be read, and every file they say has been written holds, at this moment, the complete script of a rule, the one its name says; whatever was there before. -/
theorem C79_written (u : GoVersion) (lib : GoLib) (hg : FollowsGo u lib) (ans : List (Str × Str) → Option Err) (cwd : List Str) (outdir : Str) (inputs : List Input)
    (hn : ∀ inp ∈ inputs, '\n' ∉ inp.name) (ho : '\n' ∉ outdir) (d : Disk) (k : Nat) (text : Str)
    (hw : WholeLines text) (hp : text <+: logAfter (stoppedEffects lib cwd outdir inputs ans k)) :
    ∃ entries, readLog text = some entries ∧ ∀ name, Entry.written name ∈ entries →
      ∃ files i s, Loads lib inputs files ∧ HasScript files i s ∧ IsScriptPlace cwd outdir i (locate cwd name) ∧
        diskAfter d (stoppedEffects lib cwd outdir inputs ans k) (locate cwd name) = some (utf8 s) := by
  obtain ⟨h1, h2⟩ := run_messages ans hg hn ho
  have hplace := C41_written_place lib ans cwd outdir inputs
  have honce := C41_places_once lib ans cwd outdir inputs
  unfold stoppedEffects at hp ⊢
  revert h1 h2 hplace honce hp
  generalize (runCmd lib ans outdir inputs).1 = tr
  intro hp h1 h2 hplace honce
  obtain ⟨done, rest, k', rfl, rfl, e⟩ := stopped_lines cwd tr k text h1 hw hp
  refine ⟨done.filterMap entryOf, ?_, ?_⟩
  · rw [texts_messages]; exact readLog_events _ (oneLiners_prefix h1)
  intro name hname
  obtain ⟨p, q, hd⟩ := List.append_of_mem (entryOf_written hname)
  obtain ⟨s, hs⟩ := h2 p name (q ++ rest) (by rw [hd]; simp)
  obtain ⟨p1, p2, rfl⟩ := List.append_of_mem hs
  obtain ⟨files, hf, i, hsc, hpl⟩ := hplace name s (by rw [hd]; exact mem_writesOf.2 (by simp))
  refine ⟨files, i, s, hf, hsc, hpl, ?_⟩
  -- the steps: those before the write, the write, and others that do not touch the place
  have hdone : done = (p1 ++ [Event.write name s]) ++ (p2 ++ Event.written name :: q) := by rw [hd]; simp
  rw [e, diskAfter, List.filterMap_append, effects_disk, hdone, diskSteps_append, diskSteps_append]
  rw [show diskSteps cwd [Event.write name s] = writeSteps cwd name (utf8 s) by simp [diskSteps], List.append_assoc, run_append d, run_append d, run_write, run_away]
  · simp [setAt]
  · intro st hst
    have hst' : st ∈ diskSteps cwd ((p2 ++ Event.written name :: q) ++ rest) := by
      rw [diskSteps_append]
      rcases List.mem_append.1 hst with h | h
      · exact List.mem_append_left _ h
      · refine List.mem_append_right _ ?_
        rw [← effects_disk]
        exact ((List.take_prefix k' _).filterMap Effect.disk?).subset h
    obtain ⟨n, c, hm, hpc⟩ := diskSteps_places st hst'
    rw [hpc]
    intro heq
    rw [hdone, List.append_assoc, List.append_assoc, writesOf_append, writesOf_append, List.map_append, List.map_append] at honce
    have honce2 := (List.nodup_append.1 honce).2.1
    have := (List.nodup_append.1 honce2).2.2 (locate cwd name) (by simp [writesOf]) (locate cwd n)
      (List.mem_map.2 ⟨(n, c), hm, rfl⟩)
    exact this heq.symm

/-- C79.  And the scripts of all rules announced in these lines, except the last one announced, are complete at this moment. -/
theorem C79_before (u : GoVersion) (lib : GoLib) (hg : FollowsGo u lib) (ans : List (Str × Str) → Option Err) (cwd : List Str) (outdir : Str) (inputs : List Input)
    (hn : ∀ inp ∈ inputs, '\n' ∉ inp.name) (ho : '\n' ∉ outdir) (files : List File) (hf : Loads lib inputs files) (d : Disk) (k : Nat) (text : Str)
    (hw : WholeLines text) (hp : text <+: logAfter (stoppedEffects lib cwd outdir inputs ans k)) :
    ∃ entries, readLog text = some entries ∧ ∀ i s p, i + 1 < announced entries → HasScript files i s → IsScriptPlace cwd outdir i p →
      diskAfter d (stoppedEffects lib cwd outdir inputs ans k) p = some (utf8 s) := by
  obtain ⟨entries, he, hwr⟩ := C79_written u lib hg ans cwd outdir inputs hn ho d k text hw hp
  refine ⟨entries, he, ?_⟩
  intro i s p hi hs hpl
  obtain ⟨h1, -⟩ := run_messages ans hg hn ho
  obtain ⟨done, rest, k', htr, htext, -⟩ := stopped_lines cwd _ k text h1 hw hp
  have hentries : entries = done.filterMap entryOf := by
    rw [htext, texts_messages, readLog_events _ (oneLiners_prefix (b := rest) (by rw [← htr]; exact h1))] at he
    exact (Option.some.inj he).symm
  have hmem := run_before ans hf done ⟨rest, htr.symm⟩ i s hs (by rw [← announced_entries, ← hentries]; exact hi)
  have hentry : Entry.written (joinPath outdir (scriptName i)) ∈ entries := by
    rw [hentries]; exact List.mem_filterMap.2 ⟨_, hmem, rfl⟩
  obtain ⟨files', i', s', hf', hs', hpl', hdisk⟩ := hwr _ hentry
  cases loads_unique hf hf'
  rw [locate_script] at hpl' hdisk
  have : i = i' := place_inj (isScriptPlace_iff.1 hpl')
  subst this
  obtain ⟨r, hr1, hr2⟩ := hs
  obtain ⟨r', hr1', hr2'⟩ := hs'
  rw [hr1] at hr1'; cases hr1'
  rw [hr2] at hr2'; cases hr2'
  rw [isScriptPlace_iff.1 hpl]
  exact hdisk

/-- C79.  And the operating system has confirmed the write of every file the lines say has been written. -/
theorem C79_confirmed (u : GoVersion) (lib : GoLib) (hg : FollowsGo u lib) (ans : List (Str × Str) → Option Err) (cwd : List Str) (outdir : Str) (inputs : List Input)
    (hn : ∀ inp ∈ inputs, '\n' ∉ inp.name) (ho : '\n' ∉ outdir) (k : Nat) (text : Str)
    (hw : WholeLines text) (hp : text <+: logAfter (stoppedEffects lib cwd outdir inputs ans k)) :
    ∃ entries, readLog text = some entries ∧ ∀ name, Entry.written name ∈ entries →
      ∃ before s, before ++ [(name, s)] <+: writesOf (runCmd lib ans outdir inputs).1 ∧ ans (before ++ [(name, s)]) = none := by
  obtain ⟨h1, -⟩ := run_messages ans hg hn ho
  obtain ⟨done, rest, k', htr, htext, -⟩ := stopped_lines cwd _ k text h1 hw hp
  refine ⟨done.filterMap entryOf, ?_, ?_⟩
  · rw [htext, texts_messages]; exact readLog_events _ (oneLiners_prefix (b := rest) (by rw [← htr]; exact h1))
  intro name hname
  obtain ⟨p, s, r, he, hans⟩ := run_confirmed (lib := lib) (outdir := outdir) (inputs := inputs) ans name
    (by rw [htr]; exact List.mem_append_left _ (entryOf_written hname))
  have hwr : writesOf (p ++ [Event.write name s]) = writesOf p ++ [(name, s)] := by rw [writesOf_append]; rfl
  refine ⟨writesOf p, s, ?_, by rw [← hwr]; exact hans⟩
  rw [he, ← hwr, show p ++ Event.write name s :: r = (p ++ [Event.write name s]) ++ r by simp, writesOf_append _ r]
  exact List.prefix_append _ _

/-- C79.  What whole lines of the log of a stopped run say is the beginning of what the log of the whole run says before its final error, if there is one. -/
theorem C79_beginning (u : GoVersion) (lib : GoLib) (hg : FollowsGo u lib) (ans : List (Str × Str) → Option Err) (cwd : List Str) (outdir : Str) (inputs : List Input)
    (hn : ∀ inp ∈ inputs, '\n' ∉ inp.name) (ho : '\n' ∉ outdir) (k : Nat) (text : Str)
    (hw : WholeLines text) (hp : text <+: logAfter (stoppedEffects lib cwd outdir inputs ans k)) :
    ∃ entries all log, readLog text = some entries ∧ readLog log = some all ∧ entries <+: all ∧
      stderrText (runCmd lib ans outdir inputs) = log ++ match (runCmd lib ans outdir inputs).2 with | .err e => entryText e.text | _ => [] := by
  obtain ⟨h1, -⟩ := run_messages ans hg hn ho
  obtain ⟨done, rest, k', htr, htext, -⟩ := stopped_lines cwd _ k text h1 hw hp
  refine ⟨done.filterMap entryOf, (runCmd lib ans outdir inputs).1.filterMap entryOf, ((runCmd lib ans outdir inputs).1.filterMap Event.message).flatMap logLine, ?_,
    readLog_events _ h1, ?_, rfl⟩
  · rw [htext, texts_messages]; exact readLog_events _ (oneLiners_prefix (b := rest) (by rw [← htr]; exact h1))
  · rw [htr, List.filterMap_append]; exact List.prefix_append _ _

/-! ## Examples -/

/-- The run of the example in Props/Log, stopped in the middle of the second script (after 500 of 1292 steps). -/
example : (effects [] logFine.1).length = 1292 ∧ stoppedEffects (refLib asciiGo) [] cmdOut cmdInputs cmdFine 500 = (effects [] logFine.1).take 500 :=
  ⟨by decide +kernel, rfl⟩

/-- Its log, which consists of whole lines. -/
def crashText : Str := logAfter ((effects [] logFine.1).take 500)

example : WholeLines crashText ∧ (readLog crashText).map (·.drop 5) =
    some [.rule "(Add8 x y) => (Add8 y x)".toList, .written "out/0000.smt2".toList, .rule "(Add16 x y) => (Add16 y x)".toList] ∧
    ((readLog crashText).map announced) = some 2 ∧
    (diskAfter (fun _ => none) ((effects [] logFine.1).take 500) ["out".toList, "0000.smt2".toList]).map List.length = some 201 ∧
    (diskAfter (fun _ => none) ((effects [] logFine.1).take 500) ["out".toList, "0001.smt2".toList]).map List.length = some 7 :=
  ⟨.inr (by decide +kernel), by decide +kernel, by decide +kernel, by decide +kernel, by decide +kernel⟩

/-- Stopped in the middle of the message about the first script: the file is complete, the whole lines do not say so yet. -/
example : (logAfter ((effects [] logFine.1).take 430)).drop 206 = "ssarules: smt2: writte".toList ∧
    (readLog ((logAfter ((effects [] logFine.1).take 430)).take 206)).map announced = some 1 := by decide +kernel

end Verif.Props

import Verif.Proof.Disk
import Verif.Props.Cmd
/-!
# Properties of the files the command writes (C41, C45, C47, C48)

Places in the file system and file names as in `Spec/Cmd.lean` (`locate`, `IsScriptName`), the small steps of a run as in `Spec/Disk.lean`.
The working directory `cwd` of the process is arbitrary in all theorems.
-/
namespace Verif.Props
open Verif Verif.Spec Verif.Proof

/-! ## C41 -/

/-- C41.  Every number has exactly one name `%04d.smt2`, and the name determines the number. -/
theorem C41_name_unique (i : Nat) : (∃ n, IsScriptName i n) ∧ (∀ n n', IsScriptName i n → IsScriptName i n' → n = n') ∧
    ∀ j n, IsScriptName i n → IsScriptName j n → i = j := by
  refine ⟨⟨_, isScriptName_scriptName i⟩, fun n n' h h' => ?_, fun j n h h' => ?_⟩
  · rw [isScriptName_iff.1 h, isScriptName_iff.1 h']
  · exact scriptName_inj ((isScriptName_iff.1 h).symm.trans (isScriptName_iff.1 h'))

example : IsScriptName 7 "0007.smt2".toList ∧ IsScriptName 12345 "12345.smt2".toList ∧ ¬ IsScriptName 7 "007.smt2".toList ∧
    ¬ IsScriptName 7 "00007.smt2".toList := by
  refine ⟨isScriptName_iff.2 (by decide +kernel), isScriptName_iff.2 (by decide +kernel), fun h => ?_, fun h => ?_⟩
  · have := isScriptName_iff.1 h; revert this; decide +kernel
  · have := isScriptName_iff.1 h; revert this; decide +kernel

/-- C41.  In every run, whatever is written is the script of a rule and goes to the place named after the number of that rule in the output
directory. -/
theorem C41_written_place (lib : GoLib) (ans : List (Str × Str) → Option Err) (cwd : List Str) (outdir : Str) (inputs : List Input) (n s : Str)
    (h : (n, s) ∈ writesOf (runCmd lib ans outdir inputs).1) :
    ∃ files, Loads lib inputs files ∧ ∃ i, HasScript files i s ∧ IsScriptPlace cwd outdir i (locate cwd n) := by
  obtain ⟨files, hl, i, r, h1, rfl, h3⟩ := C41_written_is_rule lib ans outdir inputs n s h
  exact ⟨files, hl, i, ⟨r, h1, h3⟩, isScriptPlace_iff.2 (locate_script cwd outdir i)⟩

/-- C41.  In a successful run something is written to the place of rule number `i` exactly if the rule exists and the generator accepts it, and
it is the generator's script. -/
theorem C41_written_place_iff (lib : GoLib) (ans : List (Str × Str) → Option Err) (cwd : List Str) (outdir : Str) (inputs : List Input)
    (tr : List Event) (hr : runCmd lib ans outdir inputs = (tr, .ok ())) (files : List File) (hl : Loads lib inputs files) (i : Nat) (s : Str) :
    (∃ n, (n, s) ∈ writesOf tr ∧ IsScriptPlace cwd outdir i (locate cwd n)) ↔ HasScript files i s := by
  constructor
  · rintro ⟨n, hn, hp⟩
    have hn' : (n, s) ∈ writesOf (runCmd lib ans outdir inputs).1 := by rw [hr]; exact hn
    obtain ⟨files', hl', j, hs, hj⟩ := C41_written_place lib ans cwd outdir inputs n s hn'
    cases loads_unique hl hl'
    have : i = j := place_inj ((isScriptPlace_iff.1 hp).symm.trans (isScriptPlace_iff.1 hj))
    subst this; exact hs
  · rintro ⟨r, h1, h2⟩
    exact ⟨_, (C41_written_iff lib ans outdir inputs tr hr files hl i s).2 ⟨r, h1, h2⟩, isScriptPlace_iff.2 (locate_script cwd outdir i)⟩

/-- C41.  No run writes to a place twice. -/
theorem C41_places_once (lib : GoLib) (ans : List (Str × Str) → Option Err) (cwd : List Str) (outdir : Str) (inputs : List Input) :
    ((writesOf (runCmd lib ans outdir inputs).1).map fun w => locate cwd w.1).Nodup := by
  have h := C41_once lib ans outdir inputs
  have hinj : ∀ w ∈ writesOf (runCmd lib ans outdir inputs).1, ∃ i, w.1 = joinPath outdir (scriptName i) := by
    rintro ⟨n, s⟩ hw
    obtain ⟨_, _, i, _, _, e, _⟩ := C41_written_is_rule lib ans outdir inputs n s hw
    exact ⟨i, e⟩
  revert h hinj
  generalize writesOf (runCmd lib ans outdir inputs).1 = ws
  intro h hinj
  induction ws with
  | nil => simp
  | cons w ws ih =>
    rw [List.map_cons, List.nodup_cons] at h ⊢
    refine ⟨?_, ih h.2 (fun v hv => hinj v (by simp [hv]))⟩
    intro hm
    obtain ⟨v, hv, e⟩ := List.mem_map.1 hm
    apply h.1
    obtain ⟨i, hi⟩ := hinj w (by simp)
    obtain ⟨j, hj⟩ := hinj v (by simp [hv])
    rw [hi, hj, locate_script, locate_script] at e
    have : j = i := place_inj e
    subst this
    exact List.mem_map.2 ⟨v, hv, by rw [hi, hj]⟩

/-- C41.  `filepath.Join` and `filepath.Clean` do not change which directory is meant: `..`, `.`, doubled and trailing slashes included. -/
example : locate [['h']] "a/../../out//x/./".toList = ["out".toList, ['x']] ∧
    locate [['h']] (joinPath "a/../../out//x/./".toList (scriptName 3)) = ["out".toList, ['x'], "0003.smt2".toList] ∧
    joinPath "a/../../out//x/./".toList (scriptName 3) = "../out/x/0003.smt2".toList := by decide +kernel

/-! ## C45 -/

/-- C45.  After a successful run the place of a rule holds the script of the rule, if the generator accepts it; every other place is as before. -/
theorem C45_disk_after (lib : GoLib) (ans : List (Str × Str) → Option Err) (cwd : List Str) (outdir : Str) (inputs : List Input) (d : Disk)
    (hr : (runCmd lib ans outdir inputs).2 = .ok ()) :
    ∃ files, Loads lib inputs files ∧
      (∀ i s p, HasScript files i s → IsScriptPlace cwd outdir i p → finished lib cwd outdir inputs ans d p = some (utf8 s)) ∧
      ∀ p, (¬ ∃ i s, HasScript files i s ∧ IsScriptPlace cwd outdir i p) → finished lib cwd outdir inputs ans d p = d p := by
  obtain ⟨files, hl, e⟩ := C40_trace lib ans outdir inputs _ (Prod.ext rfl hr)
  refine ⟨files, hl, ?_⟩
  replace e : (runCmd lib ans outdir inputs).1 = allEvents outdir inputs files := e
  have hsteps : diskSteps cwd (runCmd lib ans outdir inputs).1 = diskSteps cwd (rulesEvents outdir 0 (verified files)) := by
    rw [e, allEvents, diskSteps_append, diskSteps_append, diskSteps_nil (parsedEvents_writes inputs files)]; rfl
  obtain ⟨h1, h2⟩ := rules_finished cwd outdir (verified files) 0 d
  rw [finished, hsteps]
  constructor
  · rintro i s p ⟨r, hi, hg⟩ hp
    have := h1 i r s hi hg
    rw [isScriptPlace_iff.1 hp]; simpa using this
  · intro p hp
    refine h2 p fun t r s ht hg he => hp ⟨t, s, ⟨r, ht, hg⟩, ?_⟩
    rw [isScriptPlace_iff]; simpa using he

/-! ## C47 -/

/-- C47.  If a run is stopped after any number of steps, in the middle of a write or between two writes, then either nothing has changed, or
there is a rule number `m` such that: the places of all accepted rules before `m` hold their complete scripts; the place of rule `m` is as
before or holds a beginning of its script; every other place is as before. -/
theorem C47_stopped (lib : GoLib) (ans : List (Str × Str) → Option Err) (cwd : List Str) (outdir : Str) (inputs : List Input) (k : Nat) (d : Disk) :
    stopped lib cwd outdir inputs ans k d = d ∨
    ∃ files, Loads lib inputs files ∧ ∃ m,
      (∀ i s p, i < m → HasScript files i s → IsScriptPlace cwd outdir i p → stopped lib cwd outdir inputs ans k d p = some (utf8 s)) ∧
      (∀ p, IsScriptPlace cwd outdir m p → stopped lib cwd outdir inputs ans k d p = d p ∨
        ∃ s part, HasScript files m s ∧ part <+: utf8 s ∧ stopped lib cwd outdir inputs ans k d p = some part) ∧
      ∀ p, (¬ ∃ i s, i ≤ m ∧ HasScript files i s ∧ IsScriptPlace cwd outdir i p) → stopped lib cwd outdir inputs ans k d p = d p := by
  by_cases hw : writesOf (runCmd lib ans outdir inputs).1 = []
  · left; rw [stopped, diskSteps_nil hw]; simp [Disk.run]
  · right
    obtain ⟨files, hl, _, rest, e⟩ := run_writes hw
    refine ⟨files, hl, ?_⟩
    have hsteps : diskSteps cwd (allEvents outdir inputs files) = diskSteps cwd (rulesEvents outdir 0 (verified files)) := by
      rw [allEvents, diskSteps_append, diskSteps_append, diskSteps_nil (parsedEvents_writes inputs files)]; rfl
    have htake : ∃ k', (diskSteps cwd (runCmd lib ans outdir inputs).1).take k = (diskSteps cwd (rulesEvents outdir 0 (verified files))).take k' := by
      refine ⟨min k (diskSteps cwd (runCmd lib ans outdir inputs).1).length, ?_⟩
      rw [← hsteps, e, diskSteps_append, List.take_append_of_le_length (Nat.min_le_right _ _)]
      by_cases hk : k ≤ (diskSteps cwd (runCmd lib ans outdir inputs).1).length
      · rw [Nat.min_eq_left hk]
      · rw [Nat.min_eq_right (by omega), List.take_of_length_le (by omega), List.take_of_length_le (Nat.le_refl _)]
    obtain ⟨k', htake⟩ := htake
    obtain ⟨m, h1, h2, h3⟩ := rules_stopped cwd outdir (verified files) 0 k' d
    rw [stopped, htake]
    refine ⟨m, ?_, ?_, ?_⟩
    · rintro i s p hi ⟨r, hr, hg⟩ hp
      have := h1 i r s hi hr hg
      rw [isScriptPlace_iff.1 hp]; simpa using this
    · intro p hp
      rw [isScriptPlace_iff.1 hp]
      rw [Nat.zero_add] at h2
      rcases h2 with h2 | ⟨r, s, part, hr, hg, hpt, h2⟩
      · exact .inl h2
      · exact .inr ⟨s, part, ⟨r, hr, hg⟩, hpt, h2⟩
    · intro p hp
      refine h3 p fun t r s ht hr hg he => hp ⟨t, s, ht, ⟨r, hr, hg⟩, ?_⟩
      rw [isScriptPlace_iff]; simpa using he

/-- C47.  In particular nothing outside the output directory is ever touched, and in it only files with names `%04d.smt2`; an input file that is
not one of those is never changed. -/
theorem C47_elsewhere (lib : GoLib) (ans : List (Str × Str) → Option Err) (cwd : List Str) (outdir : Str) (inputs : List Input) (k : Nat) (d : Disk)
    (p : List Str) (hp : ¬ ∃ i, IsScriptPlace cwd outdir i p) : stopped lib cwd outdir inputs ans k d p = d p := by
  rcases C47_stopped lib ans cwd outdir inputs k d with e | ⟨files, _, m, _, _, h⟩
  · rw [e]
  · exact h p fun ⟨i, _, _, _, hi⟩ => hp ⟨i, hi⟩

/-! ## C48 -/

/-- A history of the command on the same inputs: every run is stopped after some number of steps, with whatever answers to its writes. -/
def history (lib : GoLib) (cwd : List Str) (outdir : Str) (inputs : List Input) (runs : List ((List (Str × Str) → Option Err) × Nat)) (d : Disk) : Disk :=
  runs.foldl (fun d r => stopped lib cwd outdir inputs r.1 r.2 d) d

/-- C48.  However many runs were stopped at whatever points, one run that succeeds brings the disk to the same state as if it had been the only
one. -/
theorem C48_recovers (lib : GoLib) (ans : List (Str × Str) → Option Err) (cwd : List Str) (outdir : Str) (inputs : List Input)
    (runs : List ((List (Str × Str) → Option Err) × Nat)) (d : Disk) (hr : (runCmd lib ans outdir inputs).2 = .ok ()) :
    finished lib cwd outdir inputs ans (history lib cwd outdir inputs runs d) = finished lib cwd outdir inputs ans d := by
  obtain ⟨files, hl, h1, h2⟩ := C45_disk_after lib ans cwd outdir inputs d hr
  obtain ⟨files', hl', h1', h2'⟩ := C45_disk_after lib ans cwd outdir inputs (history lib cwd outdir inputs runs d) hr
  cases loads_unique hl hl'
  funext p
  by_cases hp : ∃ i s, HasScript files i s ∧ IsScriptPlace cwd outdir i p
  · obtain ⟨i, s, hs, hi⟩ := hp
    rw [h1 i s p hs hi, h1' i s p hs hi]
  · rw [h2 p hp, h2' p hp]
    clear h1 h2 h1' h2'
    unfold history
    induction runs generalizing d with
    | nil => rfl
    | cons r runs ih =>
      rw [List.foldl_cons, ih]
      rcases C47_stopped lib r.1 cwd outdir inputs r.2 d with e | ⟨files', hl', m, _, _, h⟩
      · rw [e]
      · cases loads_unique hl hl'
        exact h p fun ⟨i, s, _, hs, hi⟩ => hp ⟨i, s, hs, hi⟩

/-- The example: the run of `cmdInputs` stopped in the middle of the second script, over an older file with that name, and a file of rule number 2,
which is rejected, left from before. -/
def oldDisk : Disk := fun p => if p = ["out".toList, "0001.smt2".toList] then some [1, 2, 3] else if p = ["out".toList, "0002.smt2".toList] then some [4] else none

example : let d := stopped demoLib [] cmdOut cmdInputs cmdFine 250 oldDisk
    (d ["out".toList, "0000.smt2".toList]).map (·.length) = some 201 ∧
    (d ["out".toList, "0001.smt2".toList]).map (·.length) = some 47 ∧
    d ["out".toList, "0002.smt2".toList] = some [4] ∧ d ["out".toList, "0003.smt2".toList] = none := by decide +kernel

example : (runCmd demoLib cmdFine cmdOut cmdInputs).2 = .ok () := by
  have := congrArg Prod.snd cmd_fine
  simpa [cmdNames] using this

end Verif.Props

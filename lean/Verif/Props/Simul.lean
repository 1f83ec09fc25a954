import Verif.Proof.Simul
import Verif.Props.Disk
/-!
# Several runs of the command at the same time (C69)

The processes, their operations and their interleavings as in `Spec/Simul.lean`.
-/
namespace Verif.Props
open Verif Verif.Spec Verif.Proof

/-- C69.  A process that nobody disturbs does what C45 and C47 say. -/
theorem C69_alone (lib : GoLib) (c : CmdProc) (d : Disk) : d.ops (c.ops lib) = finished lib c.cwd c.outdir c.inputs c.ans d := ops_alone _ _ d

/-- What a process does at one place: nothing, or it writes the script of its rule there, once. -/
theorem proc_at (lib : GoLib) (c : CmdProc) (p : List Str) : atPlace p (c.ops lib) = [] ∨ ∃ s, c.Puts lib p s ∧ atPlace p (c.ops lib) = .trunc p :: putsFrom p 0 (utf8 s) := by
  by_cases h : ∃ w ∈ writesOf (runCmd lib c.ans c.outdir c.inputs).1, locate c.cwd w.1 = p
  · obtain ⟨⟨n, s⟩, hw, hp⟩ := h
    right
    obtain ⟨files, hl, i, hs, hi⟩ := C41_written_place lib c.ans c.cwd c.outdir c.inputs n s hw
    replace hp : locate c.cwd n = p := hp
    rw [hp] at hi
    exact ⟨s, ⟨files, i, hl, hs, hi⟩, fileOps_one (C41_places_once lib c.ans c.cwd c.outdir c.inputs) hw hp⟩
  · left
    exact fileOps_none fun w hw e => h ⟨w, hw, e⟩

theorem proc_puts {lib : GoLib} {c : CmdProc} (hok : c.Succeeds lib) {p : List Str} {s : Str} (h : c.Puts lib p s) :
    atPlace p (c.ops lib) = .trunc p :: putsFrom p 0 (utf8 s) := by
  obtain ⟨files, i, hl, hs, hi⟩ := h
  obtain ⟨n, hn, hp⟩ := (C41_written_place_iff lib c.ans c.cwd c.outdir c.inputs _ (Prod.ext rfl hok) files hl i s).2 hs
  refine fileOps_one (C41_places_once lib c.ans c.cwd c.outdir c.inputs) hn ?_
  rw [isScriptPlace_iff] at hi hp
  rw [hi, hp]

theorem puts_unique {lib : GoLib} {cmds : List CmdProc} (hc : Compatible lib cmds) {c c' : CmdProc} (h : c ∈ cmds) (h' : c' ∈ cmds) {p : List Str} {s s' : Str}
    (hp : c.Puts lib p s) (hp' : c'.Puts lib p s') : s = s' := by
  obtain ⟨files, i, hl, ⟨r, hr, hg⟩, n, hn, e⟩ := hp
  obtain ⟨files', i', hl', ⟨r', hr', hg'⟩, n', hn', e'⟩ := hp'
  obtain ⟨e1, e2⟩ := List.append_inj' (e.symm.trans e') rfl
  cases hc c h c' h' e1 files files' hl hl'
  simp only [List.cons.injEq, and_true] at e2
  subst e2
  have := (C41_name_unique i).2.2 i' n hn hn'
  subst this
  rw [hr, Option.some.injEq] at hr'
  subst hr'
  rw [hg] at hg'
  simpa using hg'

theorem procs_once {lib : GoLib} {cmds : List CmdProc} (hc : Compatible lib cmds) {c : CmdProc} (h : c ∈ cmds) {p : List Str} {s : Str} (hp : c.Puts lib p s) :
    ∀ l ∈ cmds.map (CmdProc.ops lib), Once p (utf8 s) l := by
  intro l hl
  obtain ⟨c', h', rfl⟩ := List.mem_map.1 hl
  rcases proc_at lib c' p with e | ⟨s', hp', e⟩
  · exact .inl e
  · cases puts_unique hc h h' hp hp'
    exact .inr e

theorem procs_untouched {lib : GoLib} {cmds : List CmdProc} {p : List Str} (hp : ¬ ∃ c ∈ cmds, ∃ s, c.Puts lib p s) :
    ∀ l ∈ cmds.map (CmdProc.ops lib), atPlace p l = [] := by
  intro l hl
  obtain ⟨c', h', rfl⟩ := List.mem_map.1 hl
  rcases proc_at lib c' p with e | ⟨s', hp', e⟩
  · exact e
  · exact absurd ⟨c', h', s', hp'⟩ hp

/-- C69.  Several runs at the same time, in any interleaving of their operations, where runs with the same output directory have the same rules: when all of them have
ended, without an error, then the place of every rule of every process holds its complete script, and every other place is as before. -/
theorem C69_finished (lib : GoLib) (cmds : List CmdProc) (hc : Compatible lib cmds) (hok : ∀ c ∈ cmds, c.Succeeds lib)
    (done : List FileOp) (rest : List (List FileOp)) (h : Exec (cmds.map (CmdProc.ops lib)) done rest) (hend : ∀ l ∈ rest, l = []) (d : Disk) :
    (∀ c ∈ cmds, ∀ p s, c.Puts lib p s → d.ops done p = some (utf8 s)) ∧
    ∀ p, (¬ ∃ c ∈ cmds, ∃ s, c.Puts lib p s) → d.ops done p = d p :=
  ⟨fun c hm p s hp => simul_final h hend (procs_once hc hm hp) ⟨_, List.mem_map.2 ⟨c, hm, rfl⟩, proc_puts (hok c hm) hp⟩ d,
    fun _ hp => simul_untouched h (procs_untouched hp) d⟩

/-- Processes that run one after the other. -/
theorem exec_whole {α : Type} {progs : List (List α)} : ∀ (l : List α) {done : List α} {rest : List (List α)} {j : Nat}, Exec progs done rest → rest[j]? = some l →
    Exec progs (done ++ l) (rest.set j [])
  | [], done, rest, j, h, hj => by
    have : rest.set j [] = rest := by
      apply List.ext_getElem?
      intro i
      rw [set_get hj]
      split
      · rename_i e; rw [e, hj]
      · rfl
    rw [this, List.append_nil]; exact h
  | a :: l, done, rest, j, h, hj => by
    have h2 := exec_whole l (Exec.step j h hj) (by rw [set_get hj, if_pos rfl])
    rw [List.set_set, List.append_assoc] at h2
    exact h2

theorem exec_rest {α : Type} {progs : List (List α)} : ∀ (B A : List (List α)) {done : List α}, Exec progs done (A ++ B) →
    Exec progs (done ++ B.flatten) (A ++ B.map fun _ => [])
  | [], A, done, h => by simpa using h
  | l :: B, A, done, h => by
    have h1 := exec_whole l (j := A.length) h (by simp)
    have e : (A ++ l :: B).set A.length [] = (A ++ [[]]) ++ B := by simp
    rw [e] at h1
    have h2 := exec_rest B (A ++ [[]]) h1
    simpa using h2

theorem exec_sequential {α : Type} (progs : List (List α)) : Exec progs progs.flatten (progs.map fun _ => []) := by
  simpa using exec_rest progs [] (Exec.start progs)

theorem ops_sequential (lib : GoLib) : ∀ (cmds : List CmdProc) (d : Disk),
    d.ops (cmds.map (CmdProc.ops lib)).flatten = cmds.foldl (fun d c => finished lib c.cwd c.outdir c.inputs c.ans d) d
  | [], d => rfl
  | c :: cmds, d => by rw [List.map_cons, List.flatten_cons, ops_append, C69_alone, ops_sequential lib cmds, List.foldl_cons]

/-- C69.  So the result is the same as if the processes had run one after the other. -/
theorem C69_serial (lib : GoLib) (cmds : List CmdProc) (hc : Compatible lib cmds) (hok : ∀ c ∈ cmds, c.Succeeds lib)
    (done : List FileOp) (rest : List (List FileOp)) (h : Exec (cmds.map (CmdProc.ops lib)) done rest) (hend : ∀ l ∈ rest, l = []) (d : Disk) :
    d.ops done = cmds.foldl (fun d c => finished lib c.cwd c.outdir c.inputs c.ans d) d := by
  rw [← ops_sequential]
  obtain ⟨h1, h2⟩ := C69_finished lib cmds hc hok done rest h hend d
  obtain ⟨h3, h4⟩ := C69_finished lib cmds hc hok _ _ (exec_sequential _) (by
    intro l hl
    obtain ⟨_, _, e⟩ := List.mem_map.1 hl
    exact e.symm) d
  funext p
  by_cases hp : ∃ c ∈ cmds, ∃ s, c.Puts lib p s
  · obtain ⟨c, hm, s, hs⟩ := hp
    rw [h1 c hm p s hs, h3 c hm p s hs]
  · rw [h2 p hp, h4 p hp]

/-- C69.  In particular, runs with the same rules and the same output directory together do what each of them does alone. -/
theorem C69_same (lib : GoLib) (cmds : List CmdProc) (files : List File) (dir : List Str) (hl : ∀ c ∈ cmds, Loads lib c.inputs files)
    (hd : ∀ c ∈ cmds, locate c.cwd c.outdir = dir) (hok : ∀ c ∈ cmds, c.Succeeds lib)
    (done : List FileOp) (rest : List (List FileOp)) (h : Exec (cmds.map (CmdProc.ops lib)) done rest) (hend : ∀ l ∈ rest, l = []) (d : Disk)
    (c : CmdProc) (hm : c ∈ cmds) : d.ops done = finished lib c.cwd c.outdir c.inputs c.ans d := by
  have hc : Compatible lib cmds := by
    intro a ha b hb _ f f' h1 h2
    rw [loads_unique h1 (hl a ha), loads_unique h2 (hl b hb)]
  obtain ⟨h1, h2⟩ := C69_finished lib cmds hc hok done rest h hend d
  obtain ⟨files', hl', k1, k2⟩ := C45_disk_after lib c.ans c.cwd c.outdir c.inputs d (hok c hm)
  cases loads_unique hl' (hl c hm)
  funext p
  by_cases hp : ∃ i s, HasScript files i s ∧ IsScriptPlace c.cwd c.outdir i p
  · obtain ⟨i, s, hs, hi⟩ := hp
    rw [k1 i s p hs hi, h1 c hm p s ⟨files, i, hl', hs, hi⟩]
  · rw [k2 p hp]
    refine h2 p ?_
    rintro ⟨c', hm', s, files', i, hl2, hs, n, hn, e⟩
    cases loads_unique hl2 (hl c' hm')
    exact hp ⟨i, s, hs, n, hn, by rw [hd c hm, ← hd c' hm', e]⟩

/-- C69.  At every moment, and when some of the processes were killed or failed: the place of a rule is as before, or holds a text that is not longer than the script and
agrees with it except that some bytes may be zero; every other place is as before. -/
theorem C69_meanwhile (lib : GoLib) (cmds : List CmdProc) (hc : Compatible lib cmds)
    (done : List FileOp) (rest : List (List FileOp)) (h : Exec (cmds.map (CmdProc.ops lib)) done rest) (d : Disk) :
    (∀ c ∈ cmds, ∀ p s, c.Puts lib p s → d.ops done p = d p ∨ ∃ part, d.ops done p = some part ∧ Patchy part (utf8 s)) ∧
    ∀ p, (¬ ∃ c ∈ cmds, ∃ s, c.Puts lib p s) → d.ops done p = d p :=
  ⟨fun c hm p s hp => simul_meanwhile h (procs_once hc hm hp) d, fun _ hp => simul_untouched h (procs_untouched hp) d⟩

/-- C69.  Whatever the processes have been given: at every moment, everything except the places of scripts is as before. -/
theorem C69_elsewhere (lib : GoLib) (cmds : List CmdProc) (done : List FileOp) (rest : List (List FileOp)) (h : Exec (cmds.map (CmdProc.ops lib)) done rest) (d : Disk)
    (p : List Str) (hp : ∀ c ∈ cmds, ¬ ∃ i, IsScriptPlace c.cwd c.outdir i p) : d.ops done p = d p :=
  simul_untouched h (procs_untouched fun ⟨c, hm, _, _, i, _, _, hi⟩ => hp c hm ⟨i, hi⟩) d

/-- C69.  After runs with the same rules and the same output directory that were stopped at any points, one run that succeeds, alone, repairs everything. -/
theorem C69_repair (lib : GoLib) (cmds : List CmdProc) (c : CmdProc) (hin : ∀ c' ∈ cmds, c'.inputs = c.inputs) (hd : ∀ c' ∈ cmds, locate c'.cwd c'.outdir = locate c.cwd c.outdir)
    (done : List FileOp) (rest : List (List FileOp)) (h : Exec (cmds.map (CmdProc.ops lib)) done rest) (d : Disk) (hok : c.Succeeds lib) :
    finished lib c.cwd c.outdir c.inputs c.ans (d.ops done) = finished lib c.cwd c.outdir c.inputs c.ans d := by
  obtain ⟨files, hl, h1, h2⟩ := C45_disk_after lib c.ans c.cwd c.outdir c.inputs d hok
  obtain ⟨files', hl', h1', h2'⟩ := C45_disk_after lib c.ans c.cwd c.outdir c.inputs (d.ops done) hok
  cases loads_unique hl hl'
  funext p
  by_cases hp : ∃ i s, HasScript files i s ∧ IsScriptPlace c.cwd c.outdir i p
  · obtain ⟨i, s, hs, hi⟩ := hp
    rw [h1 i s p hs hi, h1' i s p hs hi]
  · rw [h2 p hp, h2' p hp]
    refine simul_untouched h (procs_untouched ?_) d
    rintro ⟨c', hm', s, files', i, hl2, hs, n, hn, e⟩
    rw [hin c' hm'] at hl2
    cases loads_unique hl hl2
    exact hp ⟨i, s, hs, n, hn, by rw [← hd c' hm', e]⟩

/-! Without the condition on the rules the claim is false: two runs with different rules and the same output directory. -/

def mixA : CmdProc := { cwd := [], outdir := cmdOut, inputs := [{ name := ['a'], data := utf8 "(Add8 x y) => (Add8 y x)".toList }], ans := cmdFine }
def mixB : CmdProc := { cwd := [], outdir := cmdOut, inputs := [{ name := ['b'], data := utf8 "(And8 x x) => x".toList }], ans := cmdFine }

def mixPlace : List Str := [cmdOut, "0000.smt2".toList]

/-- both open the file, then the first writes all of its script, then the second -/
def mixed (a b : List FileOp) : List FileOp := a.take 1 ++ b.take 1 ++ a.drop 1 ++ b.drop 1

theorem mixed_exec (a b : List FileOp) (ha : a ≠ []) (hb : b ≠ []) : Exec [a, b] (mixed a b) [[], []] := by
  cases a with
  | nil => exact absurd rfl ha
  | cons x a =>
    cases b with
    | nil => exact absurd rfl hb
    | cons y b =>
      have h1 := Exec.step (l := a) 0 (Exec.start [x :: a, y :: b]) rfl
      have h2 := Exec.step (l := b) 1 h1 rfl
      have h3 := exec_whole a (j := 0) h2 rfl
      have h4 := exec_whole b (j := 1) h3 rfl
      simpa [mixed] using h4

/-- the file after `done`, and after each of the runs alone -/
def mixOutcome : Option (List UInt8) × Option (List UInt8) × Option (List UInt8) :=
  let d : Disk := fun _ => none
  (d.ops (mixed (mixA.ops demoLib) (mixB.ops demoLib)) mixPlace, finished demoLib [] cmdOut mixA.inputs cmdFine d mixPlace,
    finished demoLib [] cmdOut mixB.inputs cmdFine d mixPlace)

theorem mix_facts : mixA.ops demoLib ≠ [] ∧ mixB.ops demoLib ≠ [] ∧ mixOutcome.1 ≠ mixOutcome.2.1 ∧ mixOutcome.1 ≠ mixOutcome.2.2 ∧ mixOutcome.2.1.isSome = true ∧ mixOutcome.2.2.isSome = true ∧
    mixOutcome.1.isSome = true := by
  refine ⟨?_, ?_, ?_⟩
  · intro h; have := congrArg List.length h; revert this; decide +kernel
  · intro h; have := congrArg List.length h; revert this; decide +kernel
  · decide +kernel

theorem mix_ok : mixA.Succeeds demoLib ∧ mixB.Succeeds demoLib := by
  have h : (cmdNames (runCmd demoLib mixA.ans mixA.outdir mixA.inputs)).2 = some (.ok ()) ∧ (cmdNames (runCmd demoLib mixB.ans mixB.outdir mixB.inputs)).2 = some (.ok ()) := by
    decide +kernel
  simpa [cmdNames, CmdProc.Succeeds] using h

/-- C69 needs that condition: two runs with different rules and the same output directory, both successful, can leave a file that is the script of neither. -/
theorem C69_mixed : ∃ done, Exec ([mixA, mixB].map (CmdProc.ops demoLib)) done [[], []] ∧ mixA.Succeeds demoLib ∧ mixB.Succeeds demoLib ∧ ∃ (d : Disk) (p : List Str) (a b c : List UInt8),
    finished demoLib mixA.cwd mixA.outdir mixA.inputs mixA.ans d p = some a ∧ finished demoLib mixB.cwd mixB.outdir mixB.inputs mixB.ans d p = some b ∧
    d.ops done p = some c ∧ c ≠ a ∧ c ≠ b := by
  obtain ⟨h1, h2, h3, h4, h5, h6, h7⟩ := mix_facts
  refine ⟨_, mixed_exec _ _ h1 h2, mix_ok.1, mix_ok.2, fun _ => none, mixPlace, ?_⟩
  obtain ⟨a, ha⟩ := Option.isSome_iff_exists.1 h5
  obtain ⟨b, hb⟩ := Option.isSome_iff_exists.1 h6
  obtain ⟨c, hc⟩ := Option.isSome_iff_exists.1 h7
  refine ⟨a, b, c, ha, hb, hc, ?_, ?_⟩
  · rintro rfl; exact h3 (hc.trans ha.symm)
  · rintro rfl; exact h4 (hc.trans hb.symm)

/-- The conditions of the theorems: two processes with the same inputs in different working directories and an output directory that is the same place; and a third with other
rules in another directory. -/
def simulA : CmdProc := { cwd := [['h']], outdir := "../out".toList, inputs := mixA.inputs, ans := cmdFine }
def simulC : CmdProc := { cwd := [['h']], outdir := "other".toList, inputs := mixB.inputs, ans := cmdFine }

example : (∀ c ∈ [mixA, simulA, simulC], c.Succeeds demoLib) ∧ Compatible demoLib [mixA, simulA, simulC] ∧ locate mixA.cwd mixA.outdir = locate simulA.cwd simulA.outdir ∧
    (simulA.ops demoLib).length > 1 ∧ (simulC.ops demoLib).length > 1 := by
  refine ⟨?_, ?_, by decide +kernel, by decide +kernel, by decide +kernel⟩
  · have h : (cmdNames (runCmd demoLib simulA.ans simulA.outdir simulA.inputs)).2 = some (.ok ()) ∧ (cmdNames (runCmd demoLib simulC.ans simulC.outdir simulC.inputs)).2 = some (.ok ()) := by
      decide +kernel
    have h' : simulA.Succeeds demoLib ∧ simulC.Succeeds demoLib := by simpa [cmdNames, CmdProc.Succeeds] using h
    intro c hc
    simp only [List.mem_cons, List.not_mem_nil, or_false] at hc
    rcases hc with rfl | rfl | rfl
    · exact mix_ok.1
    · exact h'.1
    · exact h'.2
  · have k1 : locate mixA.cwd mixA.outdir ≠ locate simulC.cwd simulC.outdir := by decide +kernel
    have k2 : locate simulA.cwd simulA.outdir ≠ locate simulC.cwd simulC.outdir := by decide +kernel
    intro c hc c' hc' e f f' hl hl'
    simp only [List.mem_cons, List.not_mem_nil, or_false] at hc hc'
    rcases hc with rfl | rfl | rfl <;> rcases hc' with rfl | rfl | rfl <;> first
      | exact loads_unique hl hl'
      | exact absurd e k1
      | exact absurd e k2
      | exact absurd e.symm k1
      | exact absurd e.symm k2

end Verif.Props

import Verif.Proof.Log
import Verif.Props.Roundtrip
import Verif.Props.Cmd
/-!
# What the command needs to know of its sources (C70)
-/
namespace Verif.Props
open Verif Verif.Spec Verif.Proof

/-- C70.  If a file is read back from its printed form, so is its expansion. -/
theorem C70_expansion_printed (u : GoVersion) (lib : GoLib) (hl : FollowsGo u lib) (f g : File) (hf : ∃ s, printBytes (.file f) = .ok s ∧ parseBytes lib (utf8 s) = .ok f)
    (he : expandAlternates f = .ok g) : ∃ s, printBytes (.file g) = .ok s ∧ parseBytes lib (utf8 s) = .ok g := by
  have h := (C18_exact u lib hl f).1 hf
  obtain ⟨h1, h2⟩ := expandAlternates_ok_iff.1 he
  refine (C18_exact u lib hl g).2 fun r hr => ?_
  rw [h2, List.mem_flatMap] at hr
  obtain ⟨r0, hr0, hr⟩ := hr
  simp only [expansion, List.mem_map, List.mem_range] at hr
  obtain ⟨i, hi, rfl⟩ := hr
  exact pick_stable (h r0 hr0) (h1 r0 hr0).2 hi

/-- The loop over the rules depends on the trace only through the writes. -/
theorem genLoop_writes (ans : List (Str × Str) → Option Err) (outdir : Str) (rs : List Rule) : ∀ (i : Nat) (tr tr' : List Event), writesOf tr = writesOf tr' →
    writesOf (genLoop ans outdir i rs tr).1 = writesOf (genLoop ans outdir i rs tr').1 ∧ (genLoop ans outdir i rs tr).2 = (genLoop ans outdir i rs tr').2 := by
  induction rs with
  | nil => intro i tr tr' h; exact ⟨h, rfl⟩
  | cons r rs ih =>
    intro i tr tr' h
    simp only [genLoop]
    split
    · exact ⟨h, rfl⟩
    · exact ⟨h, rfl⟩
    · rename_i text _
      have h1 : writesOf (tr ++ [.rule text]) = writesOf (tr' ++ [.rule text]) := by simp [writesOf_append, h]
      split
      · exact ⟨h1, rfl⟩
      · exact ih _ _ _ (by simp [writesOf_append, h])
      · rename_i b _
        have h2 : writesOf (tr ++ [.rule text] ++ [.write (joinPath outdir (scriptName i)) b]) = writesOf (tr' ++ [.rule text] ++ [.write (joinPath outdir (scriptName i)) b]) := by
          simp [writesOf_append, h]
        rw [h2]
        split
        · exact ⟨h2, rfl⟩
        · exact ih _ _ _ (by simp [writesOf_append, h])

theorem load_res {lib inputs files} (h : Loads lib inputs files) : (load lib inputs).2 = expandAlternates { rules := simpleRules files } ∧ writesOf (load lib inputs).1 = [] := by
  rw [load, parseAll_ok h]
  simp only [filter_ok h]
  generalize expandAlternates { rules := simpleRules files } = o
  cases o <;> simp [writesOf_append, parsedEvents_writes] <;> simp [writesOf]

theorem run_of_load (lib : GoLib) (ans : List (Str × Str) → Option Err) (outdir : Str) (inputs inputs' : List Input) (hw : writesOf (load lib inputs).1 = [])
    (hw' : writesOf (load lib inputs').1 = []) (h : (load lib inputs).2 = (load lib inputs').2) :
    writesOf (runCmd lib ans outdir inputs).1 = writesOf (runCmd lib ans outdir inputs').1 ∧ (runCmd lib ans outdir inputs).2 = (runCmd lib ans outdir inputs').2 := by
  unfold runCmd
  generalize load lib inputs = a at *
  generalize load lib inputs' = b at *
  obtain ⟨tr, a⟩ := a
  obtain ⟨tr', b⟩ := b
  simp only at h hw hw'
  subst h
  cases a with
  | ok f => exact genLoop_writes ans outdir f.rules 0 tr tr' (hw.trans hw'.symm)
  | err e => exact ⟨hw.trans hw'.symm, rfl⟩
  | panic => exact ⟨hw.trans hw'.symm, rfl⟩

/-- C70.  What the command writes and whether and how it fails depends on nothing in the input files but the simple rules, in order: not on file names, on layout, on other rules, or on
how the rules are distributed over files; for every pattern of failing writes. -/
theorem C70_simple_rules_only (lib : GoLib) (ans : List (Str × Str) → Option Err) (outdir : Str) (inputs inputs' : List Input) (files files' : List File)
    (hl : Loads lib inputs files) (hl' : Loads lib inputs' files') (h : simpleRules files = simpleRules files') :
    writesOf (runCmd lib ans outdir inputs).1 = writesOf (runCmd lib ans outdir inputs').1 ∧ (runCmd lib ans outdir inputs).2 = (runCmd lib ans outdir inputs').2 :=
  run_of_load lib ans outdir inputs inputs' (load_res hl).2 (load_res hl').2 (by rw [(load_res hl).1, (load_res hl').1, h])

/-- C70.  Files can be joined: giving the texts as separate files or one after the other, with a newline after each, as one file, is the same. -/
theorem C70_joined (lib : GoLib) (hrc : RejectsComment lib) (ans : List (Str × Str) → Option Err) (outdir name : Str) (inputs : List Input) (texts : List Str) (files : List File)
    (hd : inputs.map (·.data) = texts.map utf8) (hl : Loads lib inputs files) (hne : ∀ f ∈ files, f.rules ≠ []) :
    writesOf (runCmd lib ans outdir [{ name := name, data := utf8 (texts.flatMap fun a => a ++ ['\n']) }]).1 = writesOf (runCmd lib ans outdir inputs).1 ∧
    (runCmd lib ans outdir [{ name := name, data := utf8 (texts.flatMap fun a => a ++ ['\n']) }]).2 = (runCmd lib ans outdir inputs).2 := by
  have key : ∀ (inputs : List Input) (files : List File), Loads lib inputs files → ∀ texts : List Str, inputs.map (·.data) = texts.map utf8 →
      texts.length = files.length ∧ ∀ (i : Nat) (a : Str) (f : File), texts[i]? = some a → files[i]? = some f → parseBytes lib (utf8 a) = .ok f := by
    intro inputs files hl
    induction hl with
    | nil =>
      intro texts hd
      cases texts with
      | nil => exact ⟨rfl, fun i a f h => by simp at h⟩
      | cons => simp at hd
    | cons _ _ _ h4 _ ih =>
      intro texts hd
      cases texts with
      | nil => simp at hd
      | cons t texts =>
        simp only [List.map_cons, List.cons.injEq] at hd
        obtain ⟨k1, k2⟩ := ih texts hd.2
        refine ⟨by simp [k1], fun i a f ha hf => ?_⟩
        cases i with
        | zero =>
          simp only [List.getElem?_cons_zero, Option.some.injEq] at ha hf
          subst ha; subst hf
          rw [← hd.1]; exact h4
        | succ i => exact k2 i a f (by simpa using ha) (by simpa using hf)
  obtain ⟨k1, k2⟩ := key inputs files hl texts hd
  have hp := C49_concat_lines lib hrc texts files k1 fun i a f ha hf => ⟨k2 i a f ha hf, hne f (List.mem_of_getElem? hf)⟩
  refine C70_simple_rules_only lib ans outdir _ inputs _ files (.cons rfl rfl rfl hp .nil) hl ?_
  simp [simpleRules, allRules]

theorem verified_again {lib inputs files} (h : Loads lib inputs files) :
    simpleRules [⟨verified files⟩] = verified files ∧ verified [⟨verified files⟩] = verified files ∧ ∀ r ∈ verified files, Agree (ruleSizes r) := by
  have hp : ∀ r ∈ verified files, RuleMeaningful r ∧ ruleSizes r = [] ∧ Simple r := by
    intro r hr
    obtain ⟨r0, h0, i, _, rfl⟩ := mem_verified hr
    obtain ⟨hm, hs⟩ := simpleRules_sub h0
    have := pickRule_plain (ruleWF_meaningful (loads_wf h r0 hm)) i
    exact ⟨this.1, this.2.2, (simple_mapRuleOps _ r0).2 hs⟩
  have h1 : simpleRules [⟨verified files⟩] = verified files := by
    rw [simpleRules, List.filter_eq_self.2]
    · simp [allRules]
    · intro r hr
      simp only [allRules, List.flatMap_cons, List.flatMap_nil, List.append_nil] at hr
      simp [(hp r hr).2.2]
  refine ⟨h1, ?_, fun r hr => by rw [(hp r hr).2.1]; simp [Agree]⟩
  have h2 : verified [⟨verified files⟩] = (simpleRules [⟨verified files⟩]).flatMap expansion := rfl
  rw [h2, h1]
  revert hp
  generalize verified files = l
  intro hp
  induction l with
  | nil => rfl
  | cons r l ih =>
    rw [List.flatMap_cons, ih fun r hr => hp r (by simp [hr]), expansion_plain (hp r (by simp)).1 (hp r (by simp)).2.1]; rfl

/-- C70.  Alternatives can be written out: the command does the same on the rules it works on, printed. -/
theorem C70_written_out (u : GoVersion) (lib : GoLib) (hg : FollowsGo u lib) (ans : List (Str × Str) → Option Err) (outdir name : Str) (inputs : List Input) (files : List File)
    (hl : Loads lib inputs files) (ha : ∀ r ∈ simpleRules files, Agree (ruleSizes r)) :
    ∃ s, printBytes (.file ⟨verified files⟩) = .ok s ∧
      writesOf (runCmd lib ans outdir [{ name := name, data := utf8 s }]).1 = writesOf (runCmd lib ans outdir inputs).1 ∧
      (runCmd lib ans outdir [{ name := name, data := utf8 s }]).2 = (runCmd lib ans outdir inputs).2 := by
  obtain ⟨s, h1, h2⟩ := C18_print_parse u lib hg ⟨verified files⟩ fun r hr => (verified_line hg hl ha r hr).1
  refine ⟨s, h1, ?_⟩
  have hl' : Loads lib [{ name := name, data := utf8 s }] [⟨verified files⟩] := .cons rfl rfl rfl h2 .nil
  obtain ⟨k1, k2, k3⟩ := verified_again hl
  refine run_of_load lib ans outdir _ _ (load_res hl').2 (load_res hl).2 ?_
  rw [load_ok hl ha, load_ok hl' (by rw [k1]; exact k3), k2]

/-! Examples: the hypotheses hold for `cmdInputs` (two files, alternatives, rules that are not simple). -/

example : ∃ files, Loads demoLib cmdInputs files ∧ simpleRules files ≠ [] ∧ ∀ r ∈ simpleRules files, Agree (ruleSizes r) := by
  have h : (runCmd demoLib cmdFine cmdOut cmdInputs).2 = .ok () := by
    have := congrArg Prod.snd cmd_fine
    simpa [cmdNames] using this
  obtain ⟨files, hl, ha⟩ := (C43_succeeds_iff demoLib cmdOut cmdInputs).1 h
  refine ⟨files, hl, fun he => ?_, ha⟩
  obtain ⟨files', hl', e⟩ := C40_trace demoLib cmdFine cmdOut cmdInputs _ (Prod.ext rfl h)
  cases loads_unique hl hl'
  have h2 := congrArg Prod.fst cmd_fine
  have h3 : writesOf (runCmd demoLib cmdFine cmdOut cmdInputs).1 = [] := by
    refine (congrArg writesOf e).trans ?_
    rw [allEvents_writes, verified, he]; rfl
  simp only [cmdNames, h3] at h2
  simp at h2

/-- `FollowsGo` is met by the reference parser, and with it the alternatives of the first file written out give the same files. -/
example : FollowsGo asciiGo (refLib asciiGo) := refLib_follows asciiGo

def outText : Str := "(Add8 x y) => (Add8 y x)\n(Add16 x y) => (Add16 y x)\n".toList

example : writesOf (runCmd (refLib asciiGo) cmdFine cmdOut [{ name := ['z'], data := utf8 outText }]).1 =
    writesOf (runCmd (refLib asciiGo) cmdFine cmdOut [{ name := ['a'], data := utf8 cmdText1 }]).1 := by decide +kernel

end Verif.Props

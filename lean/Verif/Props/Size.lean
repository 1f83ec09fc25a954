import Verif.Proof.SizePrint
import Verif.Props.Cmd
import Verif.Props.Roundtrip
/-!
# Sizes of what is generated, expanded and written (C71)
-/
namespace Verif.Props
open Verif Verif.Spec Verif.Proof

/-- C71.  A script is at most 36 times as long as the rule it is for, plus 93 characters. -/
theorem C71_script (r : Rule) (s text : Str) (hg : generate r = .ok s) (ht : printBytes (.rule r) = .ok text) : s.length ≤ 36 * text.length + 93 := by
  have e : printBytes (.rule r) = if rulePrintable r = true then .ok (showRule r) else .err (.unexpectedType (firstBad (.rule r))) := printBytes_eq _
  rw [e] at ht
  split at ht
  · cases ht; exact generate_le hg
  · cases ht

/-- C71.  Printing what was parsed gives a text at most three times as long. -/
theorem C71_printed (u : GoVersion) (lib : GoLib) (hl : FollowsGo u lib) (cs : Str) (f : File) (h : parseBytes lib (utf8 cs) = .ok f) :
    ∃ s, printBytes (.file f) = .ok s ∧ s.length ≤ 3 * cs.length := by
  refine ⟨_, C17_print_parsed lib _ f h, ?_⟩
  have hf := parse_sound h
  have := fileText_len (fun t e => (hl t e).1) (goText_eq (lib := lib) ▸ hf)
  rw [← showFile_length] at this
  exact this

example : ∃ s, printBytes (.file ⟨[tripRule]⟩) = .ok s ∧ s.length ≤ 3 * tripText.length := C71_printed asciiGo _ (refLib_follows _) tripText _ trip_parse

/-- C71.  Expanding a printable file gives a printable file: with at most as many rules as the file has characters, no rule of which is longer than the file, and which is altogether at
most as long as the square of the length of the file. -/
theorem C71_expansion (f g : File) (s : Str) (hs : printBytes (.file f) = .ok s) (he : expandAlternates f = .ok g) :
    ∃ s', printBytes (.file g) = .ok s' ∧ g.rules.length ≤ s.length ∧ s'.length ≤ s.length * s.length := by
  have e : ∀ f : File, printBytes (.file f) = if (f.rules.all rulePrintable) = true then .ok (showNode (.file f)) else .err (.unexpectedType (firstBad (.file f))) := fun f => printBytes_eq _
  rw [e] at hs
  split at hs
  · rename_i hp
    cases hs
    obtain ⟨-, h2⟩ := expandAlternates_ok_iff.1 he
    have hl := expansions_linesLen f.rules
    obtain ⟨rs⟩ := f
    obtain ⟨rs'⟩ := g
    simp only at h2 hl hp
    refine ⟨showNode (.file ⟨rs'⟩), ?_, ?_, ?_⟩
    · rw [e, if_pos]
      simp only [List.all_eq_true] at hp ⊢
      intro r hr
      rw [h2] at hr
      simp only [List.mem_flatMap, expansion, List.mem_map] at hr
      obtain ⟨r0, h0, i, -, rfl⟩ := hr
      exact pickRule_printable i (hp r0 h0)
    · rw [showFile_length, h2]; exact hl.2
    · rw [showFile_length, showFile_length, h2]; exact hl.1
  · cases hs

/-- C71.  No expansion of a rule is longer than the rule, and there are at most as many as the rule has characters. -/
theorem C71_expansion_rule (r : Rule) (g : File) (text : Str) (ht : printBytes (.rule r) = .ok text) (he : expandAlternates ⟨[r]⟩ = .ok g) :
    g.rules.length ≤ text.length ∧ ∀ r' ∈ g.rules, ∃ text', printBytes (.rule r') = .ok text' ∧ text'.length ≤ text.length := by
  have e : ∀ r : Rule, printBytes (.rule r) = if rulePrintable r = true then .ok (showRule r) else .err (.unexpectedType (firstBad (.rule r))) := fun r => printBytes_eq _
  rw [e] at ht
  split at ht
  · rename_i hp
    cases ht
    obtain ⟨-, h2⟩ := expandAlternates_ok_iff.1 he
    simp only [List.flatMap_cons, List.flatMap_nil, List.append_nil] at h2
    rw [h2, expansion_length]
    refine ⟨count_le r, fun r' hr => ?_⟩
    simp only [expansion, List.mem_map] at hr
    obtain ⟨i, -, rfl⟩ := hr
    exact ⟨_, by rw [e, if_pos (pickRule_printable i hp)], pickRule_le i r⟩
  · cases ht

/-- C71.  Whatever the input files and whichever writes fail: with `n` bytes of input the command asks for at most `n` files with
altogether at most `n · (36 n + 165)` characters to be written. -/
theorem C71_output (lib : GoLib) (ans : List (Str × Str) → Option Err) (outdir : Str) (inputs : List Input) (n : Nat) (hn : n = (inputs.map fun i => i.data.length).sum) :
    (writesOf (runCmd lib ans outdir inputs).1).length ≤ n ∧ ((writesOf (runCmd lib ans outdir inputs).1).map fun w => w.2.length).sum ≤ n * (36 * n + 165) := by
  subst hn
  by_cases h : writesOf (runCmd lib ans outdir inputs).1 = []
  · rw [h]; simp
  · obtain ⟨files, hl, -, rest, e⟩ := run_writes h
    have h1 := rulesEvents_total outdir (verified files) 0
    rw [← allEvents_writes outdir inputs files, e, writesOf_append, List.map_append, List.sum_append] at h1
    have h2 := rulesEvents_number outdir (verified files) 0
    rw [← allEvents_writes outdir inputs files, e, writesOf_append, List.length_append] at h2
    have h3 := verified_total hl
    have h4 := verified_number hl
    exact ⟨by omega, by omega⟩

example : ∃ s text, generate wildRule = .ok s ∧ printBytes (.rule wildRule) = .ok text ∧ s.length ≤ 36 * text.length + 93 :=
  ⟨_, _, C38_instance, rfl, C71_script _ _ _ C38_instance rfl⟩
/-- a file with alternatives that is printed and expanded -/
example : ∃ s g, printBytes (.file ⟨[altRule]⟩) = .ok s ∧ expandAlternates ⟨[altRule]⟩ = .ok g ∧ 1 < g.rules.length := ⟨_, _, rfl, rfl, by decide⟩
/-- a run that writes four files -/
example : (writesOf (runCmd demoLib cmdFine cmdOut cmdInputs).1).length = 4 := by
  have h := congrArg (fun x => x.1.length) cmd_fine
  simpa [cmdNames] using h

end Verif.Props

import Verif.Proof.PegSem
import Verif.Props.ParseError
/-!
# The parser implements rules.peg (C55)

`Peg.rulesPeg` is the text of parse/rules.peg, `Peg.readGrammar` a reader for such files, `Peg.Gives` the standard semantics of parsing expression grammars.
`parseBytes` is the model of the generated parser (zparser.go), in which most rules have been replaced by their definitions.
-/
namespace Verif.Props
open Verif Verif.Spec Verif.Proof

/-- C55.  `Peg.rules` is what parse/rules.peg says. -/
theorem C55_read : Peg.readGrammar Peg.rulesPeg = some (Peg.NT.all.map fun x => (x, Peg.rules x)) ∧ ∀ x, x ∈ Peg.NT.all :=
  ⟨rules_read, fun x => by cases x <;> decide⟩

theorem file_pegs {lib : GoLib} {bs : List UInt8} {o} (h : run (ruleGrammar lib) (depthBound bs.length) (.ruleRef .File) (initSt (decode bs)) = some o) :
    GPost Peg.rules (.nt .File) (initSt (decode bs)) (some o) := by
  have := (run_gives (ruleGrammar lib) table_rules (depthBound bs.length)).1 (.ruleRef .File) (initSt (decode bs))
  rw [h] at this
  exact this

theorem runes_utf8 (text : Str) : runes (initSt (decode (utf8 text))).pos = text := by
  rw [initSt_pos, decode_utf8]
  induction text with
  | nil => rfl
  | cons c l ih =>
    rw [runes] at ih ⊢
    rw [List.map_cons, List.map_cons, ih]
    rfl

/-- A Go parser that accepts everything. -/
def acceptAll : GoLib := { parseExpr := fun _ => some (.ident 0 ['x']) }

theorem acceptAll_all (t : Str) : ∃ e, GoText acceptAll t e :=
  ⟨_, goexprParse_ok_iff.1 (show goexprParse acceptAll t = .ok (.ident 0 ['x']) by simp [goexprParse, acceptAll]; rfl)⟩

/-- C55.  Apart from the embedded Go expressions the parser accepts exactly the texts in UTF-8 on which `File` of rules.peg succeeds, without leaving anything. -/
theorem C55_accepts (bs : List UInt8) :
    (∃ lib f, parseBytes lib bs = .ok f) ↔ ∃ text, bs = utf8 text ∧ Peg.Gives Peg.rules (.nt .File) text (some []) := by
  constructor
  · rintro ⟨lib, f, h⟩
    obtain ⟨s, hr, he⟩ := parse_ok_iff.1 h
    obtain ⟨text, rfl⟩ := run_valid hr he
    refine ⟨text, rfl, ?_⟩
    have h1 := file_pegs hr
    have h2 := file_end hr
    simp only [GPost, h2, runes_utf8] at h1
    exact h1
  · rintro ⟨text, rfl, h⟩
    refine ⟨acceptAll, ?_⟩
    rcases accept_or_fail acceptAll_all ⟨text, rfl⟩ with k | ⟨s, k⟩
    · exact k
    · have h1 := file_pegs k
      simp only [GPost, runes_utf8] at h1
      cases gives_unique h h1.1

/-- C55.  So it accepts exactly the texts that match rules.peg and whose embedded Go expressions are Go expressions. -/
theorem C55_accepts_iff (lib : GoLib) (bs : List UInt8) :
    (∃ f, parseBytes lib bs = .ok f) ↔
      (∃ text, bs = utf8 text ∧ Peg.Gives Peg.rules (.nt .File) text (some [])) ∧ ∀ t ∈ submitted bs, ∃ e, GoText lib t e := by
  rw [C26_accept_iff, C55_accepts]

/-- C55.  rules.peg gives an answer for every text, and only one: `File` succeeds and leaves nothing, or it fails. -/
theorem C55_decides (text : Str) :
    (Peg.Gives Peg.rules (.nt .File) text (some []) ∨ Peg.Gives Peg.rules (.nt .File) text none) ∧
    ∀ r r', Peg.Gives Peg.rules (.nt .File) text r → Peg.Gives Peg.rules (.nt .File) text r' → r = r' := by
  refine ⟨?_, fun _ _ h k => gives_unique h k⟩
  rcases accept_or_fail acceptAll_all ⟨text, rfl⟩ with ⟨f, k⟩ | ⟨s, k⟩
  · obtain ⟨s, hr, he⟩ := parse_ok_iff.1 k
    have h1 := file_pegs hr
    have h2 := file_end hr
    simp only [GPost, h2, runes_utf8] at h1
    exact .inl h1
  · have h1 := file_pegs k
    simp only [GPost, runes_utf8] at h1
    exact .inr h1.1

/-- a text that matches rules.peg -/
example : Peg.Gives Peg.rules (.nt .File) demoText (some []) := by
  obtain ⟨text, e, h⟩ := (C55_accepts (utf8 demoText)).1 ⟨demoLib, _, demo_parse⟩
  rwa [utf8_inj e]

/-- and one that does not -/
example : ¬ Peg.Gives Peg.rules (.nt .File) demoBad (some []) := by
  intro h
  obtain ⟨lib, f, k⟩ := (C55_accepts _).2 ⟨_, rfl, h⟩
  obtain ⟨g, k⟩ := accept_all acceptAll_all k
  have : (match parseBytes acceptAll (utf8 demoBad) with | .ok _ => false | _ => true) = true := by decide +kernel
  rw [k] at this
  cases this

end Verif.Props

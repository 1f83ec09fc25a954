import Verif.Proof.PegErrRoot
import Verif.Proof.Message
import Verif.Spec.PegFile
import Verif.Props.Parse
/-!
# Properties of the errors of package parse (C26, C50–C54)

`parseFull lib T order filename bs` is the result of `parse.Reader(filename, …)` on the bytes `bs`, with the complete error list: `lib` stands for
`go/parser.ParseExpr`, `T` for the texts of errors made outside of the modelled code, `order` for the order in which Go ranges over a map.
`Truthful`, `place` and the other words of the statements are in `Spec/ParseError.lean`.
-/
namespace Verif.Props
open Verif Verif.Spec Verif.Proof

/-! Examples -/

def demoTexts : Texts := ⟨fun _ => "bad Go".toList, "runtime error".toList⟩

/-- The lines of the error text for the file `f`. -/
def demoLines (s : String) : List String :=
  match parseFull demoLib demoTexts id ['f'] (utf8 s.toList) with
  | .errors es => es.map fun e => String.ofList (PError.text demoTexts ['f'] e)
  | _ => []

def isErrors : Parsed → List PError → Bool
  | .errors es, l => es = l
  | _, _ => false

theorem isErrors_eq {p l} (h : isErrors p l = true) : p = .errors l := by
  cases p <;> simp [isErrors] at h
  subst h; rfl

theorem reorders_id : Reorders id := fun l => .refl l

/-- `(A z)⏎ -> z` -/
def demoBad : Str := "(A z)\n -> z".toList

def demoBadError : PError :=
  ⟨.noMatch ["\"&&\"".toList, "\"//\"".toList, "\"=>\"".toList, "[ \\t\\r\\n]".toList], ⟨2, 2, 7⟩, none⟩

theorem demoBad_parse : parseFull demoLib demoTexts id ['f'] (utf8 demoBad) = .errors [demoBadError] := isErrors_eq (by decide +kernel)

/-! ## C50: the errors -/

section
variable {lib : GoLib} {T : Texts} {order : List Str → List Str} {filename : Str} {bs : List UInt8}

theorem full_errors {es} (h : parseFull lib T order filename bs = .errors es) :
    ∃ o x xs, dRun (ruleGrammar lib) (depthBound bs.length) (.ruleRef .File) (dInit (decode bs)) = some o ∧ outErrs order o = x :: xs ∧
      es = dedupe (PError.text T filename) [] (x :: xs) := by
  rcases full_spec lib T order filename bs with ⟨f, -, h2⟩ | ⟨-, v, x, xs, h2, h3⟩
  · rw [h2] at h; cases h
  · rw [h3] at h
    obtain ⟨o, ho⟩ := dfile_terminates lib bs _ (Nat.le_refl _)
    obtain ⟨v', hv⟩ := dParse_out (order := order) (ruleGrammar lib) ho
    rw [hv] at h2
    cases h
    refine ⟨o, x, xs, ho, ?_, rfl⟩
    simp only [Option.some.injEq, Prod.mk.injEq] at h2
    exact h2.2

end

/-- C50.  `parse` with the full error list returns a file exactly if the model without error texts does, the same file, and never panics. -/
theorem C50_same_result (lib : GoLib) (T : Texts) (order : List Str → List Str) (filename : Str) (bs : List UInt8) :
    (∃ f, parseBytes lib bs = .ok f ∧ parseFull lib T order filename bs = .file f) ∨
    (∃ e, parseBytes lib bs = .err e) ∧ ∃ x es, parseFull lib T order filename bs = .errors (x :: es) := by
  rcases full_spec lib T order filename bs with h | ⟨h, v, x, xs, -, h3⟩
  · exact .inl h
  · exact .inr ⟨h, x, dedupe (PError.text T filename) [PError.text T filename x] xs, by rw [h3]; simp [dedupe]⟩

/-- C50.  Every error of the list tells the truth about the input, at its position. -/
theorem C50_truthful (lib : GoLib) (T : Texts) (order : List Str → List Str) (horder : Reorders order) (filename : Str) (bs : List UInt8) (es : List PError)
    (h : parseFull lib T order filename bs = .errors es) : ∀ e ∈ es, Truthful lib (decode bs) e := by
  obtain ⟨o, x, xs, ho, he, rfl⟩ := full_errors h
  intro e k
  exact outErrs_true horder ho e (he ▸ dedupe_mem _ _ _ _ k)

/-- C50.  No text is listed twice. -/
theorem C50_distinct (lib : GoLib) (T : Texts) (order : List Str → List Str) (filename : Str) (bs : List UInt8) (es : List PError)
    (h : parseFull lib T order filename bs = .errors es) : (es.map (PError.text T filename)).Nodup := by
  obtain ⟨o, x, xs, ho, he, rfl⟩ := full_errors h
  exact (dedupe_texts _ _ _).1

/-- C50.  The offset is the number of bytes before the position: from there on the rest of the input is read. -/
theorem C50_offset (bs : List UInt8) (k : Nat) : decode (bs.drop (place (decode bs) k).offset) = (decode bs).drop k := decode_drop bs k

/-- C50.  Offset 0 is the beginning and the last position is the end. -/
theorem C50_offset_ends (bs : List UInt8) : (place (decode bs) 0).offset = 0 ∧ (place (decode bs) (decode bs).length).offset = bs.length := by
  refine ⟨by simp [place], ?_⟩
  simp only [place, List.take_length]
  exact decode_widths bs

/-- C50.  Positions are ordered as the places are, by line, then by column: different places have different line and column. -/
theorem C50_line_column (data : List Sym) (i j : Nat) (hij : i < j) (hj : j ≤ data.length) :
    (place data i).offset < (place data j).offset ∧
    ((place data i).line < (place data j).line ∨ (place data i).line = (place data j).line ∧ (place data i).col < (place data j).col) := place_lt hij hj

/-- C50.  The first place of the input is line 1, column 1, and the column of a character which is not preceded by a newline is its number. -/
theorem C50_first_line (data : List Sym) (k : Nat) (h : .ok '\n' ∉ data.take (k + 1)) : place data k = ⟨1, k + 1, ((data.take k).map Sym.width).sum⟩ := by
  have : throughNewline (data.take (k + 1)) = 0 := by
    have := throughNewline_append [] _ h
    rw [List.nil_append] at this
    exact this.trans rfl
  simp [place, this, List.count_eq_zero.2 h]

example : demoLines "(A z)\n -> z" = ["f:2:2 (7): no match found, expected: \"&&\", \"//\", \"=>\" or [ \\t\\r\\n]"] := by decide +kernel

/-! ## C51: locality -/

/-- C51.  "no match found" is the only error if it is reported, and it depends only on the input up to 16 bytes after the reported offset: any
input that begins with the same bytes, up to there, gives the same errors. -/
theorem C51_local (lib : GoLib) (T : Texts) (order : List Str → List Str) (filename : Str) (bs bs' : List UInt8) (es : List PError) (e : PError) (expected : List Str)
    (h : parseFull lib T order filename bs = .errors es) (he : e ∈ es) (hp : e.problem = .noMatch expected)
    (hsame : bs'.take (e.pos.offset + 16) = bs.take (e.pos.offset + 16)) :
    es = [e] ∧ parseFull lib T order filename bs' = .errors [e] := by
  obtain ⟨o, x, xs, ho, hx, rfl⟩ := full_errors h
  have hmem := dedupe_mem _ _ _ _ he
  rw [← hx] at hmem
  obtain ⟨s, rfl, hs, rfl⟩ := noMatch_alone ho hmem hp
  simp only [outErrs, hs, List.isEmpty_nil, if_true] at hx
  rw [← hx]
  refine ⟨by simp [dedupe], ?_⟩
  obtain ⟨s2, h2, e1, e2, e3, e4⟩ : ∃ s2, dRun (ruleGrammar lib) (depthBound bs'.length) (.ruleRef .File) (dInit (decode bs')) = some (.fail s2) ∧ s2.errs = s.errs ∧
      s2.maxFailPos = s.maxFailPos ∧ s2.maxFailExpected = s.maxFailExpected ∧ s2.rstack = s.rstack := by
    clear hx h he hmem hp
    obtain ⟨o', ho'⟩ := dfile_terminates lib bs' _ (Nat.le_refl _)
    generalize hn : max (depthBound bs.length) (depthBound bs'.length) = n
    have ho1 := dRun_mono_le _ (by omega : depthBound bs.length ≤ n) ho
    have ho2 := dRun_mono_le _ (by omega : depthBound bs'.length ≤ n) ho'
    suffices ∃ s2, dRun (ruleGrammar lib) n (.ruleRef .File) (dInit (decode bs')) = some (.fail s2) ∧ s2.errs = s.errs ∧
        s2.maxFailPos = s.maxFailPos ∧ s2.maxFailExpected = s.maxFailExpected ∧ s2.rstack = s.rstack by
      obtain ⟨s2, k, r⟩ := this
      rw [ho2] at k
      cases k
      exact ⟨s2, ho', r⟩
    clear ho ho' ho2 hn
    obtain ⟨p, r1, r2, d1, d2, k | k⟩ := decode_prefix (s.maxFailPos.offset + 16) bs bs' hsame.symm
    · obtain ⟨rfl, rfl⟩ := k
      rw [List.append_nil] at d1 d2
      rw [d1] at ho1
      rw [d2]
      exact ⟨s, ho1, rfl, rfl, rfl, rfl⟩
    · rw [d1] at ho1
      rw [d2]
      exact local_fail rfl rfl (by omega) ho1
  obtain ⟨v, hv⟩ := dParse_out (order := order) (ruleGrammar lib) h2
  simp only [outErrs, e1, e2, e3, e4, hs, List.isEmpty_nil, if_true] at hv
  rw [parseFull_eq, hv]
  clear hv h2
  cases v <;> simp [toParsed, dedupe]

/-- C51.  So such an input is rejected, whatever follows after these bytes. -/
theorem C51_no_continuation (lib : GoLib) (T : Texts) (order : List Str → List Str) (filename : Str) (bs bs' : List UInt8) (es : List PError) (e : PError) (expected : List Str)
    (h : parseFull lib T order filename bs = .errors es) (he : e ∈ es) (hp : e.problem = .noMatch expected)
    (hsame : bs'.take (e.pos.offset + 16) = bs.take (e.pos.offset + 16)) (f : File) : parseBytes lib bs' ≠ .ok f := by
  intro hf
  have h1 := (C51_local lib T order filename bs bs' es e expected h he hp hsame).2
  rcases full_spec lib T order filename bs' with ⟨g, -, k⟩ | ⟨⟨x, k⟩, -⟩
  · rw [k] at h1; cases h1
  · rw [hf] at k; cases k

/-- the error of the example is at offset 7; it does not change if the text goes on after the 16 bytes that follow -/
example (rest : List UInt8) : parseFull demoLib demoTexts id ['f'] (utf8 "(A z)\n -> zyxwvutsrqponml".toList ++ rest) = .errors [demoBadError] := by
  have h : parseFull demoLib demoTexts id ['f'] (utf8 "(A z)\n -> zyxwvutsrqponml".toList) = .errors [demoBadError] := isErrors_eq (by decide +kernel)
  refine (C51_local _ _ _ _ _ _ _ demoBadError _ h (List.mem_singleton.2 rfl) rfl ?_).2
  rw [List.take_append_of_le_length (by decide +kernel)]

/-! ## C52: what was expected -/

/-- C52.  What was expected is listed in increasing order (so nothing twice), with the end of the file last. -/
theorem C52_sorted (lib : GoLib) (T : Texts) (order : List Str → List Str) (horder : Reorders order) (filename : Str) (bs : List UInt8) (es : List PError) (e : PError)
    (expected : List Str) (h : parseFull lib T order filename bs = .errors es) (he : e ∈ es) (hp : e.problem = .noMatch expected) :
    ∃ ws, ws.Pairwise (· < ·) ∧ "EOF".toList ∉ ws ∧ (expected = ws ∨ expected = ws ++ ["EOF".toList]) := by
  obtain ⟨o, x, xs, ho, hx, rfl⟩ := full_errors h
  have hmem := dedupe_mem _ _ _ _ he
  rw [← hx] at hmem
  obtain ⟨s, rfl, hs, rfl⟩ := noMatch_alone ho hmem hp
  cases hp
  obtain ⟨-, -, -, k, -, -, hw⟩ := file_fail ho
  obtain ⟨ws, h1, h2, h3⟩ := expected_sorted horder s.maxFailExpected
  refine ⟨ws, h1, ?_, ?_⟩
  · intro k
    rcases hw _ ((h2 _).1 k).1 with t | ⟨w, e, t⟩
    · obtain ⟨c, r, e1, -, e2⟩ := terminal_head t
      simp at e1
      exact e2 e1.1.symm
    · simp at e
  · rcases h3 with ⟨-, e⟩ | ⟨-, e⟩
    · exact .inr e
    · exact .inl e

/-- C52.  Something was expected, and none of it is there. -/
theorem C52_missing (lib : GoLib) (T : Texts) (order : List Str → List Str) (horder : Reorders order) (filename : Str) (bs : List UInt8) (es : List PError) (e : PError)
    (expected : List Str) (h : parseFull lib T order filename bs = .errors es) (he : e ∈ es) (hp : e.problem = .noMatch expected) :
    expected ≠ [] ∧ ∀ want ∈ expected, Missing ((decode (bs.drop e.pos.offset)).map Sym.rune) want := by
  have := C50_truthful lib T order horder filename bs es h e he
  cases this with
  | noMatch hk h1 h2 =>
    cases hp
    refine ⟨h1, ?_⟩
    rw [C50_offset]
    exact h2
  | encoding => cases hp
  | go => cases hp
  | operand => cases hp
  | panicked => cases hp

example : "\"=>\"".toList ∈ ["\"&&\"".toList, "\"//\"".toList, "\"=>\"".toList, "[ \\t\\r\\n]".toList] ∧
    Missing ((decode ((utf8 demoBad).drop 7)).map Sym.rune) "\"=>\"".toList := by
  refine ⟨by decide, .absent (by decide) (by decide +kernel)⟩

/-- how the notation is read -/
example : follows "[^\\n]".toList "x".toList = true ∧ follows "[^\\n]".toList "\n".toList = false ∧ follows "[_a-zA-Z0-9]".toList "Q".toList = true ∧
    follows "\"=>\"".toList "=> x".toList = true ∧ follows "[^]]".toList "]".toList = false := by decide +kernel

/-- the end of the file among the rest -/
example : demoLines "(A z) => z!" = ["f:1:11 (10): no match found, expected: \"(\", \"//\", \":\", \"_\", [ \\t\\r\\n], [_a-zA-Z0-9], [a-z] or EOF"] := by decide +kernel

/-- C52.  The order in which Go ranges over the map of expected terminals has no influence: the same input gives the same errors. -/
theorem C52_map_order (lib : GoLib) (T : Texts) (order order' : List Str → List Str) (horder : Reorders order) (horder' : Reorders order') (filename : Str) (bs : List UInt8) :
    parseFull lib T order filename bs = parseFull lib T order' filename bs := by
  rw [parseFull_eq, parseFull_eq]
  congr 1
  unfold dParse
  split <;> simp only [expected_order horder horder']

/-! ## C53: the first error is a cause -/

/-- C53.  The first error names a cause that is in the input at its position: an invalid byte, a text that is not Go where Go is expected, or
nothing that is expected being there (then there is no other error).  "unknown operand" and runtime errors come only after one of these. -/
theorem C53_first_is_cause (lib : GoLib) (hl : ∀ t tree, lib.parseExpr t = some tree → goNoNil tree = true) (T : Texts) (order : List Str → List Str) (horder : Reorders order)
    (filename : Str) (bs : List UInt8) (es : List PError) (h : parseFull lib T order filename bs = .errors es) :
    ∃ e es', es = e :: es' ∧
      ((∃ k b, (decode bs)[k]? = some (.bad b) ∧ e.problem = .invalidEncoding ∧ e.pos = place (decode bs) k) ∨
       (∃ k t rule, BadGo lib (decode bs) k t rule ∧ e.problem = .goError t ∧ e.pos = place (decode bs) k) ∨
       (∃ k expected, k ≤ (decode bs).length ∧ expected ≠ [] ∧ (∀ want ∈ expected, Missing (((decode bs).drop k).map Sym.rune) want) ∧
         e.problem = .noMatch expected ∧ e.pos = place (decode bs) k ∧ es' = [])) := by
  have htrue := C50_truthful lib T order horder filename bs es h
  obtain ⟨o, x, xs, ho, hx, rfl⟩ := full_errors h
  have hd : dedupe (PError.text T filename) [] (x :: xs) = x :: dedupe (PError.text T filename) [PError.text T filename x] xs := by simp [dedupe]
  rw [hd] at htrue ⊢
  refine ⟨x, _, rfl, ?_⟩
  have ht := htrue x List.mem_cons_self
  rcases root_first (fun t => C30_no_panic lib t (hl t)) (order := order) ho with ⟨-, k⟩ | ⟨y, ys, k, k'⟩
  · rw [hx] at k; cases k
  rw [hx] at k
  cases k
  clear hx hd htrue h ho
  rcases k' with (k | ⟨t, k⟩) | ⟨rfl, -, -, exp, k⟩
  · cases ht with
    | encoding hk => exact .inl ⟨_, _, hk, rfl, rfl⟩
    | go => cases k
    | operand => cases k
    | panicked => cases k
    | noMatch => cases k
  · cases ht with
    | encoding => cases k
    | go hb => exact .inr (.inl ⟨_, _, _, hb, rfl, rfl⟩)
    | operand => cases k
    | panicked => cases k
    | noMatch => cases k
  · cases ht with
    | encoding => cases k
    | go => cases k
    | operand => cases k
    | panicked => cases k
    | noMatch hk h1 h2 => exact .inr (.inr ⟨_, _, hk, h1, h2, rfl, rfl, rfl⟩)

theorem demoLib_noNil (t : Str) (tree : GoExpr) (h : demoLib.parseExpr t = some tree) : goNoNil tree = true := by
  simp only [demoLib] at h
  repeat' split at h
  all_goals first | (cases h; done) | (cases h; rfl)

/-- a Go error and what comes of it; the hypothesis holds of the example -/
example : (∀ t tree, demoLib.parseExpr t = some tree → goNoNil tree = true) ∧
    demoLines "(A z)\n => (B [1 +] z)" = ["f:2:8 (13): rule Operand: bad Go", "f:2:5 (10): rule SExpr: unknown operand", "f:2:16 (21): rule Rule: runtime error"] :=
  ⟨demoLib_noNil, by decide +kernel⟩

/-- an invalid byte -/
example : parseFull demoLib demoTexts id ['f'] (utf8 "(A ".toList ++ [0xff]) =
    .errors [⟨.invalidEncoding, ⟨1, 4, 3⟩, some .SExpr⟩] := isErrors_eq (by decide +kernel)

/-! ## C54: the messages -/

/-- C54.  From a message the position can be read: it begins `filename:line:column (offset): `. -/
theorem C54_position (T : Texts) (filename : Str) (e : PError) : ∃ body, readMessage filename (PError.text T filename e) = some (e.pos, body) :=
  ⟨_, read_text T filename e⟩

/-- C54.  The terminals that are listed as expected are those of the grammar, some with `!` (not) before them, and the end of the file. -/
theorem C54_vocabulary (lib : GoLib) (T : Texts) (order : List Str → List Str) (horder : Reorders order) (filename : Str) (bs : List UInt8) (es : List PError) (e : PError)
    (expected : List Str) (h : parseFull lib T order filename bs = .errors es) (he : e ∈ es) (hp : e.problem = .noMatch expected) :
    ∀ w ∈ expected, w ∈ vocabulary ∨ (∃ v ∈ vocabulary, w = '!' :: v) ∨ w = "EOF".toList := by
  obtain ⟨o, x, xs, ho, hx, rfl⟩ := full_errors h
  have hmem := dedupe_mem _ _ _ _ he
  rw [← hx] at hmem
  obtain ⟨s, rfl, hs, rfl⟩ := noMatch_alone ho hmem hp
  cases hp
  obtain ⟨-, -, -, k, -, -, hw⟩ := file_fail ho
  obtain ⟨ws, h1, h2, h3⟩ := expected_sorted horder s.maxFailExpected
  have h4 : ∀ w ∈ ws, w ∈ vocabulary ∨ (∃ v ∈ vocabulary, w = '!' :: v) := by
    intro w k
    rcases hw _ ((h2 _).1 k).1 with t | ⟨v, e, t⟩
    · exact .inl (terminal_vocabulary t)
    · exact .inr ⟨v, terminal_vocabulary t, e⟩
  intro w k
  rcases h3 with ⟨-, e⟩ | ⟨-, e⟩
  · rw [e, List.mem_append, List.mem_singleton] at k
    rcases k with k | k
    · exact (h4 w k).imp_right .inl
    · exact .inr (.inr k)
  · rw [e] at k
    exact (h4 w k).imp_right .inl

theorem expected_good {w : Str} (h : w ∈ vocabulary ∨ (∃ v ∈ vocabulary, w = '!' :: v) ∨ w = "EOF".toList) : goodItem w = true ∧ '\n' ∉ w := by
  rcases h with h | ⟨v, h, rfl⟩ | rfl
  · exact ⟨(vocabulary_good w h).1, (vocabulary_good w h).2.2⟩
  · exact ⟨(vocabulary_good v h).2.1, by simpa using (vocabulary_good v h).2.2⟩
  · decide

/-- C54.  From the message "no match found" the list of what was expected can be read. -/
theorem C54_expected (lib : GoLib) (T : Texts) (order : List Str → List Str) (horder : Reorders order) (filename : Str) (bs : List UInt8) (es : List PError) (e : PError)
    (expected : List Str) (h : parseFull lib T order filename bs = .errors es) (he : e ∈ es) (hp : e.problem = .noMatch expected) :
    ∃ body, readMessage filename (PError.text T filename e) = some (e.pos, body) ∧ readExpected body = some expected := by
  refine ⟨_, read_text T filename e, ?_⟩
  have hne := (C52_missing lib T order horder filename bs es e expected h he hp).1
  have hv := C54_vocabulary lib T order horder filename bs es e expected h he hp
  have hr : e.rule = none := by
    have := C50_truthful lib T order horder filename bs es h e he
    cases this with
    | noMatch => rfl
    | encoding => cases hp
    | go => cases hp
    | operand => cases hp
    | panicked => cases hp
  have hb : PError.body T e = "no match found, expected: ".toList ++ listJoin expected := by
    unfold PError.body
    rw [hr, hp]
    rfl
  rw [hb, readExpected, after_append]
  simp only [Option.bind_eq_bind, Option.bind_some]
  rw [read_listJoin expected hne fun a ha => (expected_good (hv a ha)).1]
  rfl

theorem inRule_words (r : RuleName) : InRule (some r) ("rule ".toList ++ r.str ++ [':', ' ']) := by
  have e : ": ".toList = [':', ' '] := rfl
  rw [← e]
  exact .inside (by cases r <;> decide)

/-- C54.  After the position a message names the rule in which the error has occurred, if any, and then says what is wrong. -/
theorem C54_wording (lib : GoLib) (T : Texts) (order : List Str → List Str) (horder : Reorders order) (filename : Str) (bs : List UInt8) (es : List PError) (e : PError)
    (h : parseFull lib T order filename bs = .errors es) (he : e ∈ es) :
    ∃ head body, readMessage filename (PError.text T filename e) = some (e.pos, head ++ body) ∧ InRule e.rule head ∧ Worded T e.problem body := by
  have hw : ∀ expected, e.problem = .noMatch expected → e.rule = none ∧ readExpected (PError.body T e) = some expected := by
    intro expected hp
    obtain ⟨body, h1, h2⟩ := C54_expected lib T order horder filename bs es e expected h he hp
    rw [read_text] at h1
    cases h1
    refine ⟨?_, h2⟩
    have := C50_truthful lib T order horder filename bs es h e he
    cases this with
    | noMatch => rfl
    | encoding => cases hp
    | go => cases hp
    | operand => cases hp
    | panicked => cases hp
  have hr := read_text T filename e
  obtain ⟨problem, pos, rule⟩ := e
  have hwords : Worded T problem (problem.text T) := by
    match problem with
    | .noMatch expected =>
      obtain ⟨k1, k2⟩ := hw expected rfl
      refine .noMatch ?_
      cases (show rule = none from k1)
      exact k2
    | .invalidEncoding => exact .encoding
    | .goError t => exact .go
    | .unknownOperand => exact .operand
    | .panicked => exact .panicked
  refine ⟨_, problem.text T, hr, ?_, hwords⟩
  cases rule with
  | none => exact .nowhere
  | some r => exact inRule_words r

/-- the words are names of rules in the grammar file, and a message with a rule taken apart -/
example : (ruleWords.map fun p => p.2).all (fun w => (Peg.ruleOf w).isSome) = true ∧ InRule (some .Operand) "rule Operand: ".toList ∧
    readMessage ['f'] "f:2:8 (13): rule Operand: bad Go".toList = some (⟨2, 8, 13⟩, "rule Operand: ".toList ++ "bad Go".toList) :=
  ⟨by decide +kernel, inRule_words .Operand, by decide +kernel⟩

theorem noNewline_append {a b : Str} (ha : '\n' ∉ a) (hb : '\n' ∉ b) : '\n' ∉ a ++ b := by simp [ha, hb]

theorem noNewline_list (l : List Str) : (∀ w ∈ l, '\n' ∉ w) → '\n' ∉ listJoin l := by
  induction l with
  | nil => intro _; simp [listJoin]
  | cons x l ih =>
    intro hl
    have ih := ih fun w hw => hl w (List.mem_cons_of_mem _ hw)
    have hx := hl x List.mem_cons_self
    match l with
    | [] => simpa [listJoin] using hx
    | [y] =>
      have hy := hl y (by simp)
      have e : listJoin [x, y] = x ++ " or ".toList ++ y := by simp [listJoin, strJoin]
      rw [e]
      exact noNewline_append (noNewline_append hx (by decide)) hy
    | y :: z :: l => rw [listJoin_cons]; exact noNewline_append (noNewline_append hx (by decide)) ih

theorem noNewline_problem (T : Texts) (hT : ∀ t, '\n' ∉ T.goError t) (hT' : '\n' ∉ T.panic) (p : Problem)
    (hv : ∀ expected, p = .noMatch expected → ∀ w ∈ expected, '\n' ∉ w) : '\n' ∉ p.text T := by
  match p with
  | .noMatch expected => exact noNewline_append (a := "no match found, expected: ".toList) (by decide +kernel) (noNewline_list expected (hv expected rfl))
  | .goError t => exact hT t
  | .panicked => exact hT'
  | .invalidEncoding => exact (by decide +kernel : '\n' ∉ "invalid encoding".toList)
  | .unknownOperand => exact (by decide +kernel : '\n' ∉ "unknown operand".toList)

theorem text_noNewline (T : Texts) (filename : Str) (e : PError) (hf : '\n' ∉ filename) (hT : ∀ t, '\n' ∉ T.goError t) (hT' : '\n' ∉ T.panic)
    (hv : ∀ expected, e.problem = .noMatch expected → ∀ w ∈ expected, '\n' ∉ w) : '\n' ∉ PError.text T filename e := by
  have hn : ∀ n, '\n' ∉ natStr n := fun n k => by have := natStr_digit k; revert this; decide
  have hbody := noNewline_problem T hT hT' e.problem hv
  have hrule : '\n' ∉ (match e.rule with | some r => ": rule ".toList ++ r.str | none => []) := by
    cases e.rule with
    | none => simp
    | some r => cases r <;> decide +kernel
  unfold PError.text
  have hname : '\n' ∉ (if filename = [] then [] else filename ++ [':']) := by split <;> simp [hf]
  simp only [List.mem_append, not_or]
  exact ⟨⟨⟨⟨⟨⟨⟨⟨⟨hname, hn _⟩, by decide⟩, hn _⟩, by decide⟩, hn _⟩, by decide⟩, hrule⟩, by decide⟩, hbody⟩

/-- C54.  The text of the whole error has one line for each error of the list, if file name and Go's messages have no line breaks: it can be read line by line. -/
theorem C54_lines (lib : GoLib) (T : Texts) (order : List Str → List Str) (horder : Reorders order) (filename : Str) (bs : List UInt8) (es : List PError)
    (hf : '\n' ∉ filename) (hT : ∀ t, '\n' ∉ T.goError t) (hT' : '\n' ∉ T.panic) (h : parseFull lib T order filename bs = .errors es) :
    messageLines (errListText (PError.text T filename) es) = es.map (PError.text T filename) := by
  refine messageLines_join _ ?_ ?_
  · obtain ⟨o, x, xs, -, -, rfl⟩ := full_errors h
    simp [dedupe]
  · intro a ha
    obtain ⟨e, he, rfl⟩ := List.mem_map.1 ha
    refine text_noNewline T filename e hf hT hT' fun expected hp w hw => ?_
    exact (expected_good (C54_vocabulary lib T order horder filename bs es e expected h he hp w hw)).2

/-- reading the messages of the examples -/
example : readMessage ['f'] "f:2:2 (7): no match found, expected: \"&&\", \"//\", \"=>\" or [ \\t\\r\\n]".toList =
      some (⟨2, 2, 7⟩, "no match found, expected: \"&&\", \"//\", \"=>\" or [ \\t\\r\\n]".toList) ∧
    readExpected "no match found, expected: \"&&\", \"//\", \"=>\" or [ \\t\\r\\n]".toList =
      some ["\"&&\"".toList, "\"//\"".toList, "\"=>\"".toList, "[ \\t\\r\\n]".toList] := by decide +kernel

example : '\n' ∉ ['f'] ∧ (∀ t, '\n' ∉ demoTexts.goError t) ∧ '\n' ∉ demoTexts.panic := ⟨by decide, fun _ => by simp only [demoTexts]; decide, by decide⟩

/-! ## C26: embedded Go expressions decide -/

/-- C26.  An input is accepted exactly if some Go parser would make it acceptable and every text submitted to the Go parser is a Go expression. -/
theorem C26_accept_iff (lib : GoLib) (bs : List UInt8) :
    (∃ f, parseBytes lib bs = .ok f) ↔ (∃ lib' f, parseBytes lib' bs = .ok f) ∧ ∀ t ∈ submitted bs, ∃ e, GoText lib t e := by
  constructor
  · rintro ⟨f, h⟩
    exact ⟨⟨lib, f, h⟩, fun t ht => accepted_submitted h t ht⟩
  · rintro ⟨⟨lib', f, h⟩, hs⟩
    let lib3 : GoLib := { parseExpr := fun t => if t ∈ submitted bs then lib.parseExpr t else some (.ident 0 ['x']) }
    have hall : ∀ t, ∃ e, GoText lib3 t e := by
      intro t
      by_cases ht : t ∈ submitted bs
      · obtain ⟨e, tree, h1, h2⟩ := hs t ht
        exact ⟨e, tree, by simp only [lib3, if_pos ht]; exact h1, h2⟩
      · have : goexprParse lib3 t = .ok (.ident 0 ['x']) := by simp [goexprParse, lib3, if_neg ht]; rfl
        exact ⟨_, goexprParse_ok_iff.1 this⟩
    obtain ⟨g, hg⟩ := accept_all hall h
    refine ⟨g, (C26_only_submitted_matter lib lib3 bs ?_ g).2 hg⟩
    intro t ht
    simp [lib3, if_pos ht]

/-- the input of the example above that is rejected, and its fault -/
example : submitted (utf8 "(A [1 +] z) => z".toList) = ["1 +".toList] ∧ ¬ (∃ f, parseBytes demoLib (utf8 "(A [1 +] z) => z".toList) = .ok f) := by
  have h : submitted (utf8 "(A [1 +] z) => z".toList) = ["1 +".toList] := by decide +kernel
  refine ⟨h, ?_⟩
  rw [C26_accept_iff, h]
  rintro ⟨-, k⟩
  obtain ⟨e, he⟩ := k _ List.mem_cons_self
  have h0 : goexprParse demoLib "1 +".toList ≠ .ok e := by
    have : (match goexprParse demoLib "1 +".toList with | .ok _ => false | _ => true) = true := by decide +kernel
    intro k
    rw [k] at this
    cases this
  exact h0 (goexprParse_ok_iff.2 he)

end Verif.Props

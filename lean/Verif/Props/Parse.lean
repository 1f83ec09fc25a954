import Verif.Proof.ParseWF
import Verif.Proof.PegAsked
import Verif.Proof.Same
import Verif.Props.Expand
import Verif.Props.Printer
/-!
# Properties of packages parse and goexpr (C13, C17, C21–C31)

`parseBytes lib bs` is `parse.String` on the bytes `bs`, `lib` standing for the Go standard library's `go/parser.ParseExpr`, about which
nothing is assumed unless a hypothesis says so.
-/
namespace Verif.Props

open Verif Verif.Spec Verif.Proof

/-! Examples use this stand-in for the Go parser: it knows words, `f(x)`, and `a<b`, and ignores a comment after a word. -/

def demoWord (t : Str) : Bool := !t.isEmpty && t.all isWordChar

def demoLib : GoLib where
  parseExpr t :=
    if t = ['f', '(', 'x', ')'] then some (.call (.ident 1 ['f']) 2 [.ident 3 ['x']] 0 4)
    else if t = ['a', '<', 'b'] then some (.binary (.ident 1 ['a']) 2 .lss (.ident 3 ['b']))
    else if demoWord t then some (.ident 1 t)
    else if demoWord (t.takeWhile fun c => c != ' ') && (t.dropWhile fun c => c != ' ').take 3 == [' ', '/', '/'] then
      some (.ident 1 (t.takeWhile fun c => c != ' '))
    else none

theorem demoLib_rejects : RejectsComment demoLib := by
  intro t _
  have h1 : ('/' :: '/' :: t) ≠ ['f', '(', 'x', ')'] := by simp
  have h2 : ('/' :: '/' :: t) ≠ ['a', '<', 'b'] := by simp
  have hw : isWordChar '/' = false := by decide
  have h3 : demoWord ('/' :: '/' :: t) = false := by simp [demoWord, hw]
  have h4 : demoWord (('/' :: '/' :: t).takeWhile fun c => c != ' ') = false := by
    simp [demoWord, hw]
  rintro ⟨e, tree, h, -⟩
  simp only [demoLib, if_neg h1, if_neg h2, h3, h4, Bool.false_and, Bool.false_eq_true, if_false] at h
  simp at h

/-- `// c⏎x:(Add(8|16) <t> [a<b] y f(x) [z]) && c => @b (Neg8 _) ⏎` -/
def demoText : Str := "// c\nx:(Add(8|16) <t> [a<b] y f(x) [z]) && c => @b (Neg8 _) \n".toList

def demoRule : Rule where
  «match» := .sexpr { binding := ['x'], op := addAlt, type := ['t'], auxInt := some (.ident 0 ['z']) }
    [.var ['y'], .expr (.call (.ident 0 ['f']) 0 [.ident 0 ['x']] 0 0)]
  condition := some (.ident 0 ['c'])
  block := ['b']
  result := .sexpr { op := .opcode "Neg8".toList } [.var ['_']]

/-- `parse.String` on the example. -/
theorem demo_parse : parseBytes demoLib (utf8 demoText) = .ok ⟨[demoRule]⟩ := isOk_eq (by decide +kernel)

/-! ## C21–C23: termination, no panic, UTF-8 -/

/-- C21.  On every byte sequence the machine returns, with a recursion depth linear in the number of bytes, and allowing more depth
does not change the outcome. -/
theorem C21_terminates (lib : GoLib) (bs : List UInt8) (n : Nat) (hn : 200 * bs.length + 201 ≤ n) :
    parseDepth lib n bs = some (parseBytes lib bs) := by
  obtain ⟨o, ho⟩ := file_run lib bs
  have ho' := run_mono_le _ hn ho
  have e1 : parseDepth lib (depthBound bs.length) bs = parseDepth lib n bs := by
    rw [parseDepth, parseDepth, parseSyms, parseSyms, ho, ho']
  have e2 : parseDepth lib (depthBound bs.length) bs ≠ none := by
    rw [parseDepth, parseSyms, ho]; cases o <;> simp
  rw [parseBytes, ← e1]
  cases h : parseDepth lib (depthBound bs.length) bs with
  | none => exact absurd h e2
  | some r => rfl

/-- a depth that is too small is noticed -/
example : parseDepth demoLib 3 (utf8 demoText) = none := by decide +kernel

/-- C22.  `parse.String` never panics: on every input, valid or not, and whatever the Go parser does, it returns a file or an error. -/
theorem C22_total (lib : GoLib) (bs : List UInt8) : (∃ f, parseBytes lib bs = .ok f) ∨ ∃ e, parseBytes lib bs = .err e := by
  cases h : parseBytes lib bs with
  | ok f => exact .inl ⟨f, rfl⟩
  | err e => exact .inr ⟨e, rfl⟩
  | panic => exact absurd h (parse_ne_panic lib bs)

/-- both outcomes occur; the second one is the recovered panic of an action (the call in the first argument is not Go for `demoLib`) -/
example : (∃ f, parseBytes demoLib (utf8 demoText) = .ok f) ∧
    parseBytes demoLib (utf8 "(A g(y) z) => z".toList) = .err (.other "parse".toList) :=
  ⟨⟨_, demo_parse⟩, isErr_eq (by decide +kernel)⟩

/-- C23.  Input that is not valid UTF-8 is rejected. -/
theorem C23_invalid_utf8 (lib : GoLib) (bs : List UInt8) (h : ¬ ValidUtf8 bs) : ∃ e, parseBytes lib bs = .err e := by
  rcases C22_total lib bs with ⟨f, hf⟩ | he
  · exact absurd (parse_valid hf) h
  · exact he

/-- a bad byte inside a comment -/
example : ¬ ValidUtf8 (utf8 "//".toList ++ 0xff :: utf8 "\n(A x) => x".toList) := by
  rw [validUtf8_iff]
  intro h
  have h1 : Sym.bad 0xff ∈ decode (utf8 "//".toList ++ 0xff :: utf8 "\n(A x) => x".toList) := by decide +kernel
  obtain ⟨c, hc⟩ := h _ h1
  cases hc

/-! ## C24, C25: the language -/

/-- C24.  Whatever is accepted is the UTF-8 encoding of a text that consists of rules and skipped text and nothing else, and the file
holds exactly the rules written there, in order. -/
theorem C24_accepted_is_rules (lib : GoLib) (bs : List UInt8) (f : File) (h : parseBytes lib bs = .ok f) :
    ∃ cs, bs = utf8 cs ∧ FileText (GoText lib) cs f.rules := by
  rw [← goText_eq]; exact parse_bytes_sound h

/-- C24.  Conversely every such text is accepted (given that the Go parser rejects a mere comment). -/
theorem C24_rules_accepted (lib : GoLib) (hl : RejectsComment lib) (cs : Str) (rs : List Rule) (h : FileText (GoText lib) cs rs) :
    parseBytes lib (utf8 cs) = .ok ⟨rs⟩ := by
  rw [← goText_eq] at h; exact parse_complete hl h

/-- C24.  So the described language is unambiguous: a text has at most one reading. -/
theorem C24_unambiguous (lib : GoLib) (hl : RejectsComment lib) (cs : Str) (rs rs' : List Rule) (h : FileText (GoText lib) cs rs)
    (h' : FileText (GoText lib) cs rs') : rs = rs' := by
  have e1 := C24_rules_accepted lib hl cs rs h
  have e2 := C24_rules_accepted lib hl cs rs' h'
  rw [e1] at e2
  simpa using e2

example : FileText (GoText demoLib) demoText [demoRule] := by
  have := parse_sound demo_parse
  rw [goText_eq] at this; exact this

/-- C25.  Every rule of a parsed file is well formed. -/
theorem C25_well_formed (lib : GoLib) (bs : List UInt8) (f : File) (h : parseBytes lib bs = .ok f) : ∀ r ∈ f.rules, RuleWF r :=
  parse_wf h

/-- C25.  In particular an opcode made of parts always has an alternation among them, of at least two entries. -/
theorem C25_parts_have_alternation (ps : List OpPart) (h : OpWF (.parts ps)) : ∃ cs, OpPart.alt cs ∈ ps ∧ 2 ≤ cs.length := by
  obtain ⟨cs, hc⟩ := opWF_alt h
  exact ⟨cs, hc, (h.2.1 _ hc).1⟩

example : RuleWF demoRule := C25_well_formed demoLib _ _ demo_parse demoRule (by simp)

/-! ## C13, C17: what can be done with a parsed file -/

/-- C13.  On a parsed file `ExpandAlternates` succeeds, or reports two different alternation sizes of one rule. -/
theorem C13_expand_parsed (lib : GoLib) (bs : List UInt8) (f : File) (h : parseBytes lib bs = .ok f) :
    (∃ g, expandAlternates f = .ok g) ∨
    ∃ r ∈ f.rules, ∃ m ∈ ruleSizes r, ∃ n ∈ ruleSizes r, m ≠ n ∧ expandAlternates f = .err (.incompatible m n) :=
  C06_expand_error f fun r hr => ruleWF_meaningful (parse_wf h r hr)

/-- both cases occur -/
example : (∃ f g, parseBytes demoLib (utf8 demoText) = .ok f ∧ expandAlternates f = .ok g) ∧
    ∃ f, parseBytes demoLib (utf8 "(A(8|16) x) => (B(1|2|3) x)".toList) = .ok f ∧ expandAlternates f = .err (.incompatible 2 3) := by
  refine ⟨⟨_, _, demo_parse, rfl⟩, ?_⟩
  refine ⟨⟨[{ «match» := .sexpr { op := .parts [.opcode ['A'], .alt [['8'], ['1', '6']]] } [.var ['x']]
              result := .sexpr { op := .parts [.opcode ['B'], .alt [['1'], ['2'], ['3']]] } [.var ['x']] }]⟩, isOk_eq (by decide +kernel), rfl⟩

/-- C17.  A parsed file can be printed. -/
theorem C17_print_parsed (lib : GoLib) (bs : List UInt8) (f : File) (h : parseBytes lib bs = .ok f) :
    printBytes (.file f) = .ok (f.rules.flatMap fun r => showRule r ++ ['\n']) := by
  have hp : printable (.file f) = true := by
    simp only [printable, List.all_eq_true]
    exact fun r hr => ruleWF_printable (parse_wf h r hr)
  exact (C15_bytes _).1 hp

example : printBytes (.file ⟨[demoRule]⟩) = .ok "x:(Add(8|16) <t> [z] y f(x)) && c => @b (Neg8 _)\n".toList := by decide +kernel

/-! ## C26: embedded Go expressions -/

/-- C26.  If some text that counted as an embedded Go expression at some point of the matching (even in an alternative that was given up)
is not a Go expression then `parse.String` fails.  `submitted` does not involve the Go parser. -/
theorem C26_bad_expression_fails (lib : GoLib) (bs : List UInt8) (t : Str) (ht : t ∈ submitted bs) (hbad : ¬ ∃ e, GoText lib t e) :
    ∃ e, parseBytes lib bs = .err e := by
  rcases C22_total lib bs with ⟨f, hf⟩ | he
  · exact absurd (accepted_submitted hf t ht) hbad
  · exact he

/-- C26.  The outcome depends on nothing else of the Go parser: two Go parsers that agree on the submitted texts give the same result. -/
theorem C26_only_submitted_matter (lib lib' : GoLib) (bs : List UInt8) (h : ∀ t ∈ submitted bs, lib.parseExpr t = lib'.parseExpr t) (f : File) :
    parseBytes lib bs = .ok f ↔ parseBytes lib' bs = .ok f :=
  ⟨parse_agree fun t ht => (h t ht).symm, parse_agree h⟩

example : submitted (utf8 demoText) = ["a<b".toList, "f(x)".toList, ['z'], ['c']] := by decide +kernel

/-! ## C27: skipped text around a file -/

/-- C27.  White space and complete comments in front of or after an accepted text (with at least one rule) change nothing. -/
theorem C27_surrounding_skip (lib : GoLib) (hl : RejectsComment lib) (cs s1 s2 : Str) (f : File) (h1 : Skip s1) (h2 : Skip s2)
    (h : parseBytes lib (utf8 cs) = .ok f) (hne : f.rules ≠ []) : parseBytes lib (utf8 (s1 ++ cs ++ s2)) = .ok f :=
  parse_complete hl (file_back (file_front (parse_sound h) h1 hne) h2 hne)

/-- C27.  The exception: a file with no rules is the empty text only; blanks or comments alone are rejected. -/
theorem C27_no_rules (lib : GoLib) (bs : List UInt8) (f : File) (h : parseBytes lib bs = .ok f) : f.rules = [] ↔ bs = [] := by
  obtain ⟨cs, rfl, hf⟩ := parse_bytes_sound h
  constructor
  · intro he; rw [he] at hf; rw [fileText_nil hf]; rfl
  · intro he
    have h0 : parseBytes demoLib [] = .ok ⟨[]⟩ := isOk_eq (by decide +kernel)
    have hs : submitted [] = [] := by decide +kernel
    have h1 := (C26_only_submitted_matter demoLib lib [] (by rw [hs]; simp) _).1 h0
    rw [he, h1] at h
    simp only [Res.ok.injEq] at h
    rw [← h]

example : Skip " \t// c\n\n".toList ∧ parseBytes demoLib (utf8 " // c\n".toList) = .err (.other "parse".toList) := by
  refine ⟨?_, isErr_eq (by decide +kernel)⟩
  exact .cons (u := [' ']) (.blank _ (by decide)) (.cons (u := ['\t']) (.blank _ (by decide))
    (.cons (u := "// c\n".toList) (.comment [' ', 'c'] (by decide)) (.cons (u := ['\n']) (.blank _ (by decide)) .nil)))

/-! ## C49: concatenation -/

/-- C49.  Two accepted texts, one after the other with white space or complete comments between them, are accepted, and the rules are those of the
first followed by those of the second. -/
theorem C49_concat (lib : GoLib) (hl : RejectsComment lib) (a b s : Str) (f g : File) (hs : Skip1 s) (ha : parseBytes lib (utf8 a) = .ok f)
    (hb : parseBytes lib (utf8 b) = .ok g) (hne : f.rules ≠ [] ∨ g.rules ≠ []) :
    parseBytes lib (utf8 (a ++ s ++ b)) = .ok ⟨f.rules ++ g.rules⟩ :=
  parse_complete hl (file_concat (parse_sound ha) (parse_sound hb) hs hne)

/-- C49.  A whole list of accepted texts with a newline after each. -/
theorem C49_concat_lines (lib : GoLib) (hl : RejectsComment lib) (texts : List Str) (files : List File) (hlen : texts.length = files.length)
    (h : ∀ (i : Nat) (a : Str) (f : File), texts[i]? = some a → files[i]? = some f → parseBytes lib (utf8 a) = .ok f ∧ f.rules ≠ []) :
    parseBytes lib (utf8 (texts.flatMap fun a => a ++ ['\n'])) = .ok ⟨files.flatMap (·.rules)⟩ := by
  have hsk : Skip1 ['\n'] := ⟨.cons (u := ['\n']) (.blank _ (by decide)) .nil, by simp⟩
  have key : ∀ (texts : List Str) (files : List File), texts.length = files.length →
      (∀ (i : Nat) (a : Str) (f : File), texts[i]? = some a → files[i]? = some f → parseBytes lib (utf8 a) = .ok f ∧ f.rules ≠ []) →
      FileText (goText lib) (texts.flatMap fun a => a ++ ['\n']) (files.flatMap (·.rules)) := by
    intro texts
    induction texts with
    | nil =>
      intro files hlen _
      cases files with
      | nil => exact .nil
      | cons => simp at hlen
    | cons a texts ih =>
      intro files hlen h
      cases files with
      | nil => simp at hlen
      | cons f files =>
        obtain ⟨h1, h2⟩ := h 0 a f rfl rfl
        have := ih files (by simpa using hlen) (fun i a f ha hf => h (i + 1) a f (by simpa using ha) (by simpa using hf))
        rw [List.flatMap_cons, List.flatMap_cons]
        exact file_concat (parse_sound h1) this hsk (.inl h2)
  exact parse_complete hl (key texts files hlen h)

theorem follow_prefix {v : Value} {s1 rest : Str} (hs : Skip s1) (h : Follow v (s1 ++ rest)) : Follow v s1 := by
  have hcall : ¬ CallLike s1 := by
    rintro ⟨s0, x, s2, rest', e, -⟩
    cases hs with
    | nil => simp at e
    | cons hu _ =>
      cases hu with
      | blank c hc => simp only [List.cons_append, List.nil_append, List.cons.injEq] at e; rw [e.1] at hc; exact absurd hc (by decide)
      | comment t ht => simp at e
  cases v with
  | var x =>
    simp only [Follow] at h ⊢
    by_cases hx : x = ['_']
    · rw [if_pos hx] at h ⊢
      cases s1 with
      | nil => simp
      | cons c s1 => simpa using h
    · rw [if_neg hx] at h ⊢
      refine ⟨fun c hc => ?_, hcall⟩
      cases s1 with
      | nil => simp at hc
      | cons d s1 => exact h.1 c (by simpa using hc)
  | _ => exact True.intro

/-- C49.  Conversely an accepted text can be cut into one piece per rule, and each piece by itself is accepted and is that rule: the rules of a file do not influence each other. -/
theorem C49_split (lib : GoLib) (hl : RejectsComment lib) (cs : Str) (f : File) (h : parseBytes lib (utf8 cs) = .ok f) :
    ∃ texts : List Str, cs = texts.flatten ∧ texts.length = f.rules.length ∧
      ∀ (i : Nat) (a : Str) (r : Rule), texts[i]? = some a → f.rules[i]? = some r → parseBytes lib (utf8 a) = .ok ⟨[r]⟩ := by
  have hf := parse_sound h
  generalize f.rules = rs at hf
  clear h
  induction hf with
  | nil => exact ⟨[], rfl, rfl, fun i a r ha => by simp at ha⟩
  | @cons s0 t r s1 rest rs h0 ht h1 hfo _ ih =>
    obtain ⟨texts, e, hlen, hp⟩ := ih
    refine ⟨(s0 ++ t ++ s1) :: texts, by rw [List.flatten_cons, ← e], by simp [hlen], fun i a r' ha hr => ?_⟩
    cases i with
    | zero =>
      simp only [List.getElem?_cons_zero, Option.some.injEq] at ha hr
      subst ha; subst hr
      refine parse_complete hl ?_
      have := FileText.cons (go := goText lib) h0 ht h1 (rest := []) (rs := []) (by rw [List.append_nil]; exact follow_prefix h1 hfo) .nil
      simpa using this
    | succ i => exact hp i a r' (by simpa using ha) (by simpa using hr)

/-- C49.  So from the pieces of an accepted text any other file with the same rules can be made: the pieces with the numbers `idx` - some of them, in any order, repeated or not - with a newline
after each are accepted and give the rules with these numbers. -/
theorem C49_select (lib : GoLib) (hl : RejectsComment lib) (cs : Str) (f : File) (h : parseBytes lib (utf8 cs) = .ok f) :
    ∃ texts : List Str, cs = texts.flatten ∧ texts.length = f.rules.length ∧
      ∀ idx : List Nat, (∀ i ∈ idx, i < f.rules.length) →
        parseBytes lib (utf8 ((idx.filterMap fun i => texts[i]?).flatMap fun a => a ++ ['\n'])) = .ok ⟨idx.filterMap fun i => f.rules[i]?⟩ := by
  obtain ⟨texts, e, hlen, hp⟩ := C49_split lib hl cs f h
  refine ⟨texts, e, hlen, fun idx hi => ?_⟩
  have key : ∀ idx : List Nat, (∀ i ∈ idx, i < f.rules.length) → (idx.filterMap fun i => texts[i]?).length = idx.length ∧
      (idx.filterMap fun i => (f.rules[i]?).map fun r => (⟨[r]⟩ : File)).length = idx.length ∧
      (∀ j : Nat, (idx.filterMap fun i => texts[i]?)[j]? = (idx[j]?).bind fun i => texts[i]?) ∧
      (∀ j : Nat, (idx.filterMap fun i => (f.rules[i]?).map fun r => (⟨[r]⟩ : File))[j]? = (idx[j]?).bind fun i => (f.rules[i]?).map fun r => (⟨[r]⟩ : File)) ∧
      (idx.filterMap fun i => (f.rules[i]?).map fun r => (⟨[r]⟩ : File)).flatMap (·.rules) = idx.filterMap fun i => f.rules[i]? := by
    intro idx
    induction idx with
    | nil => intro _; simp
    | cons i idx ih =>
      intro hi
      obtain ⟨k1, k2, k3, k4, k5⟩ := ih fun j hj => hi j (by simp [hj])
      have hlt := hi i (by simp)
      have e1 : texts[i]? = some (texts[i]'(by omega)) := List.getElem?_eq_getElem _
      have e2 : f.rules[i]? = some (f.rules[i]'hlt) := List.getElem?_eq_getElem _
      simp only [List.filterMap_cons, e1, e2, Option.map_some, List.length_cons, k1, k2, List.flatMap_cons, k5, true_and]
      refine ⟨fun j => ?_, fun j => ?_, rfl⟩
      · cases j with
        | zero => simp [e1]
        | succ j => simp [k3 j]
      · cases j with
        | zero => simp [e2]
        | succ j => simp [k4 j]
  obtain ⟨k1, k2, k3, k4, k5⟩ := key idx hi
  have := C49_concat_lines lib hl (idx.filterMap fun i => texts[i]?) (idx.filterMap fun i => (f.rules[i]?).map fun r => (⟨[r]⟩ : File)) (by rw [k1, k2]) (by
    intro j a g ha hg
    rw [k3] at ha
    rw [k4] at hg
    cases hj : idx[j]? with
    | none => rw [hj] at ha; cases ha
    | some i =>
      rw [hj] at ha hg
      simp only [Option.bind_some] at ha hg
      cases hr : f.rules[i]? with
      | none => rw [hr] at hg; cases hg
      | some r =>
        rw [hr] at hg
        simp only [Option.map_some, Option.some.injEq] at hg
        subst hg
        exact ⟨hp i a r ha hr, by simp⟩)
  rw [k5] at this
  exact this

/-- the separator is needed: `(A x) => x` and `(y) => y` are accepted, and so is their concatenation with a blank between them, but not without -/
example : (∃ f, parseBytes demoLib (utf8 "(A x) => x".toList) = .ok f) ∧ (∃ f, parseBytes demoLib (utf8 "(y) => y".toList) = .ok f) ∧
    (∃ f, parseBytes demoLib (utf8 "(A x) => x (y) => y".toList) = .ok f) ∧
    parseBytes demoLib (utf8 "(A x) => x(y) => y".toList) = .err (.other "parse".toList) := by
  refine ⟨⟨⟨[{ «match» := .sexpr { op := .opcode ['A'] } [.var ['x']], result := .var ['x'] }]⟩, isOk_eq (by decide +kernel)⟩,
    ⟨⟨[{ «match» := .sexpr { op := .opcode ['y'] } [], result := .var ['y'] }]⟩, isOk_eq (by decide +kernel)⟩,
    ⟨⟨[{ «match» := .sexpr { op := .opcode ['A'] } [.var ['x']], result := .var ['x'] },
       { «match» := .sexpr { op := .opcode ['y'] } [], result := .var ['y'] }]⟩, isOk_eq (by decide +kernel)⟩, isErr_eq (by decide +kernel)⟩

/-! ## C28: conditions -/

/-- C28.  The condition of a parsed rule is the Go expression written between the `&&` after the match and the next `=>` (the first one after the first character
of the condition), with newlines replaced by blanks and white space at both ends removed. -/
theorem C28_condition (lib : GoLib) (cs : Str) (f : File) (h : parseBytes lib (utf8 cs) = .ok f) (r : Rule) (hr : r ∈ f.rules) (e : GoExpr)
    (he : r.condition = some e) :
    ∃ before mt s0 s1 raw c after t, cs = before ++ mt ++ s0 ++ '&' :: '&' :: s1 ++ raw ++ c :: '=' :: '>' :: after ∧
      ValueText (GoText lib) mt r.match ∧ Skip1 s0 ∧ Skip1 s1 ∧ isBlank c = true ∧ raw ≠ [] ∧ NoArrow raw.tail ∧ Trimmed (raw.map fun d => if d = '\n' then ' ' else d) t ∧ GoText lib t e := by
  obtain ⟨cs', hcs, hf⟩ := C24_accepted_is_rules lib _ f h
  have := utf8_inj hcs
  subst this
  clear h hcs
  generalize f.rules = rs at *
  induction hf with
  | nil => simp at hr
  | @cons s0 u r' s1 rest rs h0 hrt h1 hfo hf ih =>
    rcases List.mem_cons.1 hr with rfl | hr
    · cases hrt with
      | @mk mt m ct c bt b rt res hm hc hb hres =>
        simp only at he; subst he
        cases hc with
        | @some s2 s3 raw d t e k1 k2 k3 k4 k5 k6 k7 k8 k9 =>
          exact ⟨s0, mt, s2, s3, raw, d, bt ++ rt ++ s1 ++ rest, t, by simp, hm, k1, k2, k5, k3, k4, k8, k9⟩
    · obtain ⟨before, mt, x0, x1, raw, c, after, t, rfl, k⟩ := ih hr
      exact ⟨s0 ++ u ++ s1 ++ before, mt, x0, x1, raw, c, after, t, by simp, k⟩

example : ∃ r ∈ [demoRule], r.condition = some (.ident 0 ['c']) := ⟨demoRule, by simp, rfl⟩

/-- C28.  Consequence (a defect): newlines become blanks, so a `//` comment inside a condition hides everything after it, also on the
following lines.  For a Go parser that ignores a trailing `//` comment, the rule
`(A x) && a // c⏎ && b => x` has the condition `a`; `&& b` is dropped without notice. -/
theorem C28_comment_hides_rest :
    parseBytes demoLib (utf8 "(A x) && a // c\n && b => x".toList) =
      .ok ⟨[{ «match» := .sexpr { op := .opcode ['A'] } [.var ['x']], condition := some (.ident 0 ['a']), result := .var ['x'] }]⟩ :=
  isOk_eq (by decide +kernel)

/-! ## C29: operands -/

/-- C29.  An S-expression as the match of a rule: whatever the order of the operands, the arguments are kept in order, and of several
types, AuxInts or Auxs the last one counts. -/
theorem C29_operands (lib : GoLib) (hl : RejectsComment lib) (op : Op) (ot rt : Str) (ops : List Operand) (res : Value) (ho : OpWF op)
    (hops : OperandsText (GoText lib) ot ops) (hr : ValueText (GoText lib) rt res) :
    parseBytes lib (utf8 ('(' :: showOp op ++ ot ++ ')' :: '=' :: '>' :: rt)) =
      .ok ⟨[{ «match» := .sexpr { op := op, type := lastType ops, auxInt := lastAuxInt ops, aux := lastAux ops } (argsOf ops),
              result := res }]⟩ := by
  have hm : ValueText (GoText lib) ([] ++ '(' :: [] ++ showOp op ++ ot ++ [] ++ [] ++ [] ++ [')']) _ :=
    .sexpr .none .nil ho hops .none .none .nil
  have hrt : RuleText (GoText lib) _ _ := .mk hm (.none .nil) (.none .nil) hr
  have hfo : Follow res ([] ++ []) := by
    cases res with
    | var v =>
      rw [Follow]
      split
      · simp
      · refine ⟨by simp, ?_⟩
        rintro ⟨s0, x, s1, rest', h, -⟩
        simp at h
    | _ => trivial
  have hf : FileText (GoText lib) _ _ := .cons .nil hrt .nil hfo .nil
  have := C24_rules_accepted lib hl _ _ hf
  rw [← this]
  congr 2
  simp

/-- … and this holds for every S-expression anywhere in an accepted text: see `ValueText.sexpr` in C24. -/
example : lastType [.type ['t'], .arg (.var ['x']), .auxInt (.ident 0 ['a']), .type ['u'], .arg (.var ['y'])] = ['u'] ∧
    argsOf [.type ['t'], .arg (.var ['x']), .auxInt (.ident 0 ['a']), .type ['u'], .arg (.var ['y'])] = [.var ['x'], .var ['y']] ∧
    parseBytes demoLib (utf8 "(A <t> x [a] <u> y)=>x".toList) =
      .ok ⟨[{ «match» := .sexpr { op := .opcode ['A'], type := ['u'], auxInt := some (.ident 0 ['a']) } [.var ['x'], .var ['y']],
              result := .var ['x'] }]⟩ :=
  ⟨rfl, rfl, isOk_eq (by decide +kernel)⟩

/-! ## C30, C31: package goexpr -/

/-- C30.  `goexpr.Parse` returns `e` iff the Go parser accepts the text, its tree has only the eight supported node kinds, and `e` is that tree
with every source position removed. -/
theorem C30_parse_iff (lib : GoLib) (t : Str) (e : GoExpr) :
    goexprParse lib t = .ok e ↔ ∃ tree, lib.parseExpr t = some tree ∧ goSupported tree = true ∧ e = erasePos tree :=
  goexprParse_ok_iff

/-- C30.  The result has no positions. -/
theorem C30_clean (lib : GoLib) (t : Str) (e : GoExpr) (h : goexprParse lib t = .ok e) : erasePos e = e ∧ goSupported e = true := by
  have := goText_clean (goexprParse_ok_iff.1 h)
  exact ⟨this.2, this.1⟩

/-- C30.  It panics exactly if the tree has a nil child (the Go parser never makes such trees). -/
theorem C30_panic_iff (lib : GoLib) (t : Str) : goexprParse lib t = .panic ↔ ∃ tree, lib.parseExpr t = some tree ∧ goNoNil tree = false := by
  rw [goexprParse_eq]
  cases lib.parseExpr t with
  | none => simp
  | some tree =>
    cases h : goNoNil tree with
    | false => simp [h]
    | true =>
      simp only [if_true]
      generalize (badGo tree).getLast? = o
      cases o <;> simp [h]

/-- C30.  It does not panic on a tree without nil children. -/
theorem C30_no_panic (lib : GoLib) (t : Str) (h : ∀ tree, lib.parseExpr t = some tree → goNoNil tree = true) : goexprParse lib t ≠ .panic := by
  rw [Ne, C30_panic_iff]
  rintro ⟨tree, h1, h2⟩
  rw [h tree h1] at h2
  cases h2

/-- C30.  A text that the Go parser rejects is rejected with the Go parser's own message; every error has this cause or is about a node of another kind. -/
theorem C30_go_error (lib : GoLib) (t : Str) (msg : Str) :
    (∃ e, goexprParse lib t = .err e ∧ e.text = msg) ↔ (lib.parseExpr t = none ∧ msg = lib.errorText t) ∨
      ∃ tree before ty, lib.parseExpr t = some tree ∧ goNoNil tree = true ∧ badGo tree = before ++ [ty] ∧ msg = "assertion failure: unexpected type ".toList ++ ty := by
  rw [goexprParse_eq]
  cases hp : lib.parseExpr t with
  | none =>
    simp only [Res.err.injEq, exists_eq_left', true_and, reduceCtorEq, false_and, exists_false, or_false]
    exact eq_comm
  | some tree =>
    cases hn : goNoNil tree with
    | false => simp [hn]
    | true =>
      simp only [hn, if_true, reduceCtorEq, false_and, false_or, Option.some.injEq]
      constructor
      · rintro ⟨e, h, rfl⟩
        cases hb : (badGo tree).getLast? with
        | none => rw [hb] at h; cases h
        | some ty =>
          rw [hb] at h; cases h
          obtain ⟨l, hl⟩ := List.getLast?_eq_some_iff.1 hb
          exact ⟨tree, l, ty, rfl, hn, hl, rfl⟩
      · rintro ⟨_, l, ty, rfl, _, hl, rfl⟩
        exact ⟨.unexpectedType ty, by rw [hl]; simp, rfl⟩

/-- C30.  A tree with nodes of other kinds is rejected with an error that names the Go type of the last of them. -/
theorem C30_rejects (lib : GoLib) (t : Str) (tree : GoExpr) (hp : lib.parseExpr t = some tree) (hn : goNoNil tree = true) (ty : Str) :
    goexprParse lib t = .err (.unexpectedType ty) ↔ ∃ before, badGo tree = before ++ [ty] := by
  rw [goexprParse_eq, hp]
  simp only [hn, if_true]
  constructor
  · intro h
    cases hb : (badGo tree).getLast? with
    | none => simp [hb] at h
    | some a =>
      simp [hb] at h
      obtain ⟨l, hl⟩ := List.getLast?_eq_some_iff.1 hb
      exact ⟨l, by rw [hl, h]⟩
  · rintro ⟨l, hl⟩
    simp [hl]

example : goexprParse demoLib ['f', '(', 'x', ')'] = .ok (.call (.ident 0 ['f']) 0 [.ident 0 ['x']] 0 0) := rfl
example : goexprParse { parseExpr := fun _ => some (.binary (.ident 1 ['x']) 2 .add (.other "FuncLit".toList)) } ['?'] = .err (.unexpectedType "*ast.FuncLit".toList) := rfl

/-- C31.  Two texts get the same AST exactly if their Go trees differ in nothing but source positions and variadic markers. -/
theorem C31_same_iff (lib : GoLib) (t t' : Str) (tree tree' e e' : GoExpr) (h : lib.parseExpr t = some tree) (h' : lib.parseExpr t' = some tree')
    (he : goexprParse lib t = .ok e) (he' : goexprParse lib t' = .ok e') : e = e' ↔ SameTokens tree tree' := by
  obtain ⟨x, hx, -, rfl⟩ := goexprParse_ok_iff.1 he
  obtain ⟨y, hy, -, rfl⟩ := goexprParse_ok_iff.1 he'
  rw [h] at hx; rw [h'] at hy
  simp only [Option.some.injEq] at hx hy
  subst hx; subst hy
  exact ⟨erase_sameTokens _ _, sameTokens_erase⟩

/-- C31.  Consequence (a defect): the variadic call `f(x...)` and the call `f(x)` get the same AST. -/
theorem C31_variadic_lost (lib : GoLib) (t t' : Str) (p q r p' q' r' el : Nat) (f : Str) (args : List GoExpr) (e e' : GoExpr)
    (h : lib.parseExpr t = some (.call (.ident p f) q args el r)) (h' : lib.parseExpr t' = some (.call (.ident p' f) q' args 0 r'))
    (he : goexprParse lib t = .ok e) (he' : goexprParse lib t' = .ok e') : e = e' :=
  (C31_same_iff lib t t' _ _ e e' h h' he he').2 (.call .ident (erases_sameTokenss _ _ rfl))

example : SameTokens (.call (.ident 1 ['f']) 2 [.ident 3 ['x']] 4 7) (.call (.ident 1 ['f']) 2 [.ident 3 ['x']] 0 4) ∧
    ¬ SameTokens (.ident 1 ['x']) (.paren 1 (.ident 2 ['x']) 3) :=
  ⟨.call .ident (.cons .ident .nil), by intro h; cases h⟩

end Verif.Props

import Verif.Spec.Print
/-!
# The rules language, declaratively

Relations between a text and what it denotes, written from the grammar in parse/rules.peg without reference to the parsing
machine.  `go t e` stands for "the text `t` is the Go expression `e`".
-/
namespace Verif.Spec
open Verif

def isBlank (c : Char) : Bool := c == ' ' || c == '\t' || c == '\r' || c == '\n'
def isLower (c : Char) : Bool := 'a' ≤ c && c ≤ 'z'
def isWordChar (c : Char) : Bool := c == '_' || isLower c || ('A' ≤ c && c ≤ 'Z') || ('0' ≤ c && c ≤ '9')

/-- One piece of skipped text: a white-space character or a `//` comment with its newline. -/
inductive SkipUnit : Str → Prop where
  | blank (c : Char) : isBlank c = true → SkipUnit [c]
  | comment (t : Str) : '\n' ∉ t → SkipUnit ('/' :: '/' :: t ++ ['\n'])

/-- Skipped text. -/
inductive Skip : Str → Prop where
  | nil : Skip []
  | cons {u s : Str} : SkipUnit u → Skip s → Skip (u ++ s)

/-- Non-empty skipped text. -/
def Skip1 (s : Str) : Prop := Skip s ∧ s ≠ []

/-- Non-empty text over `[_a-zA-Z0-9]`. -/
def Word (s : Str) : Prop := s ≠ [] ∧ ∀ c ∈ s, isWordChar c = true

/-- `[a-z][_a-zA-Z0-9]*` -/
def Ident (s : Str) : Prop := ∃ c t, s = c :: t ∧ isLower c = true ∧ ∀ d ∈ t, isWordChar d = true

/-- A plain part is a word; an alternation has at least two entries, all words. -/
def PartWF : OpPart → Prop
  | .opcode s => Word s
  | .alt cs => 2 ≤ cs.length ∧ ∀ c ∈ cs, Word c
  | .nil => False

def isPlain : OpPart → Bool
  | .opcode _ => true
  | _ => false

/-- No two plain parts next to each other. -/
def NoAdjacentPlain : List OpPart → Prop
  | p :: q :: ps => ¬ (isPlain p = true ∧ isPlain q = true) ∧ NoAdjacentPlain (q :: ps)
  | _ => True

/-- A well-formed opcode: one word, or a non-empty list of parts (not just one word) without adjacent plain parts. -/
def OpWF : Op → Prop
  | .opcode s => Word s
  | .parts ps => ps ≠ [] ∧ (∀ p ∈ ps, PartWF p) ∧ NoAdjacentPlain ps ∧ (∀ s, ps ≠ [.opcode s])
  | .nil => False

/-- What can be written after an opcode. -/
inductive Operand where
  | type (t : Str)
  | auxInt (e : GoExpr)
  | aux (e : GoExpr)
  | arg (v : Value)

/-- The types, in order. -/
def typesOf (ops : List Operand) : List Str := ops.filterMap fun | .type t => some t | _ => none
/-- The last `<type>`, or the empty string. -/
def lastType (ops : List Operand) : Str := (typesOf ops).getLast?.getD []
/-- The last `[auxint]`. -/
def lastAuxInt (ops : List Operand) : Option GoExpr := (ops.filterMap fun | .auxInt e => some e | _ => none).getLast?
/-- The last `{aux}`. -/
def lastAux (ops : List Operand) : Option GoExpr := (ops.filterMap fun | .aux e => some e | _ => none).getLast?
/-- The arguments, in order. -/
def argsOf (ops : List Operand) : List Value := ops.filterMap fun | .arg v => some v | _ => none

section
variable (go : Str → GoExpr → Prop)

mutual
/-- A variable, the placeholder `_`, or a call; the text of a call, and of every call inside it, is a Go expression. -/
inductive ExprText : Str → Value → Prop where
  | var {s} : Ident s → ExprText s (.var s)
  | placeholder : ExprText ['_'] (.var ['_'])
  | call {f s0 a v s1 rest e} : Ident f → Skip s0 → ExprText a v → Skip s1 → MoreArgs rest →
      go (f ++ '(' :: s0 ++ a ++ s1 ++ rest ++ [')']) e →
      ExprText (f ++ '(' :: s0 ++ a ++ s1 ++ rest ++ [')']) (.expr e)
/-- `, expr` any number of times. -/
inductive MoreArgs : Str → Prop where
  | nil : MoreArgs []
  | cons {s0 a v s1 rest} : Skip s0 → ExprText a v → Skip s1 → MoreArgs rest → MoreArgs (',' :: s0 ++ a ++ s1 ++ rest)
end

/-- Nothing (`b = []`), or `b:`. -/
inductive BindingText : Str → Str → Prop where
  | none : BindingText [] []
  | some {b} : Ident b → BindingText (b ++ [':']) b

/-- Nothing, or skipped text followed by the mark. -/
inductive MarkText (mark : Str) : Str → Bool → Prop where
  | none : MarkText mark [] false
  | some {s} : Skip1 s → MarkText mark (s ++ mark) true

mutual
/-- An S-expression or an expression. -/
inductive ValueText : Str → Value → Prop where
  | expr {t v} : ExprText go t v → ValueText t v
  | sexpr {bt b s0 op ot ops et ell tt tr s1} : BindingText bt b → Skip s0 → OpWF op → OperandsText ot ops →
      MarkText ['.', '.', '.'] et ell → MarkText ['_', '_', '_'] tt tr → Skip s1 →
      ValueText (bt ++ '(' :: s0 ++ showOp op ++ ot ++ et ++ tt ++ s1 ++ [')'])
        (.sexpr { binding := b, op := op, type := lastType ops, auxInt := lastAuxInt ops, aux := lastAux ops,
                  ellipsis := ell, trailing := tr } (argsOf ops))
/-- Operands, each after skipped text. -/
inductive OperandsText : Str → List Operand → Prop where
  | nil : OperandsText [] []
  | cons {s t o rest os} : Skip1 s → OperandText t o → OperandsText rest os → OperandsText (s ++ t ++ rest) (o :: os)
inductive OperandText : Str → Operand → Prop where
  | type {t} : t ≠ [] → '>' ∉ t → OperandText ('<' :: t ++ ['>']) (.type t)
  | auxInt {t e} : t ≠ [] → ']' ∉ t → go t e → OperandText ('[' :: t ++ [']']) (.auxInt e)
  | aux {t e} : t ≠ [] → '}' ∉ t → go t e → OperandText ('{' :: t ++ ['}']) (.aux e)
  | arg {t v} : ValueText t v → OperandText t (.arg v)
end

/-- White space as `unicode.IsSpace` defines it: the Unicode property White_Space. -/
def whiteSpace : List Nat := [9, 10, 11, 12, 13, 32, 0x85, 0xA0, 0x1680, 0x2000, 0x2001, 0x2002, 0x2003, 0x2004, 0x2005, 0x2006,
  0x2007, 0x2008, 0x2009, 0x200A, 0x2028, 0x2029, 0x202F, 0x205F, 0x3000]

/-- `t` is `s` without white space at both ends. -/
def Trimmed (s t : Str) : Prop :=
  ∃ pre post, s = pre ++ t ++ post ∧ (∀ c ∈ pre ++ post, c.toNat ∈ whiteSpace) ∧
    (∀ c, t.head? = some c → c.toNat ∉ whiteSpace) ∧ (∀ c, t.getLast? = some c → c.toNat ∉ whiteSpace)

/-- The arrow does not occur in `s`. -/
def NoArrow (s : Str) : Prop := ¬ ∃ a b, s = a ++ '=' :: '>' :: b

/-- The condition part of a rule up to the arrow, `text` ending right before `=>`.  Without condition: skipped text.  With a
condition: skipped text, `&&`, skipped text, the condition as written (`raw`), one white-space character; the Go expression is that of
`raw`, trimmed, with each newline replaced by a blank. -/
inductive CondText : Str → Option GoExpr → Prop where
  | none {s} : Skip s → CondText s none
  | some {s0 s1 raw c t e} : Skip1 s0 → Skip1 s1 → raw ≠ [] → NoArrow raw.tail → isBlank c = true →
      (∀ d, raw.head? = some d → isBlank d = false) → (∀ x, raw = '/' :: '/' :: x → '\n' ∉ raw) →
      Trimmed (raw.map fun d => if d = '\n' then ' ' else d) t → go t e →
      CondText (s0 ++ '&' :: '&' :: s1 ++ raw ++ [c]) (some e)

/-- The block part of a rule after the arrow: nothing, or `@block` and at least one blank, tab or CR. -/
inductive BlockText : Str → Str → Prop where
  | none {s} : Skip s → BlockText s []
  | some {s0 b s1 c} : Skip s0 → b ≠ [] → (∀ d ∈ b, d ≠ ' ' ∧ d ≠ '\t' ∧ d ≠ '\r') → (c = ' ' ∨ c = '\t' ∨ c = '\r') → Skip s1 →
      BlockText (s0 ++ '@' :: b ++ c :: s1) b

/-- `match [&& condition] => [@block] result` -/
inductive RuleText : Str → Rule → Prop where
  | mk {mt m ct c bt b rt r} : ValueText go mt m → CondText go ct c → BlockText bt b → ValueText go rt r →
      RuleText (mt ++ ct ++ '=' :: '>' :: bt ++ rt) { «match» := m, condition := c, block := b, result := r }

/-- `rest`, written directly after an identifier, would make it a call. -/
def CallLike (rest : Str) : Prop :=
  ∃ s0 x s1 rest', rest = '(' :: s0 ++ x ++ s1 ++ ')' :: rest' ∧ Skip s0 ∧ (Ident x ∨ x = ['_']) ∧ Skip s1

/-- What may follow directly after a value: an identifier must not be continued, an `_` not by another `_`. -/
def Follow : Value → Str → Prop
  | .var v, rest =>
    if v = ['_'] then rest.head? ≠ some '_' else (∀ c, rest.head? = some c → isWordChar c = false) ∧ ¬ CallLike rest
  | _, _ => True

/-- A file: rules with skipped text around them. -/
inductive FileText : Str → List Rule → Prop where
  | nil : FileText [] []
  | cons {s0 t r s1 rest rs} : Skip s0 → RuleText go t r → Skip s1 → Follow r.result (s1 ++ rest) → FileText rest rs →
      FileText (s0 ++ t ++ s1 ++ rest) (r :: rs)
end

end Verif.Spec

/-!
# Specification: parsing expression grammars

The standard semantics of parsing expression grammars (Ford, POPL 2004) for the rule names and constructs of parse/rules.peg.
-/
namespace Verif.Spec.Peg

/-- The rules of parse/rules.peg. -/
inductive NT where
  | File | Rule | Value | SExpr | Op | OpPart | OpAlt | Operand | Type | AuxInt | Aux | Expr | Call | Variable | Placeholder | Ident | Condition | Block
  | skips | skip0 | Skip | Comment | Whitespace | EOL | EOF
  deriving DecidableEq, Repr

/-- Parsing expressions. -/
inductive Exp where
  /-- `.` -/
  | any
  /-- `[…]` and `[^…]`: single characters and ranges -/
  | cls (negated : Bool) (chars : List Char) (ranges : List (Char × Char))
  /-- `"…"` or `'…'` -/
  | lit (text : List Char)
  /-- a rule -/
  | nt (rule : NT)
  | seq (es : List Exp)
  /-- `e1 / e2 / …` -/
  | choice (es : List Exp)
  /-- `e*` -/
  | star (e : Exp)
  /-- `e+` -/
  | plus (e : Exp)
  /-- `e?` -/
  | opt (e : Exp)
  /-- `!e` -/
  | not (e : Exp)
  deriving Repr

/-- A grammar: the definition of each rule. -/
abbrev Grammar := NT → Exp

/-- `c` belongs to the class. -/
def InClass (negated : Bool) (chars : List Char) (ranges : List (Char × Char)) (c : Char) : Prop :=
  if negated then c ∉ chars ∧ ∀ r ∈ ranges, ¬(r.1 ≤ c ∧ c ≤ r.2) else c ∈ chars ∨ ∃ r ∈ ranges, r.1 ≤ c ∧ c ≤ r.2

/-- `Gives G e input result`: on the text `input` the expression `e` succeeds and leaves the text `rest` (`some rest`), or fails (`none`). -/
inductive Gives (G : Grammar) : Exp → List Char → Option (List Char) → Prop where
  | any_ok {c l} : Gives G .any (c :: l) (some l)
  | any_end : Gives G .any [] none
  | cls_ok {n cs rs c l} : InClass n cs rs c → Gives G (.cls n cs rs) (c :: l) (some l)
  | cls_bad {n cs rs c l} : ¬ InClass n cs rs c → Gives G (.cls n cs rs) (c :: l) none
  | cls_end {n cs rs} : Gives G (.cls n cs rs) [] none
  | lit_ok {t l} : Gives G (.lit t) (t ++ l) (some l)
  | lit_bad {t l} : ¬ t <+: l → Gives G (.lit t) l none
  | nt {x l r} : Gives G (G x) l r → Gives G (.nt x) l r
  | seq_nil {l} : Gives G (.seq []) l (some l)
  | seq_ok {e es l l' r} : Gives G e l (some l') → Gives G (.seq es) l' r → Gives G (.seq (e :: es)) l r
  | seq_bad {e es l} : Gives G e l none → Gives G (.seq (e :: es)) l none
  | choice_nil {l} : Gives G (.choice []) l none
  | choice_first {e es l l'} : Gives G e l (some l') → Gives G (.choice (e :: es)) l (some l')
  | choice_next {e es l r} : Gives G e l none → Gives G (.choice es) l r → Gives G (.choice (e :: es)) l r
  | star_more {e l l' r} : Gives G e l (some l') → Gives G (.star e) l' r → Gives G (.star e) l r
  | star_end {e l} : Gives G e l none → Gives G (.star e) l (some l)
  | plus_ok {e l l' r} : Gives G e l (some l') → Gives G (.star e) l' r → Gives G (.plus e) l r
  | plus_bad {e l} : Gives G e l none → Gives G (.plus e) l none
  | opt_some {e l l'} : Gives G e l (some l') → Gives G (.opt e) l (some l')
  | opt_none {e l} : Gives G e l none → Gives G (.opt e) l (some l)
  | not_bad {e l l'} : Gives G e l (some l') → Gives G (.not e) l none
  | not_ok {e l} : Gives G e l none → Gives G (.not e) l (some l)

/-- parse/rules.peg without labels and actions (`skips` is `__`, `skip0` is `_`); see `Spec/PegFile.lean`, where this is read from the text of the file. -/
def rules : Grammar
  | .File => .seq [.star (.seq [.nt .skip0, .nt .Rule, .nt .skip0]), .nt .EOF]
  | .Rule => .seq [.nt .Value, .opt (.seq [.nt .skips, .lit ['&', '&'], .nt .skips, .nt .Condition]), .nt .skip0, .lit ['=', '>'], .nt .skip0,
      .opt (.nt .Block), .nt .skip0, .nt .Value]
  | .Value => .choice [.nt .SExpr, .nt .Expr]
  | .SExpr => .seq [.opt (.seq [.nt .Variable, .lit [':']]), .lit ['('], .nt .skip0, .nt .Op, .star (.seq [.nt .skips, .nt .Operand]),
      .opt (.seq [.nt .skips, .lit ['.', '.', '.']]), .opt (.seq [.nt .skips, .lit ['_', '_', '_']]), .nt .skip0, .lit [')']]
  | .Op => .plus (.choice [.nt .OpPart, .nt .OpAlt])
  | .OpPart => .plus (.cls false ['_'] [('a', 'z'), ('A', 'Z'), ('0', '9')])
  | .OpAlt => .seq [.lit ['('], .nt .OpPart, .plus (.seq [.lit ['|'], .nt .OpPart]), .lit [')']]
  | .Operand => .choice [.nt .Type, .nt .AuxInt, .nt .Aux, .nt .Value]
  | .Type => .seq [.lit ['<'], .plus (.cls true ['>'] []), .lit ['>']]
  | .AuxInt => .seq [.lit ['['], .plus (.cls true [']'] []), .lit [']']]
  | .Aux => .seq [.lit ['{'], .plus (.cls true ['}'] []), .lit ['}']]
  | .Expr => .choice [.nt .Call, .nt .Variable, .nt .Placeholder]
  | .Call => .seq [.nt .Ident, .lit ['('], .nt .skip0, .nt .Expr, .star (.seq [.nt .skip0, .lit [','], .nt .skip0, .nt .Expr, .nt .skip0]), .nt .skip0, .lit [')']]
  | .Variable => .nt .Ident
  | .Placeholder => .seq [.lit ['_'], .not (.lit ['_'])]
  | .Ident => .seq [.cls false [] [('a', 'z')], .star (.cls false ['_'] [('a', 'z'), ('A', 'Z'), ('0', '9')])]
  | .Condition => .plus (.seq [.any, .not (.lit ['=', '>'])])
  | .Block => .seq [.lit ['@'], .plus (.seq [.not (.nt .Whitespace), .any])]
  | .skips => .plus (.nt .Skip)
  | .skip0 => .star (.nt .Skip)
  | .Skip => .choice [.nt .Comment, .nt .Whitespace, .nt .EOL]
  | .Comment => .seq [.lit ['/', '/'], .star (.cls true ['\n'] []), .nt .EOL]
  | .Whitespace => .cls false [' ', '\t', '\r'] []
  | .EOL => .lit ['\n']
  | .EOF => .not .any

end Verif.Spec.Peg

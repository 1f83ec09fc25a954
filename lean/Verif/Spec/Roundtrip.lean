import Verif.Spec.GoSyntax
import Verif.Spec.WellFormed
/-!
# What survives printing and parsing again
-/
namespace Verif.Spec
open Verif

/-- The text is, by itself, that one token. -/
def OneTok (u : GoVersion) (w : Str) (k : GTok) : Prop := lexTok u w = some (k, []) ∧ '\x00' ∉ w ∧ '\uFEFF' ∉ w

/-- How tightly the outermost operator binds: 1 to 5 for binary operators, 6 for unary ones, 7 for operands, calls and selectors. -/
def goPrec : GoExpr → Nat
  | .binary _ _ op _ => op.level
  | .unary .. => 6
  | .star .. => 6
  | _ => 7

mutual
/-- A tree that is the tree of some expression, without positions: leaves are single tokens; parentheses are present wherever an operand would
otherwise bind less tightly than its operator (binary operators associate to the left). -/
def GoWF (u : GoVersion) : GoExpr → Prop
  | .ident p n => p = 0 ∧ OneTok u n (.ident n)
  | .basicLit p k v => p = 0 ∧ OneTok u v (.lit k v)
  | .paren p x q => p = 0 ∧ q = 0 ∧ GoWF u x
  | .unary p op x => p = 0 ∧ op ∈ unaryOps u ∧ GoWF u x ∧ 6 ≤ goPrec x
  | .star p x => p = 0 ∧ GoWF u x ∧ 6 ≤ goPrec x
  | .binary x p op y => p = 0 ∧ 1 ≤ op.level ∧ GoWF u x ∧ op.level ≤ goPrec x ∧ GoWF u y ∧ op.level < goPrec y
  | .call fn p args e q => p = 0 ∧ e = 0 ∧ q = 0 ∧ GoWF u fn ∧ goPrec fn = 7 ∧ GoWFs u args
  | .selector x p sel => p = 0 ∧ GoWF u x ∧ goPrec x = 7 ∧ OneTok u sel (.ident sel)
  | .other _ => False
  | .nil => False
def GoWFs (u : GoVersion) : List GoExpr → Prop
  | [] => True
  | e :: es => GoWF u e ∧ GoWFs u es
end

/-- A piece of printed text: a token, or a blank between tokens. -/
inductive Piece where
  | tok (k : GTok)
  | blank

mutual
/-- The tokens the printer writes for a Go expression, and the blanks it writes between them. -/
def pieces : GoExpr → List Piece
  | .ident _ n => [.tok (.ident n)]
  | .basicLit _ k v => [.tok (.lit k v)]
  | .paren _ x _ => .tok .lparen :: pieces x ++ [.tok .rparen]
  | .unary _ op x => .tok (.op op) :: pieces x
  | .star _ x => .tok (.op .mul) :: pieces x
  | .binary x _ op y => pieces x ++ (if op.level < 4 then [.blank, .tok (.op op), .blank] else [.tok (.op op)]) ++ pieces y
  | .call fn _ args _ _ => pieces fn ++ .tok .lparen :: argPieces args ++ [.tok .rparen]
  | .selector x _ sel => pieces x ++ [.tok .period, .tok (.ident sel)]
  | .other _ => []
  | .nil => []
def argPieces : List GoExpr → List Piece
  | [] => []
  | e :: es => pieces e ++ argPiecesTail es
def argPiecesTail : List GoExpr → List Piece
  | [] => []
  | e :: es => .tok .comma :: .blank :: pieces e ++ argPiecesTail es
end

/-- Two tokens that are not read back as two tokens when written without a blank between them: `++`, `--`, `&&`, `&^`, `/*`, `1.` -/
def Fuses : GTok → GTok → Prop
  | .op .add, .op .add => True
  | .op .sub, .op .sub => True
  | .op .and, .op .and => True
  | .op .and, .op .xor => True
  | .op .quo, .op .mul => True
  | .lit .int _, .period => True
  | _, _ => False

/-- No two tokens next to each other fuse. -/
def NoFuse (ps : List Piece) : Prop := ∀ pre a b post, ps = pre ++ .tok a :: .tok b :: post → ¬ Fuses a b

/-- The tree is one that is read back from its printed form. -/
def GoStable (u : GoVersion) (e : GoExpr) : Prop := GoWF u e ∧ NoFuse (pieces e)

mutual
/-- `x`, `_`, or a call `f(…)` with at least one argument, all arguments being of this kind. -/
def ArgShape : GoExpr → Prop
  | .ident _ s => Ident s ∨ s = ['_']
  | .call (.ident _ f) _ args _ _ => Ident f ∧ args ≠ [] ∧ ArgShapes args
  | _ => False
def ArgShapes : List GoExpr → Prop
  | [] => True
  | e :: es => ArgShape e ∧ ArgShapes es
end

/-- A Go expression in the place of a value is a call of this kind. -/
def CallShape (e : GoExpr) : Prop := ArgShape e ∧ ∃ fn p args q r, e = .call fn p args q r

/-- Holds of the expression, if there is one. -/
def Opt (P : GoExpr → Prop) : Option GoExpr → Prop
  | none => True
  | some e => P e

mutual
/-- As `ValueWF`; Go expressions are stable and do not contain the bracket that ends them. -/
def ValueStable (u : GoVersion) : Value → Prop
  | .var s => Ident s ∨ s = ['_']
  | .expr e => CallShape e ∧ GoStable u e
  | .sexpr h args =>
    (h.binding = [] ∨ Ident h.binding) ∧ OpWF h.op ∧ '>' ∉ h.type ∧ Opt (fun e => GoStable u e ∧ ']' ∉ showGo e) h.auxInt ∧
      Opt (fun e => GoStable u e ∧ '}' ∉ showGo e) h.aux ∧ ValuesStable u args
  | .nil => False
def ValuesStable (u : GoVersion) : List Value → Prop
  | [] => True
  | v :: vs => ValueStable u v ∧ ValuesStable u vs
end

/-- A rule that is read back from its printed form: in addition the condition does not contain the arrow or a newline (in a string
literal). -/
def RuleStable (u : GoVersion) (r : Rule) : Prop :=
  ValueStable u r.match ∧ Opt (fun e => GoStable u e ∧ NoArrow (showGo e) ∧ '\n' ∉ showGo e) r.condition ∧
    (∀ c ∈ r.block, c ≠ ' ' ∧ c ≠ '\t' ∧ c ≠ '\r') ∧ ValueStable u r.result

mutual
/-- The Go expressions of a value, at every depth. -/
def exprsOf : Value → List GoExpr
  | .sexpr h args => h.auxInt.toList ++ h.aux.toList ++ exprsOfs args
  | .expr e => [e]
  | _ => []
def exprsOfs : List Value → List GoExpr
  | [] => []
  | v :: vs => exprsOf v ++ exprsOfs vs
end

/-- All Go expressions of a rule. -/
def ruleExprs (r : Rule) : List GoExpr := exprsOf r.match ++ r.condition.toList ++ exprsOf r.result

/-- No literal of the expression contains `=>`. -/
def LitsNoArrow (e : GoExpr) : Prop := ∀ k v, .tok (.lit k v) ∈ pieces e → NoArrow v

end Verif.Spec

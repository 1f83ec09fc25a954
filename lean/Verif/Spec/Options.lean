import Verif.Model.Options
import Verif.Spec.Syntax
/-!
# What the options of the generated parser mean (for C72)
-/
namespace Verif.Spec
open Verif

/-- The last of the options that `f` knows. -/
def lastOf {α} (f : Opt → Option α) (opts : List Opt) : Option α := (opts.filterMap f).getLast?

/-- The rule to start with: that of the last `Entrypoint`; `File` if there is none or it is the empty string. -/
def entryOf (opts : List Opt) : Str :=
  match lastOf (fun | .entrypoint n => some n | _ => none) opts with
  | none => "File".toList
  | some n => if n = [] then "File".toList else n

/-- The limit: that of the last `MaxExpressions`; 0 means no limit, and so does the largest number of the type, which a counter of this type does not exceed. -/
def limitOf (opts : List Opt) : Option Nat :=
  match lastOf (fun | .maxExpressions n => some n.toNat | _ => none) opts with
  | none => none
  | some n => if n = 0 ∨ n = 2 ^ 64 - 1 then none else some n

/-- Whether panics are turned into errors: what the last `Recover` says, by default yes. -/
def recoverOf (opts : List Opt) : Bool := (lastOf (fun | .recover b => some b | _ => none) opts).getD true

/-- Whether invalid UTF-8 is let through: what the last `AllowInvalidUTF8` says, by default no. -/
def allowOf (opts : List Opt) : Bool := (lastOf (fun | .allowInvalidUTF8 b => some b | _ => none) opts).getD false

/-- A value as the parser returns it. -/
def parsedValue : Value → Dyn
  | .var s => .variable s
  | .expr e => .expr e
  | .sexpr h args => .sexpr h args
  | .nil => .nil

/-- An operand as the parser returns it. -/
def parsedOperand : Operand → Dyn
  | .type t => .type t
  | .auxInt e => .auxint e
  | .aux e => .aux e
  | .arg v => parsedValue v

/-- The texts of a rule of the grammar (Spec/Syntax.lean), with the value they have; `go` says which texts are Go expressions. -/
inductive EntryText (go : Str → GoExpr → Prop) : RuleName → Str → Dyn → Prop where
  | file {t rs} : FileText go t rs → EntryText go .File t (.file ⟨rs⟩)
  | rule {t r} : RuleText go t r → EntryText go .Rule t (.rule r)
  | value {t v} : ValueText go t v → EntryText go .Value t (parsedValue v)
  | sexpr {t h args} : ValueText go t (.sexpr h args) → EntryText go .SExpr t (.sexpr h args)
  | operand {t o} : OperandText go t o → EntryText go .Operand t (parsedOperand o)
  | expr {t v} : ExprText go t v → EntryText go .Expr t (parsedValue v)
  | call {t e} : ExprText go t (.expr e) → EntryText go .Call t (.expr e)

/-- The end of the text, or a character that cannot continue a word, a call or a binding. -/
def Ended (rest : Str) : Prop := ∀ c, rest.head? = some c → isWordChar c = false ∧ c ≠ '(' ∧ c ≠ ':'

end Verif.Spec

import Verif.Spec.Syntax
import Verif.Spec.GoTree
/-!
# Well-formed ASTs
-/
namespace Verif.Spec
open Verif

/-- An optional Go expression is absent or clean. -/
def OptClean : Option GoExpr → Prop
  | none => True
  | some e => GoClean e

mutual
/-- Variables are identifiers or `_`; bindings are absent or identifiers; opcodes are well formed; a type has no `>`; Go expressions
are clean; no nil. -/
def ValueWF : Value → Prop
  | .var s => Ident s ∨ s = ['_']
  | .expr e => GoClean e
  | .sexpr h args =>
    (h.binding = [] ∨ Ident h.binding) ∧ OpWF h.op ∧ '>' ∉ h.type ∧ OptClean h.auxInt ∧ OptClean h.aux ∧ ValuesWF args
  | .nil => False
def ValuesWF : List Value → Prop
  | [] => True
  | v :: vs => ValueWF v ∧ ValuesWF vs
end

/-- A block (absent if empty) has no blank, tab or CR. -/
def RuleWF (r : Rule) : Prop :=
  ValueWF r.match ∧ OptClean r.condition ∧ (∀ c ∈ r.block, c ≠ ' ' ∧ c ≠ '\t' ∧ c ≠ '\r') ∧ ValueWF r.result

end Verif.Spec

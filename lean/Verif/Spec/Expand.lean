import Verif.Spec.Tree
/-!
# Specification of alternative expansion

Independent of the model of pass/alt.go: the alternations occurring in a rule, and what it means to pick the `i`-th entry everywhere.
-/
namespace Verif.Spec

open Verif

mutual
/-- All opcodes of the S-expressions of a value, at every depth, in source order. -/
def opsOf : Value → List Op
  | .sexpr h args => h.op :: opsOfs args
  | _ => []
def opsOfs : List Value → List Op
  | [] => []
  | v :: vs => opsOf v ++ opsOfs vs
end

/-- Sizes of the alternations `(a|b|…)` in an opcode part / opcode. -/
def partSizes : OpPart → List Nat
  | .alt cs => [cs.length]
  | _ => []
def opSizes : Op → List Nat
  | .parts ps => ps.flatMap partSizes
  | _ => []

/-- Sizes of all alternations of a value / rule. -/
def sizes (v : Value) : List Nat := (opsOf v).flatMap opSizes
def ruleSizes (r : Rule) : List Nat := sizes r.match ++ sizes r.result

/-- All numbers of the list are the same. -/
def Agree (l : List Nat) : Prop := ∀ a ∈ l, ∀ b ∈ l, a = b

/-- The text of an opcode part when the `i`-th alternative is picked. -/
def pickPart (i : Nat) : OpPart → Str
  | .opcode s => s
  | .alt cs => cs.getD i []
  | .nil => []

/-- The opcode when the `i`-th alternative is picked: the parts are concatenated. -/
def pickOp (i : Nat) : Op → Op
  | .parts ps => .opcode (ps.flatMap (pickPart i))
  | o => o

mutual
/-- Apply a function to every opcode of a value, at every depth, leaving everything else as it is. -/
def mapOps (f : Op → Op) : Value → Value
  | .sexpr h args => .sexpr { h with op := f h.op } (mapOpss f args)
  | v => v
def mapOpss (f : Op → Op) : List Value → List Value
  | [] => []
  | v :: vs => mapOps f v :: mapOpss f vs
end

/-- Apply a function to every opcode of the match and of the result of a rule. -/
def mapRuleOps (f : Op → Op) (r : Rule) : Rule :=
  { r with «match» := mapOps f r.match, result := mapOps f r.result }

/-- The rule with the `i`-th alternative picked everywhere. -/
def pickRule (i : Nat) (r : Rule) : Rule := mapRuleOps (pickOp i) r

/-- A meaningful opcode: a plain one, or parts among which there is an alternation, every alternation having at least two entries. -/
def OpMeaningful : Op → Prop
  | .opcode _ => True
  | .parts ps => .nil ∉ ps ∧ (∃ cs, .alt cs ∈ ps) ∧ ∀ cs, .alt cs ∈ ps → 2 ≤ cs.length
  | .nil => False

mutual
/-- All values inside a value (itself and its arguments, at every depth). -/
def valuesOf : Value → List Value
  | .sexpr h args => .sexpr h args :: valuesOfs args
  | v => [v]
def valuesOfs : List Value → List Value
  | [] => []
  | v :: vs => valuesOf v ++ valuesOfs vs
end

/-- No nil value inside, and all opcodes are meaningful. -/
def Meaningful (v : Value) : Prop := .nil ∉ valuesOf v ∧ ∀ o ∈ opsOf v, OpMeaningful o
def RuleMeaningful (r : Rule) : Prop := Meaningful r.match ∧ Meaningful r.result

/-- A plain opcode. -/
def Plain : Op → Prop
  | .opcode _ => True
  | _ => False
/-- All opcodes of the rule are plain. -/
def RulePlain (r : Rule) : Prop := ∀ o ∈ opsOf r.match ++ opsOf r.result, Plain o

/-- How many rules a rule stands for: the common size of its alternations, 1 if there are none. -/
def count (l : List Nat) : Nat := l.headD 1

end Verif.Spec

namespace Verif.Spec
open Verif

/-- The header of an S-expression uses none of the optional features. -/
def HdrSimple (h : Hdr) : Prop :=
  h.binding = [] ∧ h.type = [] ∧ h.auxInt = none ∧ h.aux = none ∧ h.ellipsis = false ∧ h.trailing = false

/-- A rule uses none of: condition, block, binding, type, AuxInt, Aux, ellipsis, trailing. -/
def Simple (r : Rule) : Prop :=
  r.condition = none ∧ r.block = [] ∧ ¬ RuleHas (fun h => ¬ HdrSimple h) r

instance (h : Hdr) : Decidable (HdrSimple h) := by
  have : ∀ x : Option GoExpr, Decidable (x = none) := fun x =>
    match x with
    | none => isTrue rfl
    | some _ => isFalse (by simp)
  unfold HdrSimple
  exact inferInstance

end Verif.Spec

import Verif.Spec.Ssa
/-!
# Rewriting of SSA expressions by rules

What a compiler does with a rule: somewhere in an expression, an instance of the match is replaced by the same instance of the result.
-/
namespace Verif.Spec.Ssa

open Verif

mutual
/-- Put expressions for the variables. -/
def subst (θ : Str → Value) : Value → Value
  | .var x => θ x
  | .sexpr h args => .sexpr h (substs θ args)
  | v => v
def substs (θ : Str → Value) : List Value → List Value
  | [] => []
  | v :: vs => subst θ v :: substs θ vs
end

/-- One rewriting step with one of the rules, at any place of an expression. -/
inductive Step (rules : List Rule) : Value → Value → Prop
  | here {r : Rule} (θ : Str → Value) : r ∈ rules → Step rules (subst θ r.match) (subst θ r.result)
  | inside {h : Hdr} {pre post : List Value} {a b : Value} : Step rules a b →
      Step rules (.sexpr h (pre ++ a :: post)) (.sexpr h (pre ++ b :: post))

/-- Any number of steps. -/
inductive Steps (rules : List Rule) : Value → Value → Prop
  | done (e : Value) : Steps rules e e
  | step {a b c : Value} : Step rules a b → Steps rules b c → Steps rules a c

/-- The result of a rule uses no variables that the match does not bind. -/
def Bound (r : Rule) : Prop := ∀ x ∈ vars r.result, x ∈ vars r.match

mutual
/-- Rename the variables. -/
def rename (ρ : Str → Str) : Value → Value
  | .var x => .var (ρ x)
  | .sexpr h args => .sexpr h (renames ρ args)
  | v => v
def renames (ρ : Str → Str) : List Value → List Value
  | [] => []
  | v :: vs => rename ρ v :: renames ρ vs
end

/-- Rename the variables of match and result.  (Go expressions are left as they are.) -/
def renameRule (ρ : Str → Str) (r : Rule) : Rule := { r with «match» := rename ρ r.match, result := rename ρ r.result }

end Verif.Spec.Ssa

import Verif.Spec.Rewrite
/-!
# Consequences of rules

Equational reasoning with rules: instances of rules used in both directions, at any place, one after the other.
-/
namespace Verif.Spec.Ssa

open Verif Verif.Spec.Smt

/-- `a` can be turned into `b` by any number of steps with the rules, forwards and backwards.  (Nothing is asked of the expressions on the way.) -/
inductive Connected (rules : List Rule) : Value → Value → Prop
  | refl (a : Value) : Connected rules a a
  | forward {a b c : Value} : Step rules a b → Connected rules b c → Connected rules a c
  | backward {a b c : Value} : Step rules b a → Connected rules b c → Connected rules a c

/-- The rule without condition and block from one expression to another. -/
def ruleFrom (a b : Value) : Rule := { «match» := a, result := b }

end Verif.Spec.Ssa

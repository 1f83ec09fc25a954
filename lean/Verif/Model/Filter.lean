import Verif.Model.Walk
/-!
# Model of the rule filter of cmd/ssarules/main.go
-/
namespace Verif

/-- A Go boolean-valued call that may panic (`none`), as an operand of `||`: short-circuit evaluation. (cmd/ssarules/main.go:80-87) -/
def orElseB (a : Option Bool) (b : Option Bool) : Option Bool :=
  match a with
  | some true => some true
  | some false => b
  | none => none

/-- The condition of the `if` in `load` without the outer negation (cmd/ssarules/main.go:80-87). -/
def hasFeature (r : Rule) : Option Bool :=
  orElseB (some r.condition.isSome) <|
  orElseB (some (r.block != [])) <|
  orElseB (hasBinding r) <|
  orElseB (hasType r) <|
  orElseB (hasAux r) <|
  orElseB (hasAuxInt r) <|
  orElseB (hasEllipsis r) <|
  hasTrailing r

/-- The filter loop of `load` (cmd/ssarules/main.go:77-90). -/
def filterSimple : List Rule → Res (List Rule)
  | [] => .ok []
  | r :: rs =>
    match hasFeature r with
    | none => .panic
    | some true => filterSimple rs
    | some false => do
      let rest ← filterSimple rs
      .ok (r :: rest)

end Verif

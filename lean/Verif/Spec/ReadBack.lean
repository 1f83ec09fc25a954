import Verif.Model.Ast
/-!
# The rule a script was made from (C75)

A script names its rule in its third line, after `; `.
-/
namespace Verif.Spec
open Verif

/-- A text without its first line. -/
def dropLine (s : Str) : Str := (s.dropWhile (· ≠ '\n')).drop 1

/-- The third line of a text without `; ` in front, if it starts with that. -/
def ruleLine (s : Str) : Option Str :=
  match (dropLine (dropLine s)).takeWhile (· ≠ '\n') with
  | ';' :: ' ' :: t => some t
  | _ => none

end Verif.Spec

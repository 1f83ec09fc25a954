import Verif.Model.Ast
/-! # Decimal numbers -/
namespace Verif.Spec
open Verif
/-- Decimal digits of a number. -/
def numeral (n : Nat) : Str := (Nat.repr n).toList
end Verif.Spec

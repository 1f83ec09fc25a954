import Verif.Spec.Decimal
/-! # Decimal numbers -/
namespace Verif
open Verif.Spec

theorem decimal_eq (n : Nat) : numeral n = natStr n := by
  unfold numeral natStr Nat.repr
  exact String.toList_ofList

end Verif

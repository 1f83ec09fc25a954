import Verif.Model.Parse
/-!
# Which texts the grammar submits to the Go parser
-/
namespace Verif.Spec
open Verif

/-- The grammar of the rules language used for matching only: its actions compute nothing (and so never fail).  No Go parser is involved. -/
def matchOnly : Grammar where
  rules := gRules
  act := fun _ _ _ => .ok .nil
  asks := gAsks

/-- All the texts that count as an embedded Go expression at some point while `bs` is matched, in order, including those in alternatives that
are given up later. -/
def submitted (bs : List UInt8) : List Str :=
  match parseSyms matchOnly (depthBound bs.length) (decode bs) with
  | some (_, _, asked) => asked
  | none => []

end Verif.Spec

import Verif.Model.Grammar
/-!
# Model of package `parse` (parse/parse.go)
-/
namespace Verif

/-- `cast` (parse/parse.go:30-35) applied to the result of the machine. -/
def castFile : Dyn × List PErr × List Str → Res File
  | (.file f, [], _) => .ok f
  | (_, [], _) => .panic
  | (_, _ :: _, _) => .err (.other "parse".toList)

/-- `parse.String` (parse/parse.go:26-28) and `parse.Reader` (parse/parse.go:21-23; a reader that fails is an I/O error, see
`Model/Cmd.lean`) on the bytes `bs`, with the recursion depth bounded by `n`; `none`: the bound was too small.
The list of errors is reduced to "there is an error". -/
def parseDepth (lib : GoLib) (n : Nat) (bs : List UInt8) : Option (Res File) :=
  (parseSyms (ruleGrammar lib) n (decode bs)).map castFile

/-- A recursion depth that always suffices (C21 proves it): linear in the number of bytes. (for the recursion of zparser.go:2274-2331, which has no bound of its own) -/
def depthBound (bytes : Nat) : Nat := 200 * bytes + 201

/-- `parse.String`. (parse/parse.go:26-28) -/
def parseBytes (lib : GoLib) (bs : List UInt8) : Res File :=
  (parseDepth lib (depthBound bs.length) bs).getD .panic

end Verif

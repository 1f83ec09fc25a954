import Verif.Model.Ast
/-!
# The operators of Go

From the Go specification (section "Operators and punctuation" and the table in "Operator precedence") and the constants of go/token.
-/
namespace Verif

/-- The table of the Go specification: the precedence of the binary operators, from the tightest to the loosest. -/
def Spec.precedenceTable : List (Nat × List Str) :=
  [(5, [['*'], ['/'], ['%'], ['<', '<'], ['>', '>'], ['&'], ['&', '^']]),
   (4, [['+'], ['-'], ['|'], ['^']]),
   (3, [['=', '='], ['!', '='], ['<'], ['<', '='], ['>'], ['>', '=']]),
   (2, [['&', '&']]),
   (1, [['|', '|']])]

/-- How tightly a binary operator binds, 0 if it is none (`token.MUL`, `token.QUO`, ...). -/
def Tok.level : Tok → Nat
  | .mul => 5 | .quo => 5 | .rem => 5 | .shl => 5 | .shr => 5 | .and => 5 | .andNot => 5
  | .add => 4 | .sub => 4 | .or => 4 | .xor => 4
  | .eql => 3 | .neq => 3 | .lss => 3 | .leq => 3 | .gtr => 3 | .geq => 3
  | .land => 2
  | .lor => 1
  | .arrow => 0 | .not => 0 | .other _ => 0

/-- The tokens of go/token that are operators of expressions, and their text. -/
def Spec.operatorWords : List (Tok × Str) :=
  [(.add, "+".toList), (.sub, "-".toList), (.mul, "*".toList), (.quo, "/".toList), (.rem, "%".toList),
   (.and, "&".toList), (.or, "|".toList), (.xor, "^".toList), (.shl, "<<".toList), (.shr, ">>".toList), (.andNot, "&^".toList),
   (.land, "&&".toList), (.lor, "||".toList), (.arrow, "<-".toList),
   (.eql, "==".toList), (.neq, "!=".toList), (.lss, "<".toList), (.leq, "<=".toList), (.gtr, ">".toList), (.geq, ">=".toList), (.not, "!".toList)]

end Verif

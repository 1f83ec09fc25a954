import Verif.Model.PegErr
import Verif.Spec.Cmd
/-!
# Specification: reading error messages

A reader that takes an error message of the parser apart, written from the form `file:line:col (offset): text` only.
-/
namespace Verif.Spec
open Verif

/-- The terminals of the grammar as they are written in messages. -/
def vocabulary : List Str :=
  [ "\"//\"", "\"\\n\"", "\"(\"", "\")\"", "\"|\"", "\"=>\"", "\"&&\"", "\"@\"", "\":\"", "\"...\"", "\"___\"", "\"_\"", "\",\"",
    "\"<\"", "\">\"", "\"[\"", "\"]\"", "\"{\"", "\"}\"",
    "[^\\n]", "[ \\t\\r\\n]", "[ \\t\\r]", "[_a-zA-Z0-9]", "[a-z]", "[^>]", "[^]]", "[^}]", "." ].map String.toList

/-- The text before and after the first occurrence of `sep`. -/
def cut (sep : Str) : Str → Option (Str × Str)
  | [] => if sep = [] then some ([], []) else none
  | c :: l => if sep.isPrefixOf (c :: l) then some ([], (c :: l).drop sep.length) else (cut sep l).map fun p => (c :: p.1, p.2)

/-- The text after a fixed beginning. -/
def after (beginning text : Str) : Option Str := if beginning.isPrefixOf text then some (text.drop beginning.length) else none

/-- A number in decimal. -/
def readNumber (d : Str) : Option Nat := if d ≠ [] ∧ d.all Char.isDigit then some (decimal d) else none

/-- Reads `filename:line:col (offset): text` (without the file name and its colon if there is none). -/
def readMessage (filename message : Str) : Option (Position × Str) := do
  let rest ← after (if filename = [] then [] else filename ++ [':']) message
  let (line, rest) ← cut ":".toList rest
  let (col, rest) ← cut " (".toList rest
  let (offset, rest) ← cut "): ".toList rest
  return (⟨← readNumber line, ← readNumber col, ← readNumber offset⟩, rest)

/-- The parts of a text between commas followed by a blank. -/
def commaItems : Str → List Str
  | ',' :: ' ' :: l => [] :: commaItems l
  | c :: l => match commaItems l with
    | x :: xs => (c :: x) :: xs
    | [] => [[c]]
  | [] => [[]]

/-- The parts of a text between words `or`. -/
def orItems : Str → List Str
  | ' ' :: 'o' :: 'r' :: ' ' :: l => [] :: orItems l
  | c :: l => match orItems l with
    | x :: xs => (c :: x) :: xs
    | [] => [[c]]
  | [] => [[]]

/-- Reads `no match found, expected: a, b or c`. -/
def readExpected (text : Str) : Option (List Str) := do
  let rest ← after "no match found, expected: ".toList text
  return (commaItems rest).flatMap orItems

/-- The rules a message can name, and how it names them. -/
def ruleWords : List (RuleName × Str) :=
  [ (.File, "File".toList), (.Rule, "Rule".toList), (.Value, "Value".toList), (.SExpr, "SExpr".toList), (.Operand, "Operand".toList),
    (.Expr, "Expr".toList), (.Call, "Call".toList) ]

/-- How a message names the rule in which the error has occurred: `rule R: `, or not at all. -/
inductive InRule : Option RuleName → Str → Prop where
  | nowhere : InRule none []
  | inside {r w} : (r, w) ∈ ruleWords → InRule (some r) ("rule ".toList ++ w ++ ": ".toList)

/-- The wording of a problem.  What the Go parser and the Go runtime say is not part of the model. -/
inductive Worded (T : Texts) : Problem → Str → Prop where
  | encoding : Worded T .invalidEncoding "invalid encoding".toList
  | go {t} : Worded T (.goError t) (T.goError t)
  | operand : Worded T .unknownOperand "unknown operand".toList
  | panicked : Worded T .panicked T.panic
  | noMatch {expected body} : readExpected body = some expected → Worded T (.noMatch expected) body

/-- The lines of a text. -/
def messageLines : Str → List Str
  | '\n' :: l => [] :: messageLines l
  | c :: l => match messageLines l with
    | x :: xs => (c :: x) :: xs
    | [] => [[c]]
  | [] => [[]]

end Verif.Spec

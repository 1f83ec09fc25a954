import Verif.Model.PegErr
import Verif.Spec.Syntax
import Verif.Spec.GoTree
/-!
# Specification of parse errors

The input is a list of symbols: characters and invalid bytes.  Index `k` is the `k`-th symbol, or the end of the input.
-/
namespace Verif.Spec
open Verif

/-- How many symbols of the list there are up to and including the last newline (0 if there is none). -/
def throughNewline (l : List Sym) : Nat := (l.reverse.dropWhile fun x => decide (x ≠ .ok '\n')).length

/-- Line, column and byte offset of index `k`.  A newline counts as belonging to the line it starts, at column 0; columns count symbols. -/
def place (data : List Sym) (k : Nat) : Position where
  line := 1 + (data.take (k + 1)).count (.ok '\n')
  col := k + 1 - throughNewline (data.take (k + 1))
  offset := ((data.take k).map Sym.width).sum

/-- `raw` stands in the input at index `k`. -/
def StandsAt (data : List Sym) (k : Nat) (raw : Str) : Prop := ∃ post, (data.map Sym.rune).drop k = raw ++ post

/-- The text `t` that is no Go expression, as it stands at index `k`: between brackets or braces (in an operand), as a call, or as a condition (in a rule), where
newlines have been replaced by blanks and white space at the ends is not part of it. -/
inductive BadGo (lib : GoLib) (data : List Sym) (k : Nat) (t : Str) : RuleName → Prop where
  | auxInt : StandsAt data k ('[' :: t ++ [']']) → (¬ ∃ e, GoText lib t e) → BadGo lib data k t .Operand
  | aux : StandsAt data k ('{' :: t ++ ['}']) → (¬ ∃ e, GoText lib t e) → BadGo lib data k t .Operand
  | call : StandsAt data k t → (¬ ∃ e, GoText lib t e) → BadGo lib data k t .Call
  | condition {raw} : StandsAt data k raw → Trimmed (raw.map fun d => if d = '\n' then ' ' else d) t → (¬ ∃ e, GoText lib t e) → BadGo lib data k t .Rule

/-- Characters as they are written inside quotes or brackets. -/
def unescape : Str → Str
  | '\\' :: 'n' :: l => '\n' :: unescape l
  | '\\' :: 't' :: l => '\t' :: unescape l
  | '\\' :: 'r' :: l => '\r' :: unescape l
  | c :: l => c :: unescape l
  | [] => []

/-- The characters listed in a class: single characters and ranges `a-z`. -/
def classHas : Str → Char → Bool
  | a :: '-' :: b :: l, c => (a ≤ c && c ≤ b) || classHas l c
  | a :: l, c => a == c || classHas l c
  | [], _ => false

/-- The text begins with the terminal written as `want`: `"…"` is a literal, `[…]` a character of a class, `[^…]` a character outside of it, and `.` any character. -/
def follows : (want text : Str) → Bool
  | '"' :: l, text => (unescape l.dropLast).isPrefixOf text
  | '[' :: '^' :: l, c :: _ => !classHas (unescape l.dropLast) c
  | '[' :: l, c :: _ => classHas (unescape l.dropLast) c
  | '.' :: _, _ :: _ => true
  | _, _ => false

/-- `want` is expected but not there: a terminal that does not follow, or `!` and a terminal that does; `EOF` where it is not the end. -/
inductive Missing (text : Str) : Str → Prop where
  | absent {c want} : c ∈ ['"', '[', '.'] → follows (c :: want) text = false → Missing text (c :: want)
  | present {want} : follows want text = true → Missing text ('!' :: want)
  | eof : text ≠ [] → Missing text "EOF".toList

/-- What an error message says is so. -/
inductive Truthful (lib : GoLib) (data : List Sym) : PError → Prop where
  /-- there is an invalid byte at that position -/
  | encoding {k b rule} : data[k]? = some (.bad b) → Truthful lib data ⟨.invalidEncoding, place data k, rule⟩
  /-- at that position there is a text where a Go expression is expected, and it is none -/
  | go {k t rule} : BadGo lib data k t rule → Truthful lib data ⟨.goError t, place data k, some rule⟩
  /-- follow-up errors: only the position is of interest -/
  | operand {k} : k ≤ data.length → Truthful lib data ⟨.unknownOperand, place data k, some .SExpr⟩
  | panicked {k rule} : k ≤ data.length → Truthful lib data ⟨.panicked, place data k, some rule⟩
  /-- nothing that is said to be expected is there, and something is expected -/
  | noMatch {k expected} : k ≤ data.length → expected ≠ [] → (∀ want ∈ expected, Missing ((data.drop k).map Sym.rune) want) → Truthful lib data ⟨.noMatch expected, place data k, none⟩

/-- `range` over a map visits each key once, in some order. -/
def Reorders (order : List Str → List Str) : Prop := ∀ l, (order l).Perm l

end Verif.Spec

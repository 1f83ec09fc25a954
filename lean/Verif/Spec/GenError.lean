import Verif.Spec.Ssa
import Verif.Spec.Print
import Verif.Spec.Decimal
/-!
# Why a rule has no SMT script

The obstacles a rule can present to a translation at one sort, where they are, and how a message says it.
-/
namespace Verif.Spec.Ssa

open Verif Verif.Spec.Smt

/-- What is wrong with a value, apart from its arguments. -/
inductive Cause where
  | binding | typeField | auxInt | aux | ellipsis | trailing
  /-- the opcode has several parts -/
  | unexpanded
  /-- no opcode that is supported -/
  | opcode (o : Str)
  /-- the opcode does not belong to the sort -/
  | sort (o : Str) (wanted : Srt)
  /-- the number of arguments is not that of the opcode -/
  | count (o : Str) (wanted got : Nat)
  /-- a Go expression -/
  | expression
  /-- no value at all -/
  | absent
  deriving DecidableEq, Repr

/-- `Wrong s v c`: at sort `s` the value `v` itself is wrong, and of the things that are wrong with it `c` comes first: binding, type, AuxInt, Aux, ellipsis,
trailing, the form of the opcode, its name, its sort, the number of arguments. -/
inductive Wrong (s : Srt) : Value → Cause → Prop where
  | binding {h args} : h.binding ≠ [] → Wrong s (.sexpr h args) .binding
  | typeField {h args} : h.binding = [] → h.type ≠ [] → Wrong s (.sexpr h args) .typeField
  | auxInt {h args} : h.binding = [] → h.type = [] → h.auxInt ≠ none → Wrong s (.sexpr h args) .auxInt
  | aux {h args} : h.binding = [] → h.type = [] → h.auxInt = none → h.aux ≠ none → Wrong s (.sexpr h args) .aux
  | ellipsis {h args} : h.binding = [] → h.type = [] → h.auxInt = none → h.aux = none → h.ellipsis = true → Wrong s (.sexpr h args) .ellipsis
  | trailing {h args} : h.binding = [] → h.type = [] → h.auxInt = none → h.aux = none → h.ellipsis = false → h.trailing = true →
      Wrong s (.sexpr h args) .trailing
  | unexpanded {h args} : bareHdr h → (∀ o, h.op ≠ .opcode o) → Wrong s (.sexpr h args) .unexpanded
  | opcode {h args o} : bareHdr h → h.op = .opcode o → meaning o = none → Wrong s (.sexpr h args) (.opcode o)
  | sort {h args o m} : bareHdr h → h.op = .opcode o → meaning o = some m → m.sort ≠ s → Wrong s (.sexpr h args) (.sort o s)
  | count {h args o m} : bareHdr h → h.op = .opcode o → meaning o = some m → m.sort = s → m.arity ≠ args.length →
      Wrong s (.sexpr h args) (.count o m.arity args.length)
  | expression {e} : Wrong s (.expr e) .expression
  | absent : Wrong s .nil .absent

/-- `Trouble s v p c`: the first thing that is wrong in `v` at sort `s`, reading from the left and from the outside in, is `c`; the path `p` leads to it:
at each step the opcode and the index of the argument to follow. -/
inductive Trouble (s : Srt) : Value → List (Str × Nat) → Cause → Prop where
  | here {v c} : Wrong s v c → Trouble s v [] c
  | inside {h o m before v after p c} : bareHdr h → h.op = .opcode o → meaning o = some m → m.sort = s →
      m.arity = (before ++ v :: after).length → Fragments s before → Trouble s v p c →
      Trouble s (.sexpr h (before ++ v :: after)) ((o, before.length) :: p) c

/-- Follow a path down the arguments, checking the opcodes. -/
def argAt : Value → List (Str × Nat) → Option Value
  | v, [] => some v
  | .sexpr h args, (o, i) :: p => if h.op = .opcode o then args[i]?.bind fun a => argAt a p else none
  | _, _ :: _ => none

/-- The Go type of a sort (signed). -/
def sortName : Srt → Str
  | .bool => "bool".toList
  | .bv n => "int".toList ++ numeral n

def Cause.say : Cause → Str
  | .binding => "not supported: sexpr binding".toList
  | .typeField => "not supported: sexpr type field".toList
  | .auxInt => "not supported: sexpr auxint field".toList
  | .aux => "not supported: sexpr aux field".toList
  | .ellipsis => "not supported: sexpr ellipsis".toList
  | .trailing => "not supported: sexpr trailing".toList
  | .unexpanded => "unexpanded opcode".toList
  | .opcode o => "not supported: opcode ".toList ++ o
  | .sort o s => o ++ ": invalid return type ".toList ++ sortName s
  | .count o m n => o ++ ": expect ".toList ++ numeral m ++ " arguments got ".toList ++ numeral n
  | .expression => "assertion failure: unexpected type *ast.Expr".toList
  | .absent => "assertion failure: unexpected type <nil>".toList

def say : List (Str × Nat) → Cause → Str
  | [], c => c.say
  | (o, i) :: p, c => o ++ ": evaluate argument ".toList ++ numeral i ++ ": ".toList ++ say p c

/-- The sort of a rule is that of the opcode of its match, if it has one. -/
def SortOfMatch (r : Rule) (s : Srt) : Prop :=
  ∀ h args o m, r.match = .sexpr h args → h.op = .opcode o → meaning o = some m → m.sort = s

/-- Why a rule has no script, with the message: it cannot be printed; or the match is a single variable; or there is trouble in the match; or there is a condition; or a
block; or there is trouble in the result.  The first of these counts. -/
inductive NoScript (r : Rule) : Str → Prop where
  | unprintable {ty rest} : badRule r = ty :: rest → NoScript r ("assertion failure: unexpected type ".toList ++ ty)
  | bareVariable {x} : badRule r = [] → r.match = .var x → NoScript r ("declare ".toList ++ x ++ ": cannot deduce type".toList)
  | inMatch {s p c} : badRule r = [] → SortOfMatch r s → Trouble s r.match p c → NoScript r (say p c)
  | condition {s h args} : badRule r = [] → r.match = .sexpr h args → Fragment s r.match → r.condition ≠ none →
      NoScript r "not supported: rule conditions".toList
  | block {s h args} : badRule r = [] → r.match = .sexpr h args → Fragment s r.match → r.condition = none → r.block ≠ [] →
      NoScript r "not supported: rule blocks".toList
  | inResult {s h args p c} : badRule r = [] → r.match = .sexpr h args → Fragment s r.match → r.condition = none → r.block = [] →
      Trouble s r.result p c → NoScript r (say p c)

end Verif.Spec.Ssa

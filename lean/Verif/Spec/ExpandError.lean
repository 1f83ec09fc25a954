import Verif.Spec.Expand
import Verif.Spec.Decimal
/-!
# Why alternatives cannot be expanded

The first fault of an opcode, value, rule or file, and what the call reports.
-/
namespace Verif.Spec

open Verif

/-- How a call ends that does not succeed: with an error of this text, or with a panic. -/
inductive Fault where
  | text (msg : Str)
  | crash

/-- How a call ended, if it did not succeed. -/
def faultOf {α : Type} : Res α → Option Fault
  | .ok _ => none
  | .err e => some (.text e.text)
  | .panic => some .crash

def Fault.nil : Fault := .text "assertion failure: unexpected type <nil>".toList
def Fault.counts (m n : Nat) : Fault := .text ("incompatible alternative counts ".toList ++ numeral m ++ " and ".toList ++ numeral n)

/-- Sizes without 0 among which all that are greater than 1 are the same. -/
def SizesFine (l : List Nat) : Prop := 0 ∉ l ∧ ∀ a ∈ l, ∀ b ∈ l, 1 < a → 1 < b → a = b

/-- The fault of an opcode: it is nil; it has no parts; an alternation is empty, or differs in size from an earlier one, whichever comes first; all
alternations have one entry (or there are none); a part is nil; there is an alternation with one entry beside a longer one. -/
inductive OpFault : Op → Fault → Prop where
  | nil : OpFault .nil Fault.nil
  | noParts : OpFault (.parts []) (.text "assertion failure: empty opcode parts".toList)
  | empty {ps l l'} : opSizes (.parts ps) = l ++ 0 :: l' → SizesFine l → OpFault (.parts ps) (.text "assertion failure: expect positive counts".toList)
  | clash {ps l l' m n} : opSizes (.parts ps) = l ++ n :: l' → SizesFine l → m ∈ l → 1 < m → 1 < n → m ≠ n → OpFault (.parts ps) (Fault.counts m n)
  | single {ps} : ps ≠ [] → (∀ n ∈ opSizes (.parts ps), n = 1) →
      OpFault (.parts ps) (.text "assertion failure: multi-part opcode should represent multiple alternatives".toList)
  | nilPart {ps m} : SizesFine (opSizes (.parts ps)) → m ∈ opSizes (.parts ps) → 1 < m → .nil ∈ ps → OpFault (.parts ps) Fault.nil
  | mixed {ps m} : SizesFine (opSizes (.parts ps)) → m ∈ opSizes (.parts ps) → 1 < m → .nil ∉ ps → 1 ∈ opSizes (.parts ps) → OpFault (.parts ps) .crash

/-- Meaningful values all of whose alternations have one size. -/
def Uniform (vs : List Value) : Prop := (∀ v ∈ vs, Meaningful v) ∧ Agree (vs.flatMap sizes)

/-- The fault of a value: it is nil; its opcode has one; or the opcode and some arguments are in order and the next argument has a fault, or is in order but its
alternations have another size. -/
inductive ValueFault : Value → Fault → Prop where
  | nil : ValueFault .nil Fault.nil
  | op {h args e} : OpFault h.op e → ValueFault (.sexpr h args) e
  | inside {h before a after e} : Uniform (.sexpr h [] :: before) → ValueFault a e → ValueFault (.sexpr h (before ++ a :: after)) e
  | clash {h before a after m n} : Uniform (.sexpr h [] :: before) → Uniform [a] → m ∈ (Value.sexpr h [] :: before).flatMap sizes → n ∈ sizes a → m ≠ n →
      ValueFault (.sexpr h (before ++ a :: after)) (Fault.counts m n)

/-- The fault of a rule: that of the match, else that of the result, else the match and the result have alternations of different sizes. -/
inductive RuleFault (r : Rule) : Fault → Prop where
  | inMatch {e} : ValueFault r.match e → RuleFault r e
  | inResult {e} : Uniform [r.match] → ValueFault r.result e → RuleFault r e
  | clash {m n} : Uniform [r.match] → Uniform [r.result] → m ∈ sizes r.match → n ∈ sizes r.result → m ≠ n → RuleFault r (Fault.counts m n)

/-- The fault of a file: that of the first rule that has one. -/
def FileFault (f : File) (e : Fault) : Prop :=
  ∃ before r after, f.rules = before ++ r :: after ∧ (∀ q ∈ before, Uniform [q.match, q.result]) ∧ RuleFault r e

end Verif.Spec

import Verif.Spec.Smt
/-!
# Meaning of SSA rules

The value denoted by an SSA expression over machine integers and Booleans, following the comments of the Go
compiler's generic opcode table (quoted in smt2/ops.go:83-106, 212ff).
-/
namespace Verif.Spec.Ssa

open Verif Verif.Spec.Smt

/-- Meaning of an opcode: a function on `w`-bit two's complement integers, or on Booleans. -/
inductive Meaning where
  | un (w : Nat) (f : BitVec w → BitVec w)
  | bin (w : Nat) (f : BitVec w → BitVec w → BitVec w)
  | unB (f : Bool → Bool)
  | binB (f : Bool → Bool → Bool)

/-- The supported opcodes. -/
def table : List (String × Meaning) := [
  ("Add8", .bin 8 fun x y => x + y), ("Add16", .bin 16 fun x y => x + y),
  ("Add32", .bin 32 fun x y => x + y), ("Add64", .bin 64 fun x y => x + y),
  ("Sub8", .bin 8 fun x y => x - y), ("Sub16", .bin 16 fun x y => x - y),
  ("Sub32", .bin 32 fun x y => x - y), ("Sub64", .bin 64 fun x y => x - y),
  ("And8", .bin 8 fun x y => x &&& y), ("And16", .bin 16 fun x y => x &&& y),
  ("And32", .bin 32 fun x y => x &&& y), ("And64", .bin 64 fun x y => x &&& y),
  ("Or8", .bin 8 fun x y => x ||| y), ("Or16", .bin 16 fun x y => x ||| y),
  ("Or32", .bin 32 fun x y => x ||| y), ("Or64", .bin 64 fun x y => x ||| y),
  ("Xor8", .bin 8 fun x y => x ^^^ y), ("Xor16", .bin 16 fun x y => x ^^^ y),
  ("Xor32", .bin 32 fun x y => x ^^^ y), ("Xor64", .bin 64 fun x y => x ^^^ y),
  ("Neg8", .un 8 fun x => -x), ("Neg16", .un 16 fun x => -x), ("Neg32", .un 32 fun x => -x), ("Neg64", .un 64 fun x => -x),
  ("Com8", .un 8 fun x => ~~~x), ("Com16", .un 16 fun x => ~~~x), ("Com32", .un 32 fun x => ~~~x), ("Com64", .un 64 fun x => ~~~x),
  ("AndB", .binB fun a b => a && b), ("OrB", .binB fun a b => a || b),
  ("EqB", .binB fun a b => a == b), ("NeqB", .binB fun a b => a != b), ("Not", .unB fun a => !a)]

def meaning (opcode : Str) : Option Meaning := (table.find? fun e => e.1.toList == opcode).map (·.2)

/-- Sort of the operands and of the result (they are the same for every supported opcode). -/
def Meaning.sort : Meaning → Srt
  | .un w _ => .bv w
  | .bin w _ => .bv w
  | .unB _ => .bool
  | .binB _ => .bool

def Meaning.arity : Meaning → Nat
  | .un .. => 1
  | .bin .. => 2
  | .unB _ => 1
  | .binB _ => 2

/-- Apply to machine values of the right number and sort. -/
def Meaning.apply : Meaning → List Val → Option Val
  | .un w f, [.bits w1 x] => if h : w1 = w then some (.bits w (f (h ▸ x))) else none
  | .bin w f, [.bits w1 x, .bits w2 y] =>
    if h1 : w1 = w then if h2 : w2 = w then some (.bits w (f (h1 ▸ x) (h2 ▸ y))) else none else none
  | .unB f, [.bool a] => some (.bool (f a))
  | .binB f, [.bool a, .bool b] => some (.bool (f a b))
  | _, _ => none

mutual
/-- Value of an SSA expression for given values of its variables. -/
def eval (env : Str → Val) : Value → Option Val
  | .var x => some (env x)
  | .sexpr h args =>
    match h.op with
    | .opcode o => (meaning o).bind fun m => (evals env args).bind m.apply
    | _ => none
  | _ => none
def evals (env : Str → Val) : List Value → Option (List Val)
  | [] => some []
  | v :: vs => (eval env v).bind fun x => (evals env vs).map (x :: ·)
end

/-- A rewrite is valid: whenever the variables have values for which both sides have a value of one sort, the two values are equal. -/
def Valid (r : Rule) : Prop :=
  ∀ env a b, eval env r.match = some a → eval env r.result = some b → a.sort = b.sort → a = b

mutual
/-- Variables in order of occurrence, with repetitions. -/
def vars : Value → List Str
  | .var x => [x]
  | .sexpr _ args => varss args
  | _ => []
def varss : List Value → List Str
  | [] => []
  | v :: vs => vars v ++ varss vs
end

def ruleVars (r : Rule) : List Str := vars r.match ++ vars r.result

/-- The different entries of a list, in the order of their first occurrences. -/
def firsts : List Str → List Str
  | [] => []
  | x :: xs => x :: (firsts xs).filter (· ≠ x)

/-- The header of an S-expression carries nothing but an opcode. -/
def bareHdr (h : Hdr) : Prop :=
  h.binding = [] ∧ h.type = [] ∧ h.auxInt = none ∧ h.aux = none ∧ h.ellipsis = false ∧ h.trailing = false

mutual
/-- The supported fragment at one sort: variables, and supported opcodes of that sort applied to the right number of arguments. -/
inductive Fragment (s : Srt) : Value → Prop where
  | var (x : Str) : Fragment s (.var x)
  | sexpr {h : Hdr} {o : Str} {m : Meaning} {args : List Value} :
      bareHdr h → h.op = .opcode o → meaning o = some m → m.sort = s → m.arity = args.length → Fragments s args →
      Fragment s (.sexpr h args)
inductive Fragments (s : Srt) : List Value → Prop where
  | nil : Fragments s []
  | cons {v : Value} {vs : List Value} : Fragment s v → Fragments s vs → Fragments s (v :: vs)
end

/-- A rule of the supported fragment: no condition, no block, the match is an S-expression, and everything has one sort. -/
def RuleFragment (s : Srt) (r : Rule) : Prop :=
  r.condition = none ∧ r.block = [] ∧ (∃ h args, r.match = .sexpr h args) ∧ Fragment s r.match ∧ Fragment s r.result

end Verif.Spec.Ssa

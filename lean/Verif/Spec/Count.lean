import Verif.Model.Peg
/-!
# Specification of C59: the evaluations a parsing expression grammar prescribes, and the last line of a file
-/
namespace Verif.Spec
open Verif

/-- What is evaluated: an expression, or (not counted as an evaluation itself) the alternatives of a choice, the elements of a sequence, the repetitions of an expression. -/
inductive Job where
  | e (p : PExpr)
  | alt (ps : List PExpr)
  | seq (ps : List PExpr)
  | loop (p : PExpr)

/-- The character matches the class. -/
def clsHas (chars : List Char) (ranges : List (Char × Char)) (inv : Bool) (c : Char) : Bool := inClass chars ranges c != inv

/-- What is left of `l` after the literal `v`. -/
def litRest : List Char → List Char → Option (List Char)
  | [], l => some l
  | _ :: _, [] => none
  | a :: v, c :: l => if c = a then litRest v l else none

/-- `Ev rules j l r k`: on the text `l` the job `j` succeeds and leaves a rest (`r = some rest`) or fails (`r = none`), after the evaluation of `k` expressions.  This is the
standard semantics of parsing expression grammars (as in Spec/PegSem.lean), with every expression that is evaluated counted once, also the alternatives that fail; values, labels and actions are left out. -/
inductive Ev (rules : RuleName → PExpr) : Job → List Char → Option (List Char) → Nat → Prop where
  | any_ok {c l} : Ev rules (.e .any) (c :: l) (some l) 1
  | any_end : Ev rules (.e .any) [] none 1
  | cls_ok {cs rs i c l} : clsHas cs rs i c = true → Ev rules (.e (.cls cs rs i)) (c :: l) (some l) 1
  | cls_bad {cs rs i c l} : clsHas cs rs i c = false → Ev rules (.e (.cls cs rs i)) (c :: l) none 1
  | cls_end {cs rs i} : Ev rules (.e (.cls cs rs i)) [] none 1
  | lit {v l} : Ev rules (.e (.lit v)) l (litRest v l) 1
  | action {a p l r k} : Ev rules (.e p) l r k → Ev rules (.e (.action a p)) l r (k + 1)
  | labeled {a p l r k} : Ev rules (.e p) l r k → Ev rules (.e (.labeled a p)) l r (k + 1)
  | ruleRef {x l r k} : Ev rules (.e (rules x)) l r k → Ev rules (.e (.ruleRef x)) l r (k + 1)
  | not_ok {p l k} : Ev rules (.e p) l none k → Ev rules (.e (.not p)) l (some l) (k + 1)
  | not_bad {p l l' k} : Ev rules (.e p) l (some l') k → Ev rules (.e (.not p)) l none (k + 1)
  | opt_some {p l l' k} : Ev rules (.e p) l (some l') k → Ev rules (.e (.zeroOrOne p)) l (some l') (k + 1)
  | opt_none {p l k} : Ev rules (.e p) l none k → Ev rules (.e (.zeroOrOne p)) l (some l) (k + 1)
  | choice {ps l r k} : Ev rules (.alt ps) l r k → Ev rules (.e (.choice ps)) l r (k + 1)
  | seq {ps l r k} : Ev rules (.seq ps) l r k → Ev rules (.e (.seq ps)) l r (k + 1)
  | star {p l l' k} : Ev rules (.loop p) l (some l') k → Ev rules (.e (.zeroOrMore p)) l (some l') (k + 1)
  | plus_ok {p l l' l'' k k'} : Ev rules (.e p) l (some l') k → Ev rules (.loop p) l' (some l'') k' → Ev rules (.e (.oneOrMore p)) l (some l'') (k + k' + 1)
  | plus_bad {p l k} : Ev rules (.e p) l none k → Ev rules (.e (.oneOrMore p)) l none (k + 1)
  | alt_nil {l} : Ev rules (.alt []) l none 0
  | alt_ok {p ps l l' k} : Ev rules (.e p) l (some l') k → Ev rules (.alt (p :: ps)) l (some l') k
  | alt_next {p ps l r k k'} : Ev rules (.e p) l none k → Ev rules (.alt ps) l r k' → Ev rules (.alt (p :: ps)) l r (k + k')
  | seq_nil {l} : Ev rules (.seq []) l (some l) 0
  | seq_ok {p ps l l' r k k'} : Ev rules (.e p) l (some l') k → Ev rules (.seq ps) l' r k' → Ev rules (.seq (p :: ps)) l r (k + k')
  | seq_bad {p ps l k} : Ev rules (.e p) l none k → Ev rules (.seq (p :: ps)) l none k
  | loop_more {p l l' r k k'} : Ev rules (.e p) l (some l') k → Ev rules (.loop p) l' r k' → Ev rules (.loop p) l r (k + k')
  | loop_end {p l k} : Ev rules (.e p) l none k → Ev rules (.loop p) l (some l) k

/-- The bytes after the last line feed; empty for a file that ends with one. -/
def lastLine (bs : List UInt8) : List UInt8 := (bs.reverse.takeWhile (· ≠ 10)).reverse

example : lastLine [97, 10, 98, 99] = [98, 99] := by decide
example : lastLine [97, 10] = [] := by decide

end Verif.Spec

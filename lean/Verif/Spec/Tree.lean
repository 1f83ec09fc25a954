import Verif.Model.Walk
/-!
# Specification: the tree structure of an AST

What the children of a node are, in order, and derived notions.  Nothing here refers to the model of `Walk` (only the type of callbacks is used).
-/
namespace Verif.Spec

open Verif

/-- Children of a node in source order: a file's rules; a rule's match and result (not its condition); an S-expression's
opcode and arguments (not its type, AuxInt and Aux); the parts of a multi-part opcode. -/
def children : Node → List Node
  | .file f => f.rules.map Node.rule
  | .rule r => [r.match.toNode, r.result.toNode]
  | .sexpr h args => h.op.toNode :: args.map Value.toNode
  | .parts ps => ps.map OpPart.toNode
  | _ => []

/-- The nil interface. -/
def isNil : Node → Bool
  | .nil => true
  | _ => false

/-- `Desc n m`: `m` occurs in the tree rooted at `n` (possibly `m = n`). -/
inductive Desc : Node → Node → Prop
  | self (n) : Desc n n
  | child {n c m} : c ∈ children n → Desc c m → Desc n m

/-- A tree has no nil node. -/
def NoNil (n : Node) : Prop := ¬ Desc n .nil

mutual
/-- `PreOrder ans hist n tr`: starting after the nodes in `hist` have been presented, presenting the tree rooted at `n`
depth first presents exactly the nodes `tr`, in this order, where `ans hist m` says, given all nodes
presented before, whether the listener wants to see the children of `m`. -/
inductive PreOrder (ans : List Node → Node → Bool) : List Node → Node → List Node → Prop
  | prune {hist n} : ans hist n = false → PreOrder ans hist n [n]
  | descend {hist n tr} : ans hist n = true → n ≠ .nil →
      PreOrders ans (hist ++ [n]) (children n) tr → PreOrder ans hist n (n :: tr)
/-- The same for a list of subtrees, left to right. -/
inductive PreOrders (ans : List Node → Node → Bool) : List Node → List Node → List Node → Prop
  | nil {hist} : PreOrders ans hist [] []
  | cons {hist n ns tr trs} : PreOrder ans hist n tr → PreOrders ans (hist ++ tr) ns trs →
      PreOrders ans hist (n :: ns) (tr ++ trs)
end

mutual
/-- All nodes of the tree of a value, in depth-first pre-order. -/
def flatValue : Value → List Node
  | .sexpr h args => .sexpr h args :: (flatOp h.op ++ flatValues args)
  | .nil => [.nil]
  | .expr e => [.expr e]
  | .var v => [.var v]
def flatValues : List Value → List Node
  | [] => []
  | v :: vs => flatValue v ++ flatValues vs
/-- … of an opcode. -/
def flatOp : Op → List Node
  | .parts ps => .parts ps :: ps.map OpPart.toNode
  | o => [o.toNode]
end

/-- All nodes of a tree, in depth-first pre-order. -/
def flat : Node → List Node
  | .file f => .file f :: f.rules.flatMap fun r => .rule r :: (flatValue r.match ++ flatValue r.result)
  | .rule r => .rule r :: (flatValue r.match ++ flatValue r.result)
  | .sexpr h args => flatValue (.sexpr h args)
  | .parts ps => flatOp (.parts ps)
  | n => [n]

/-- `SubValue v w`: the value `w` occurs in `v` as `v` itself or as an argument at any depth. -/
inductive SubValue : Value → Value → Prop
  | self (v) : SubValue v v
  | arg {h args a w} : a ∈ args → SubValue a w → SubValue (.sexpr h args) w

/-- Some S-expression at any depth in the match or the result of the rule has a header satisfying `p`. -/
def RuleHas (p : Hdr → Prop) (r : Rule) : Prop :=
  ∃ h args, p h ∧ (SubValue r.match (.sexpr h args) ∨ SubValue r.result (.sexpr h args))

/-- A callback for `Inspect` that records the nodes it is given, in order, and whose answer may depend on all nodes
it was given before (every deterministic callback is of this kind: its own state is a function of the calls it has seen). -/
def logging (ans : List Node → Node → Bool) : Callback (List Node) :=
  fun n hist => (hist ++ [n], ans hist n)

/-- A predicate for `Contains` that records its calls. -/
def recPred (p : Node → Bool) : Callback (List Node) := fun n log => (log ++ [n], p n)

/-- The prefix of a list up to and including the first element satisfying `p` (the whole list if there is none). -/
def upTo (p : Node → Bool) : List Node → List Node
  | [] => []
  | n :: ns => n :: (if p n then [] else upTo p ns)

end Verif.Spec

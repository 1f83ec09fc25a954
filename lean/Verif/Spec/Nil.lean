import Verif.Model.Nil
/-!
# Specification: ASTs with nil pointers

Where the nil pointers of an AST are, and what it is to put something in their places.
-/
namespace Verif.Spec

open Verif

/-- Children of a node, in order.  A nil pointer has none. -/
def nchildren : NNode → List NNode
  | .file f => f.rules.map ruleNode
  | .rule r => [r.match.toNNode, r.result.toNNode]
  | .sexpr h args => h.op.toNNode :: args.map NValue.toNNode
  | .parts ps => ps.map OpPart.toNNode
  | _ => []

/-- A nil pointer inside a `Node` interface. -/
def isNilPtr : NNode → Bool
  | .fileNil | .ruleNil | .sexprNil | .exprNil => true
  | _ => false

/-- Where `Walk` cannot go on if the visitor wants it to: the nil interface, and nil pointers to nodes that have children. -/
def dead : NNode → Bool
  | .nil | .fileNil | .ruleNil | .sexprNil => true
  | _ => false

/-- `NDesc n m`: `m` occurs in the tree rooted at `n` (possibly `m = n`). -/
inductive NDesc : NNode → NNode → Prop
  | self (n) : NDesc n n
  | child {n c m} : c ∈ nchildren n → NDesc c m → NDesc n m

/-- Somewhere in the tree there is a nil pointer. -/
def HasNilPtr (n : NNode) : Prop := ∃ m, NDesc n m ∧ isNilPtr m = true

mutual
/-- All nodes of the tree of a value, in depth-first pre-order. -/
def nflatValue : NValue → List NNode
  | .sexpr h args => .sexpr h args :: (nflatOp h.op ++ nflatValues args)
  | .sexprNil => [.sexprNil]
  | .exprNil => [.exprNil]
  | .nil => [.nil]
  | .expr e => [.expr e]
  | .var v => [.var v]
def nflatValues : List NValue → List NNode
  | [] => []
  | v :: vs => nflatValue v ++ nflatValues vs
/-- … of an opcode. -/
def nflatOp : Op → List NNode
  | .parts ps => .parts ps :: ps.map OpPart.toNNode
  | o => [o.toNNode]
end

/-- … of a rule. -/
def nflatRule : Option NRule → List NNode
  | none => [.ruleNil]
  | some r => .rule r :: (nflatValue r.match ++ nflatValue r.result)

/-- All nodes of a tree, in depth-first pre-order. -/
def nflat : NNode → List NNode
  | .file f => .file f :: f.rules.flatMap nflatRule
  | .rule r => nflatRule (some r)
  | .sexpr h args => nflatValue (.sexpr h args)
  | .parts ps => nflatOp (.parts ps)
  | n => [n]

/-- The prefix of a list up to and including the first element satisfying `p` (the whole list if there is none). -/
def through {α : Type} (p : α → Bool) : List α → List α
  | [] => []
  | a :: as => a :: (if p a then [] else through p as)

/-- What is put in place of nil pointers. -/
structure Stand where
  file : File
  rule : Rule
  sexpr : Value
  expr : GoExpr

mutual
/-- The value with every nil pointer replaced. -/
def fill (σ : Stand) : NValue → Value
  | .nil => .nil
  | .sexprNil => σ.sexpr
  | .sexpr h args => .sexpr h (fills σ args)
  | .exprNil => .expr σ.expr
  | .expr e => .expr e
  | .var x => .var x
def fills (σ : Stand) : List NValue → List Value
  | [] => []
  | v :: vs => fill σ v :: fills σ vs
end

def fillRule (σ : Stand) (r : NRule) : Rule :=
  { «match» := fill σ r.match, condition := r.condition, block := r.block, result := fill σ r.result }

def fillRulePtr (σ : Stand) : Option NRule → Rule
  | none => σ.rule
  | some r => fillRule σ r

def fillFile (σ : Stand) (f : NFile) : File := ⟨f.rules.map (fillRulePtr σ)⟩

def fillFilePtr (σ : Stand) : Option NFile → File
  | none => σ.file
  | some f => fillFile σ f

/-- The node with every nil pointer replaced. -/
def fillNode (σ : Stand) : NNode → Node
  | .nil => .nil
  | .fileNil => .file σ.file
  | .file f => .file (fillFile σ f)
  | .ruleNil => .rule σ.rule
  | .rule r => .rule (fillRule σ r)
  | .sexprNil => σ.sexpr.toNode
  | .sexpr h args => .sexpr h (fills σ args)
  | .opcode s => .opcode s
  | .parts ps => .parts ps
  | .alt cs => .alt cs
  | .exprNil => .expr σ.expr
  | .expr e => .expr e
  | .var x => .var x

end Verif.Spec

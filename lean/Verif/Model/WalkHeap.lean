import Verif.Model.Walk
import Verif.Model.ExpandHeap
/-!
# Model of ast/walk.go on a heap

`Model/Walk.lean` walks over trees, so its visitors cannot change what is walked over.  Here the nodes are pointers into a heap (the one of
`Model/ExpandHeap.lean`), the visitor may do with the heap what it likes, and `Walk` reads every field and every element of an array at the moment the
Go code does.

Simplifications: as in `Model/ExpandHeap.lean`, opcodes (with their parts) and `*ast.Expr` are values; a visitor cannot modify them in place, it can only
store others into an S-expression.
-/
namespace Verif

/-- `ast.Node` (ast/ast.go:10-12) with pointers. -/
inductive HNode where
  | nil
  | file (p : Addr)
  | rule (p : Addr)
  | sexpr (p : Addr)
  | opcode (s : Str)
  | parts (ps : List OpPart)
  | alt (cs : List Str)
  | expr (e : GoExpr)
  | var (name : Str)
  deriving Repr

/-- Conversion of an `ast.Value` interface to `ast.Node` (ast/walk.go:26, 27, 32). -/
def HVal.toHNode : HVal → HNode
  | .nil => .nil
  | .sexpr p => .sexpr p
  | .expr e => .expr e
  | .var x => .var x

/-- Conversion of an `ast.Op` interface to `ast.Node` (ast/walk.go:30). -/
def Op.toHNode : Op → HNode
  | .nil => .nil
  | .opcode s => .opcode s
  | .parts ps => .parts ps

/-- Conversion of an `ast.OpPart` interface to `ast.Node` (ast/walk.go:37). -/
def OpPart.toHNode : OpPart → HNode
  | .nil => .nil
  | .opcode s => .opcode s
  | .alt cs => .alt cs

/-- `ast.Visitor` (ast/walk.go:7-12), with a `Visit` method that may modify the heap and a state of its own. -/
structure HVisiting (V σ : Type) where
  visit : V → HNode → Heap × σ → (Heap × σ) × Option V

variable {V σ : Type}

/-- `for _, x := range xs { f(x) }` where `xs` is a slice of `n` elements, from index `i` on: element `i` is read from memory when its turn has come. (ast/walk.go:21-23, 31-33) -/
def rangeLoop (elem : Heap → Nat → Option HNode) (f : HNode → Heap × σ → Option (Out (Heap × σ))) : Nat → Nat → Heap × σ → Option (Out (Heap × σ))
  | 0, _, st => some (.done st)
  | n + 1, i, st =>
    match elem st.1 i with
    | none => none
    | some x =>
      match f x st with
      | some (.done st') => rangeLoop elem f n (i + 1) st'
      | r => r

/-- Element `i` of an `[]*ast.Rule` (ast/walk.go:21). -/
def ruleElem (arr : Addr) (h : Heap) (i : Nat) : Option HNode :=
  match h[arr]? with
  | some (.rules rs) => rs[i]?.map HNode.rule
  | _ => none

/-- Element `i` of an `[]ast.Value` (ast/walk.go:31). -/
def valueElem (arr : Addr) (h : Heap) (i : Nat) : Option HNode :=
  match h[arr]? with
  | some (.values vs) => vs[i]?.map HVal.toHNode
  | _ => none

/-- Length of a slice. (ast/walk.go:21, 31) -/
def sliceLen (arr : Addr) (h : Heap) : Option Nat :=
  match h[arr]? with
  | some (.rules rs) => some rs.length
  | some (.values vs) => some vs.length
  | _ => none

/-- `ast.Walk` (ast/walk.go:14-49).  The first argument bounds the depth of nested calls; `none`: not enough, or a dangling reference. -/
def hwalk (vis : HVisiting V σ) : Nat → V → HNode → Heap × σ → Option (Out (Heap × σ))
  | 0, _, _, _ => none
  | fuel + 1, v, n, st =>
    match vis.visit v n st with
    | (st1, none) => some (.done st1)
    | (st1, some w) =>
      match n with
      | .file p =>
        match st1.1[p]? with
        | some (.file arr) =>
          match sliceLen arr st1.1 with
          | some len => rangeLoop (ruleElem arr) (hwalk vis fuel w) len 0 st1
          | none => none
        | _ => none
      | .rule p =>
        match st1.1[p]? with
        | some (.rule m _ _ _) =>
          match hwalk vis fuel w m.toHNode st1 with
          | some (.done st2) =>
            match st2.1[p]? with
            | some (.rule _ _ _ res) => hwalk vis fuel w res.toHNode st2
            | _ => none
          | r => r
        | _ => none
      | .sexpr p =>
        match st1.1[p]? with
        | some (.sexpr hd _) =>
          match hwalk vis fuel w hd.op.toHNode st1 with
          | some (.done st2) =>
            match st2.1[p]? with
            | some (.sexpr _ arr) =>
              match sliceLen arr st2.1 with
              | some len => rangeLoop (valueElem arr) (hwalk vis fuel w) len 0 st2
              | none => none
            | _ => none
          | r => r
        | _ => none
      | .parts ps => rangeLoop (fun _ i => ps[i]?.map OpPart.toHNode) (hwalk vis fuel w) ps.length 0 st1
      | .nil => some (.panic st1)
      | _ => some (.done st1)

/-- The callback of `ast.Inspect` (ast/walk.go:54-56, 58-65) on the heap. -/
def hinspector (f : HNode → Heap × σ → (Heap × σ) × Bool) : HVisiting Unit σ where
  visit _ n st :=
    match f n st with
    | (st', true) => (st', some ())
    | (st', false) => (st', none)

/-- `ast.Inspect` (ast/walk.go:54-56) on the heap. -/
def hinspect (fuel : Nat) (n : HNode) (f : HNode → Heap × σ → (Heap × σ) × Bool) (st : Heap × σ) : Option (Out (Heap × σ)) :=
  hwalk (hinspector f) fuel () n st

end Verif

import Verif.Model.Ast
/-!
# Model of ast/walk.go and rules/rules.go
-/
namespace Verif

/-- Outcome of a Go call that works by side effects on a state `σ`: it returns, or it panics
(with the state at the moment of the panic). (the functions of ast/walk.go:14-65) -/
inductive Out (σ : Type) where
  | done (s : σ)
  | panic (s : σ)
  deriving Repr

/-- `for _, x := range xs { f(x) }` for a body with side effects that may panic. (ast/walk.go:21-23, 31-33, 36-38) -/
def forEach {α σ : Type} (f : α → σ → Out σ) : List α → σ → Out σ
  | [], s => .done s
  | x :: xs, s =>
    match f x s with
    | .done s' => forEach f xs s'
    | .panic s' => .panic s'

/-- `ast.Visitor` (ast/walk.go:7-12): a visitor of type `V`, whose `Visit` method may have side effects on `σ`
and returns the visitor for the children, or nil (`none`). -/
structure Visiting (V σ : Type) where
  visit : V → Node → σ → σ × Option V

variable {V σ : Type}

/-- `Walk` on a leaf: `case Op, OpcodeAlt` and `case *Expr, Variable` (ast/walk.go:40-44), or, for a nil
interface, `default: panic` (ast/walk.go:46-47). -/
def walkLeaf (vis : Visiting V σ) (v : V) (n : Node) (s : σ) : Out σ :=
  match vis.visit v n s with
  | (s', none) => .done s'
  | (s', some _) =>
    match n with
    | .nil => .panic s'
    | _ => .done s'

/-- `Walk` on an `ast.Op` (ast/walk.go:14-17, 35-41). -/
def walkOp (vis : Visiting V σ) (v : V) (o : Op) (s : σ) : Out σ :=
  match o with
  | .parts ps =>
    match vis.visit v (.parts ps) s with
    | (s', none) => .done s'
    | (s', some w) => forEach (fun p => walkLeaf vis w p.toNode) ps s'
  | o => walkLeaf vis v o.toNode s

mutual
/-- `Walk` on an `ast.Value` (ast/walk.go:14-17, 29-33, 43-47). -/
def walkValue (vis : Visiting V σ) (v : V) : Value → σ → Out σ
  | .sexpr h args, s =>
    match vis.visit v (.sexpr h args) s with
    | (s', none) => .done s'
    | (s', some w) =>
      match walkOp vis w h.op s' with
      | .done s'' => walkValues vis w args s''
      | .panic s'' => .panic s''
  | .nil, s => walkLeaf vis v .nil s
  | .expr e, s => walkLeaf vis v (.expr e) s
  | .var x, s => walkLeaf vis v (.var x) s
/-- The loop over `n.Args` (ast/walk.go:31-33). -/
def walkValues (vis : Visiting V σ) (v : V) : List Value → σ → Out σ
  | [], s => .done s
  | a :: as, s =>
    match walkValue vis v a s with
    | .done s' => walkValues vis v as s'
    | .panic s' => .panic s'
end

/-- `Walk` on a `*ast.Rule` (ast/walk.go:14-17, 25-27). -/
def walkRule (vis : Visiting V σ) (v : V) (r : Rule) (s : σ) : Out σ :=
  match vis.visit v (.rule r) s with
  | (s', none) => .done s'
  | (s', some w) =>
    match walkValue vis w r.match s' with
    | .done s'' => walkValue vis w r.result s''
    | .panic s'' => .panic s''

/-- `ast.Walk` (ast/walk.go:14-49). -/
def walk (vis : Visiting V σ) (v : V) (n : Node) (s : σ) : Out σ :=
  match n with
  | .file f =>
    match vis.visit v (.file f) s with
    | (s', none) => .done s'
    | (s', some w) => forEach (walkRule vis w) f.rules s'
  | .rule r => walkRule vis v r s
  | .sexpr h args => walkValue vis v (.sexpr h args) s
  | .parts ps => walkOp vis v (.parts ps) s
  | n => walkLeaf vis v n s

/-- The callback of `ast.Inspect`: `func(Node) bool`, with side effects on `σ`. (ast/walk.go:54) -/
abbrev Callback (σ : Type) := Node → σ → σ × Bool

/-- `type inspector func(Node) bool` and its `Visit` method (ast/walk.go:58-65): the visitor is the callback itself. -/
def inspector (f : Callback σ) : Visiting Unit σ where
  visit _ n s :=
    match f n s with
    | (s', true) => (s', some ())
    | (s', false) => (s', none)

/-- `ast.Inspect` (ast/walk.go:54-56). -/
def inspect (n : Node) (f : Callback σ) (s : σ) : Out σ := walk (inspector f) () n s

/-- The closure inside `ast.Contains` (ast/walk.go:71-74), with the captured variable `found` as state; the predicate
itself may have side effects on `σ`.  `found || predicate(n)` short-circuits. -/
def containsStep (pred : Callback σ) : Callback (Bool × σ) := fun n s =>
  match s with
  | (true, t) => ((true, t), false)
  | (false, t) =>
    match pred n t with
    | (t', b) => ((b, t'), !b)

/-- `ast.Contains` (ast/walk.go:69-76): the state at the end holds the answer `found`. -/
def containsRun (n : Node) (pred : Callback σ) (s : σ) : Out (Bool × σ) :=
  inspect n (containsStep pred) (false, s)

/-- `ast.Contains` with a predicate without side effects; a panic is `none`. (ast/walk.go:69-76) -/
def contains (n : Node) (pred : Node → Bool) : Option Bool :=
  match containsRun n (fun n (_ : Unit) => ((), pred n)) () with
  | .done (b, _) => some b
  | .panic _ => none

/-! ## rules/rules.go -/

/-- The predicate of `HasBinding` (rules/rules.go:6-9). -/
def nodeHasBinding : Node → Bool
  | .sexpr h _ => h.binding != []
  | _ => false
/-- The predicate of `HasType` (rules/rules.go:13-16). -/
def nodeHasType : Node → Bool
  | .sexpr h _ => h.type != []
  | _ => false
/-- The predicate of `HasAux` (rules/rules.go:20-23). -/
def nodeHasAux : Node → Bool
  | .sexpr h _ => h.aux.isSome
  | _ => false
/-- The predicate of `HasAuxInt` (rules/rules.go:27-30). -/
def nodeHasAuxInt : Node → Bool
  | .sexpr h _ => h.auxInt.isSome
  | _ => false
/-- The predicate of `HasEllipsis` (rules/rules.go:34-37). -/
def nodeHasEllipsis : Node → Bool
  | .sexpr h _ => h.ellipsis
  | _ => false
/-- The predicate of `HasTrailing` (rules/rules.go:41-44). -/
def nodeHasTrailing : Node → Bool
  | .sexpr h _ => h.trailing
  | _ => false

/-- rules/rules.go:5-10 (`none`: panic) -/
def hasBinding (r : Rule) : Option Bool := contains (.rule r) nodeHasBinding
/-- rules/rules.go:12-17 -/
def hasType (r : Rule) : Option Bool := contains (.rule r) nodeHasType
/-- rules/rules.go:19-24 -/
def hasAux (r : Rule) : Option Bool := contains (.rule r) nodeHasAux
/-- rules/rules.go:26-31 -/
def hasAuxInt (r : Rule) : Option Bool := contains (.rule r) nodeHasAuxInt
/-- rules/rules.go:33-38 -/
def hasEllipsis (r : Rule) : Option Bool := contains (.rule r) nodeHasEllipsis
/-- rules/rules.go:40-45 -/
def hasTrailing (r : Rule) : Option Bool := contains (.rule r) nodeHasTrailing

end Verif

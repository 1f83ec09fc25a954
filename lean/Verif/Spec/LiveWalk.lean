import Verif.Model.WalkHeap
import Verif.Spec.Heap
import Verif.Spec.Tree
/-!
# Specification: walking over an AST that is modified meanwhile

What it means that a visitor edits the node it is given, what a walk makes of a tree then, and the cells a tree consists of.
-/
namespace Verif.Spec

open Verif

mutual
/-- In the heap `h`, the interface value `hv` represents the tree `v`, and the cells in the list are those it consists of (each as often as it is used). -/
inductive OwnV (h : Heap) : HVal → Value → List Addr → Prop
  | nil : OwnV h .nil .nil []
  | expr (e) : OwnV h (.expr e) (.expr e) []
  | var (x) : OwnV h (.var x) (.var x) []
  | sexpr {p hd arr hvs vs L} : h[p]? = some (.sexpr hd arr) → h[arr]? = some (.values hvs) → OwnVs h hvs vs L →
      OwnV h (.sexpr p) (.sexpr hd vs) (p :: arr :: L)
/-- The same for lists. -/
inductive OwnVs (h : Heap) : List HVal → List Value → List Addr → Prop
  | nil : OwnVs h [] [] []
  | cons {a v as vs L M} : OwnV h a v L → OwnVs h as vs M → OwnVs h (a :: as) (v :: vs) (L ++ M)
end

/-- The same for a rule. -/
inductive OwnRule (h : Heap) : Addr → Rule → List Addr → Prop
  | mk {p r m res L M} : h[p]? = some (.rule m r.condition r.block res) → OwnV h m r.match L → OwnV h res r.result M → OwnRule h p r (p :: (L ++ M))

/-- The same for a list of rules. -/
inductive OwnRules (h : Heap) : List Addr → List Rule → List Addr → Prop
  | nil : OwnRules h [] [] []
  | cons {p r ps rs L M} : OwnRule h p r L → OwnRules h ps rs M → OwnRules h (p :: ps) (r :: rs) (L ++ M)

/-- The same for any node. -/
inductive OwnN (h : Heap) : HNode → Node → List Addr → Prop
  | nil : OwnN h .nil .nil []
  | expr (e) : OwnN h (.expr e) (.expr e) []
  | var (x) : OwnN h (.var x) (.var x) []
  | opcode (s) : OwnN h (.opcode s) (.opcode s) []
  | parts (ps) : OwnN h (.parts ps) (.parts ps) []
  | alt (cs) : OwnN h (.alt cs) (.alt cs) []
  | sexpr {p hd vs L} : OwnV h (.sexpr p) (.sexpr hd vs) L → OwnN h (.sexpr p) (.sexpr hd vs) L
  | rule {p r L} : OwnRule h p r L → OwnN h (.rule p) (.rule r) L
  | file {p arr ps f L} : h[p]? = some (.file arr) → h[arr]? = some (.rules ps) → OwnRules h ps f.rules L → OwnN h (.file p) (.file f) (p :: arr :: L)

/-- Between `h` and `h'` cells were allocated, but of the old cells only those in `L` may have been modified; those in `L'` are in `L` or new. -/
structure Within (h : Heap) (L : List Addr) (h' : Heap) (L' : List Addr) : Prop where
  grows : h.length ≤ h'.length
  rest : ∀ a, a < h.length → a ∉ L → h'[a]? = h[a]?
  cells : ∀ a ∈ L', a ∈ L ∨ h.length ≤ a

/-- What a visitor does, described on trees: the tree below a node is replaced by another one, and the visitor says with which visitor to go on, if at all. -/
abbrev Editor (V σ : Type) := V → Node → σ → Node × σ × Option V

variable {V σ : Type}

/-- Given a node that shares nothing with anything, the visitor modifies the node as the editor says, and nothing else: afterwards the same pointer
represents the new tree, which consists of cells of the old one and newly allocated ones, each used once; all other cells are as before. -/
def Edits (vis : HVisiting V σ) (ed : Editor V σ) : Prop :=
  ∀ v hn n L h s, OwnN h hn n L → L.Nodup →
    ∃ h' L', vis.visit v hn (h, s) = ((h', (ed v n s).2.1), (ed v n s).2.2) ∧ OwnN h' hn (ed v n s).1 L' ∧ L'.Nodup ∧ Within h L h' L'

/-- A child of a rule or an argument of an S-expression. -/
def asValue : Node → Value
  | .sexpr h args => .sexpr h args
  | .expr e => .expr e
  | .var x => .var x
  | _ => .nil

/-- A child of a file. -/
def asRule : Node → Option Rule
  | .rule r => some r
  | _ => none

/-- The first child of an S-expression. -/
def asOp : Node → Op
  | .opcode s => .opcode s
  | .parts ps => .parts ps
  | _ => .nil

/-- A child of a multi-part opcode. -/
def asPart : Node → OpPart
  | .opcode s => .opcode s
  | .alt cs => .alt cs
  | _ => .nil

/-- The node with other children (of the right kinds, as many as it has). -/
def withChildren : Node → List Node → Node
  | .file _, ns => .file ⟨ns.filterMap asRule⟩
  | .rule r, [m, res] => .rule { r with «match» := asValue m, result := asValue res }
  | .sexpr hd _, o :: args => .sexpr { hd with op := asOp o } (args.map asValue)
  | .parts _, ns => .parts (ns.map asPart)
  | n, _ => n

mutual
/-- `Live ed v n s panicked n' s'`: walking over the tree `n` depth first, editing each node when it is reached, then walking over the children *the edited
node* has, with the visitor the editor asked for, ends (by a panic at a nil, or not) with the tree `n'` and the state `s'`. -/
inductive Live (ed : Editor V σ) : V → Node → σ → Bool → Node → σ → Prop
  | stop {v n s n1 s1} : ed v n s = (n1, s1, none) → Live ed v n s false n1 s1
  | panic {v n s s1 w} : ed v n s = (.nil, s1, some w) → Live ed v n s true .nil s1
  | descend {v n s n1 s1 w b ns s2} : ed v n s = (n1, s1, some w) → n1 ≠ .nil → Lives ed w (children n1) s1 b ns s2 →
      Live ed v n s b (withChildren n1 ns) s2
/-- A list of trees, from left to right, up to the first panic. -/
inductive Lives (ed : Editor V σ) : V → List Node → σ → Bool → List Node → σ → Prop
  | nil {w s} : Lives ed w [] s false [] s
  | cons {w n ns s n' s1 b ns' s2} : Live ed w n s false n' s1 → Lives ed w ns s1 b ns' s2 → Lives ed w (n :: ns) s b (n' :: ns') s2
  | panic {w n ns s n' s1} : Live ed w n s true n' s1 → Lives ed w (n :: ns) s true (n' :: ns) s1
end

/-- How a walk ends. -/
def ending (panicked : Bool) (st : Heap × σ) : Out (Heap × σ) := if panicked then .panic st else .done st

/-- In the heap `h`, the node `hn` represents the tree `n`; parts may be shared. -/
inductive RepN (h : Heap) : HNode → Node → Prop
  | nil : RepN h .nil .nil
  | expr (e) : RepN h (.expr e) (.expr e)
  | var (x) : RepN h (.var x) (.var x)
  | opcode (s) : RepN h (.opcode s) (.opcode s)
  | parts (ps) : RepN h (.parts ps) (.parts ps)
  | alt (cs) : RepN h (.alt cs) (.alt cs)
  | sexpr {p hd vs} : RepV h (.sexpr p) (.sexpr hd vs) → RepN h (.sexpr p) (.sexpr hd vs)
  | rule {p r} : RepRule h p r → RepN h (.rule p) (.rule r)
  | file {p ps f} : RepFile h p ps f → RepN h (.file p) (.file f)

/-- In the heap `h` the visitor modifies nothing, and what it does depends on the trees it is given only, as `vis'` says. -/
def Reads (vis : HVisiting V σ) (vis' : Visiting V σ) (h : Heap) : Prop :=
  ∀ v hn n s, RepN h hn n → vis.visit v hn (h, s) = ((h, (vis'.visit v n s).1), (vis'.visit v n s).2)

/-! A visitor as one would write it: it changes the fields of every S-expression with `f`, and renames variables with `ρ` where they stand: in the match and
result of a rule, and in the arguments of an S-expression. -/

def renamedVal (ρ : Str → Str) : HVal → HVal
  | .var x => .var (ρ x)
  | v => v

/-- `func(n ast.Node) bool { switch n := n.(type) { case *ast.Rule: …; case *ast.SExpr: … }; return true }` -/
def renamer (f : Hdr → Hdr) (ρ : Str → Str) : HNode → Heap × σ → (Heap × σ) × Bool
  | .rule p, (h, s) =>
    match h[p]? with
    | some (.rule m cond block res) => ((h.set p (.rule (renamedVal ρ m) cond block (renamedVal ρ res)), s), true)
    | _ => ((h, s), true)
  | .sexpr p, (h, s) =>
    match h[p]? with
    | some (.sexpr hd arr) =>
      match h[arr]? with
      | some (.values vs) => (((h.set p (.sexpr (f hd) arr)).set arr (.values (vs.map (renamedVal ρ))), s), true)
      | _ => ((h, s), true)
    | _ => ((h, s), true)
  | _, st => (st, true)

/-- What it should make of a tree. -/
def renamedValue (f : Hdr → Hdr) (ρ : Str → Str) : Value → Value
  | .var x => .var (ρ x)
  | .sexpr hd args => .sexpr (f hd) (go args)
  | v => v
where
  go : List Value → List Value
    | [] => []
    | a :: as => renamedValue f ρ a :: go as

/-- … and of a file. -/
def renamedFile (f : Hdr → Hdr) (ρ : Str → Str) (file : File) : File :=
  ⟨file.rules.map fun r => { r with «match» := renamedValue f ρ r.match, result := renamedValue f ρ r.result }⟩

/-! ## What any visitor gets to see -/

/-- A visitor that keeps a log of the nodes it is given, and of the state of memory at that moment. -/
def logged (vis : HVisiting V σ) : HVisiting V (σ × List (Heap × HNode)) where
  visit v n st := (((vis.visit v n (st.1, st.2.1)).1.1, ((vis.visit v n (st.1, st.2.1)).1.2, st.2.2 ++ [(st.1, n)])), (vis.visit v n (st.1, st.2.1)).2)

/-- The visitor was given the node. -/
def Given (log : List (Heap × HNode)) (n : HNode) : Prop := ∃ h, (h, n) ∈ log

/-- Given what was visited before, the node is what the memory `h` holds now in a field of a node that was visited, in the first place of its slice, or in the next place
of an array after the element visited before. -/
inductive Current (log : List (Heap × HNode)) (h : Heap) : HNode → Prop
  | «match» {p m cond block res} : Given log (.rule p) → h[p]? = some (.rule m cond block res) → Current log h m.toHNode
  | «result» {p m cond block res} : Given log (.rule p) → h[p]? = some (.rule m cond block res) → Current log h res.toHNode
  | opcode {p hd arr} : Given log (.sexpr p) → h[p]? = some (.sexpr hd arr) → Current log h hd.op.toHNode
  | part {ps o} : Given log (.parts ps) → o ∈ ps → Current log h o.toHNode
  | firstArg {p hd arr v vs} : Given log (.sexpr p) → h[p]? = some (.sexpr hd arr) → h[arr]? = some (.values (v :: vs)) → Current log h v.toHNode
  | nextArg {arr i : Nat} {vs : List HVal} {v : HVal} {h0 : Heap} {vs0 : List HVal} {v0 : HVal} : (h0, v0.toHNode) ∈ log → h0[arr]? = some (.values vs0) → vs0[i]? = some v0 → h[arr]? = some (.values vs) → vs[i + 1]? = some v →
      Current log h v.toHNode
  | firstRule {p arr r rs} : Given log (.file p) → h[p]? = some (.file arr) → h[arr]? = some (.rules (r :: rs)) → Current log h (.rule r)
  | nextRule {arr i : Nat} {rs : List Addr} {r : Addr} {h0 : Heap} {rs0 : List Addr} {r0 : Addr} : (h0, .rule r0) ∈ log → h0[arr]? = some (.rules rs0) → rs0[i]? = some r0 → h[arr]? = some (.rules rs) → rs[i + 1]? = some r →
      Current log h (.rule r)

end Verif.Spec

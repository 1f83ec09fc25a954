import Verif.Model.Expand
/-!
# Model of pass/alt.go on a heap

`Model/Expand.lean` treats rules and S-expressions as values.  Here the pointers are kept: `*ast.File`, `*ast.Rule`, `*ast.SExpr`
and the backing arrays of `Args` and `Rules` are cells of a heap, and the functions of pass/alt.go read, allocate and write cells.

Simplifications: a slice is a reference to its own array cell (length = capacity), so `append`ing in a loop to a nil slice, which
allocates a private array, is one allocation of the final array; slices that never become part of the
AST (`ms`, `rs`, `opcodes`, `expargs`, `vs`, `rules`, `exps` before it is stored) are values; `*ast.Expr`, opcode parts and strings are
immutable here (pass/alt.go never writes them) and are values.
-/
namespace Verif

/-- Address of a cell. (the pointers and slices of ast/ast.go:15, 20-43) -/
abbrev Addr := Nat

/-- An `ast.Value` interface with pointers. (ast/ast.go:29-32) -/
inductive HVal where
  | nil
  | sexpr (p : Addr)
  | expr (e : GoExpr)
  | var (name : Str)
  deriving Repr

/-- A heap cell. (ast/ast.go:14-43) -/
inductive Cell where
  /-- `ast.SExpr` (ast/ast.go:34-43); `args` refers to a `values` cell -/
  | sexpr (h : Hdr) (args : Addr)
  /-- backing array of an `[]ast.Value` -/
  | values (vs : List HVal)
  /-- `ast.Rule` (ast/ast.go:20-25) -/
  | rule (m : HVal) (condition : Option GoExpr) (block : Str) (res : HVal)
  /-- backing array of an `[]*ast.Rule` -/
  | rules (rs : List Addr)
  /-- `ast.File` (ast/ast.go:14-16); `rules` refers to a `rules` cell -/
  | file (rules : Addr)
  deriving Repr

/-- Memory that holds an AST (ast/ast.go:14-43): the cell at address `i` is entry `i`. -/
abbrev Heap := List Cell

/-- A computation on the heap: it returns (a value, an error, or a panic) together with the new heap, or, `none`, it does not
return within the given number of nested calls or follows a dangling reference. (the functions of pass/alt.go:10-125) -/
def HM (α : Type) := Heap → Option (Res α × Heap)

/-- `return a, nil` (as at pass/alt.go:48). -/
def HM.pure {α : Type} (a : α) : HM α := fun h => some (.ok a, h)

/-- Sequencing with early return on error (as at pass/alt.go:11-14). -/
def HM.bind {α β : Type} (x : HM α) (f : α → HM β) : HM β := fun h =>
  match x h with
  | some (.ok a, h') => f a h'
  | some (.err e, h') => some (.err e, h')
  | some (.panic, h') => some (.panic, h')
  | none => none

instance : Monad HM where
  pure := HM.pure
  bind := HM.bind

/-- A computation that does not touch the heap. (the calls at pass/alt.go:42, 77, 92) -/
def HM.lift {α : Type} (r : Res α) : HM α := fun h => some (r, h)
/-- Does not return. (not in pass/alt.go:10-125) -/
def HM.stuck {α : Type} : HM α := fun _ => none
/-- Allocate a cell. (pass/alt.go:53, 108, 116-119) -/
def HM.alloc (c : Cell) : HM Addr := fun h => some (.ok h.length, h ++ [c])
/-- Read a cell. (pass/alt.go:11, 32-37, 77, 86, 109) -/
def HM.read (a : Addr) : HM Cell := fun h =>
  match h[a]? with
  | some c => some (.ok c, h)
  | none => none
/-- Overwrite a cell. (pass/alt.go:15) -/
def HM.write (a : Addr) (c : Cell) : HM Unit := fun h =>
  if a < h.length then some (.ok (), h.set a c) else none

/-- `for _, x := range xs { y, err := f(x); if err != nil { return err }; ys = append(ys, y) }` (pass/alt.go:20-28) -/
def forH {α β : Type} (f : α → HM β) : List α → HM (List β)
  | [] => HM.pure []
  | x :: xs => do
    let y ← f x
    let ys ← forH f xs
    HM.pure (y :: ys)

/-- The body of the loop generating alternate S-expressions (pass/alt.go:104-122): `v := new(ast.SExpr); *v = *s`, then the
opcode and the arguments of the clone are replaced. -/
def hbuildSExpr (hd : Hdr) (arr : Addr) (opcodes : List Str) (expargs : List (List HVal)) (i : Nat) : HM HVal := do
  let v ← HM.alloc (.sexpr hd arr)
  let o ← HM.lift (getIdx opcodes (idx i opcodes.length))
  HM.write v (.sexpr { hd with op := .opcode o } arr)
  let args ← HM.lift (forRes (fun alts => getIdx alts (idx i alts.length)) expargs)
  let arr' ← HM.alloc (.values args)
  HM.write v (.sexpr { hd with op := .opcode o } arr')
  HM.pure (.sexpr v)

/-- The argument loop of `expandsexpr` (pass/alt.go:85-98), given the function for one argument. -/
def hexpandargs (ev : HVal → HM (List HVal)) : Nat → List HVal → HM (Nat × List (List HVal))
  | n, [] => HM.pure (n, [])
  | n, a :: as => do
    let exparg ← ev a
    let n' ← HM.lift (resolvecounts n exparg.length)
    let r ← hexpandargs ev n' as
    HM.pure (r.1, exparg :: r.2)

/-- `expandvalue` and `expandsexpr` (pass/alt.go:64-125) on the heap; the first argument bounds the recursion depth. -/
def hexpandvalue : Nat → HVal → HM (List HVal)
  | 0, _ => HM.stuck
  | fuel + 1, .sexpr p => do
    match ← HM.read p with
    | .sexpr hd arr =>
      let opcodes ← HM.lift (expandop hd.op)
      match ← HM.read arr with
      | .values args =>
        let r ← hexpandargs (hexpandvalue fuel) opcodes.length args
        if r.1 = 1 then HM.pure [.sexpr p]
        else forH (hbuildSExpr hd arr opcodes r.2) (List.range r.1)
      | _ => HM.stuck
    | _ => HM.stuck
  | _ + 1, .expr e => HM.pure [.expr e]
  | _ + 1, .var v => HM.pure [.var v]
  | _ + 1, .nil => HM.lift (.err (.unexpectedType nilType))

/-- The body of the loop generating alternate rules (pass/alt.go:52-59). -/
def hbuildRule (cond : Option GoExpr) (block : Str) (ms rs : List HVal) (i : Nat) : HM Addr := do
  let m ← HM.lift (getIdx ms (idx i ms.length))
  let v ← HM.lift (getIdx rs (idx i rs.length))
  HM.alloc (.rule m cond block v)

/-- `expandrule` (pass/alt.go:31-62) on the heap. -/
def hexpandrule (fuel : Nat) (p : Addr) : HM (List Addr) := do
  match ← HM.read p with
  | .rule m cond block res =>
    let ms ← hexpandvalue fuel m
    let rs ← hexpandvalue fuel res
    let n ← HM.lift (resolvecounts ms.length rs.length)
    if n = 1 then HM.pure [p]
    else forH (hbuildRule cond block ms rs) (List.range n)
  | _ => HM.stuck

/-- `expandrules` (pass/alt.go:19-29) on the heap. -/
def hexpandrules (fuel : Nat) (rs : List Addr) : HM (List Addr) := do
  let xss ← forH (hexpandrule fuel) rs
  HM.pure xss.flatten

/-- `ExpandAlternates` (pass/alt.go:10-17) on the heap. -/
def hexpandAlternates (fuel : Nat) (f : Addr) : HM Unit := do
  match ← HM.read f with
  | .file arr =>
    match ← HM.read arr with
    | .rules rs =>
      let out ← hexpandrules fuel rs
      let arr' ← HM.alloc (.rules out)
      HM.write f (.file arr')
    | _ => HM.stuck
  | _ => HM.stuck

end Verif

import Verif.Model.Ast
/-!
# Model of package `parse/internal/goexpr` (parse/internal/goexpr/parse.go)
-/
namespace Verif

/-- The part of the Go standard library and runtime that is called but not modelled.  These are arbitrary functions: nothing is assumed about them here. -/
structure GoLib where
  /-- `go/parser.ParseExpr` (parse/internal/goexpr/parse.go:12); `none` is "returned an error" -/
  parseExpr : Str → Option GoExpr
  /-- the text of the error `ParseExpr` returned -/
  errorText : Str → Str := fun _ => []
  /-- what the runtime says in a panic inside the parser (zparser.go:2215-2220) -/
  panicText : Str := []
  /-- the order in which `range` enumerates a map (zparser.go:2248) with these keys -/
  order : List Str → List Str := id

mutual
/-- `clearpos` (goexpr/parse.go:24-57): `go/ast.Inspect` calls the function literal on each node, parents first; it
zeroes the position fields in place (here: returns the changed tree) and stops descending below a node of another kind, after
setting `err`.  The result is the changed tree and, if `err` was set, the type named in it: later settings replace earlier ones.  `none`: `ast.Walk` panics
on a nil child (the callback returns true for nil, goexpr/parse.go:27-29, and `Walk` then has no case for nil).  The position of a selector's field name
belongs to the `*ast.Ident` child `Sel`, which is visited too (goexpr/parse.go:44-45, 48-49). -/
def clearpos : GoExpr → Option (GoExpr × Option Str)
  | .nil => none
  | .ident _ name => some (.ident 0 name, none)
  | .basicLit _ k v => some (.basicLit 0 k v, none)
  | .paren _ x _ => do let (x', b) ← clearpos x; some (.paren 0 x' 0, b)
  | .unary _ op x => do let (x', b) ← clearpos x; some (.unary 0 op x', b)
  | .binary x _ op y => do
    let (x', b) ← clearpos x
    let (y', c) ← clearpos y
    some (.binary x' 0 op y', c.or b)
  | .call fn _ args _ _ => do
    let (fn', b) ← clearpos fn
    let (args', c) ← clearposList args
    some (.call fn' 0 args' 0 0, c.or b)
  | .star _ x => do let (x', b) ← clearpos x; some (.star 0 x', b)
  | .selector x _ sel => do let (x', b) ← clearpos x; some (.selector x' 0 sel, b)
  | .other k => some (.other k, some (goType k))
/-- `clearpos` on the arguments of a call, in order. (parse/internal/goexpr/parse.go:26-55) -/
def clearposList : List GoExpr → Option (List GoExpr × Option Str)
  | [] => some ([], none)
  | e :: es => do
    let (e', b) ← clearpos e
    let (es', c) ← clearposList es
    some (e' :: es', c.or b)
end

/-- `goexpr.Parse` (goexpr/parse.go:11-22). -/
def goexprParse (lib : GoLib) (x : Str) : Res GoExpr :=
  match lib.parseExpr x with
  | none => .err (.other (lib.errorText x))
  | some e =>
    match clearpos e with
    | none => .panic
    | some (_, some t) => .err (.unexpectedType t)
    | some (e', none) => .ok e'

end Verif

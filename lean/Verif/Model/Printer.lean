import Verif.Model.Ast
/-!
# Model of printer/printer.go
-/
namespace Verif

/-- An `io.Writer` with state `σ`.  `write` is one call of `Write`; its byte count result is ignored by the printer
(printer/printer.go:229). -/
structure Writer (σ : Type) where
  write : σ → Str → σ × Option Err

/-- `*bytes.Buffer`: accumulates, never fails. (printer/printer.go:18-19) -/
def bufferWriter : Writer Str where
  write w s := (w ++ s, none)

/-- `printer` (printer/printer.go:37-40): the writer's state and the sticky error. -/
structure PState (σ : Type) where
  w : σ
  err : Option Err

variable {σ : Type}

/-- `seterror` (printer/printer.go:233-237) -/
def PState.seterror (p : PState σ) (e : Option Err) : PState σ :=
  match p.err with
  | none => { p with err := e }
  | some _ => p

/-- `printf` (printer/printer.go:225-231), after formatting: `fmt.Fprintf` calls `Write` once with the whole text. -/
def printf (W : Writer σ) (text : Str) (p : PState σ) : PState σ :=
  match p.err with
  | some _ => p
  | none =>
    match W.write p.w text with
    | (w', e) => PState.seterror { p with w := w' } e

mutual
/-- `goexpr` (printer/printer.go:183-223).  `"%s"` of a `*goast.Ident` is its name. -/
def pgoexpr (W : Writer σ) : GoExpr → PState σ → PState σ
  | .ident _ name, p => printf W name p
  | .basicLit _ _ v, p => printf W v p
  | .paren _ x _, p =>
    let p := printf W ['('] p
    let p := pgoexpr W x p
    printf W [')'] p
  | .unary _ op x, p =>
    let p := printf W op.str p
    pgoexpr W x p
  | .binary x _ op y, p =>
    let p := pgoexpr W x p
    let p := if op.prec < Tok.add.prec then printf W ([' '] ++ op.str ++ [' ']) p else printf W op.str p
    pgoexpr W y p
  | .call fn _ args _ _, p =>
    let p := pgoexpr W fn p
    let p := printf W ['('] p
    let p := pargs W true args p
    printf W [')'] p
  | .star _ x, p =>
    let p := printf W ['*'] p
    pgoexpr W x p
  | .selector x _ sel, p =>
    let p := pgoexpr W x p
    printf W (['.'] ++ sel) p
  | .other k, p => p.seterror (some (.unexpectedType (goType k)))
  | .nil, p => p.seterror (some (.unexpectedType nilType))
/-- The loop over call arguments (printer/printer.go:207-212); `first` is `i == 0`. -/
def pargs (W : Writer σ) : Bool → List GoExpr → PState σ → PState σ
  | _, [], p => p
  | first, a :: as, p =>
    let p := if first then p else printf W [',', ' '] p
    let p := pgoexpr W a p
    pargs W false as p
end

/-- The loop over the entries of an `OpcodeAlt` (printer/printer.go:172-177). -/
def palts (W : Writer σ) : Char → List Str → PState σ → PState σ
  | _, [], p => p
  | sep, c :: cs, p => palts W '|' cs (printf W (sep :: c) p)

/-- `oppart` (printer/printer.go:167-181) -/
def poppart (W : Writer σ) (part : OpPart) (p : PState σ) : PState σ :=
  match part with
  | .opcode s => printf W s p
  | .alt cs => printf W [')'] (palts W '(' cs p)
  | .nil => p.seterror (some (.unexpectedType nilType))

/-- `op` (printer/printer.go:154-165) -/
def pop (W : Writer σ) (op : Op) (p : PState σ) : PState σ :=
  match op with
  | .opcode s => printf W s p
  | .parts ps => ps.foldl (fun p part => poppart W part p) p
  | .nil => p.seterror (some (.unexpectedType nilType))

mutual
/-- `value` (printer/printer.go:90-101) and `sexpr` (printer/printer.go:103-152) -/
def pvalue (W : Writer σ) : Value → PState σ → PState σ
  | .sexpr h args, p =>
    let p := if h.binding ≠ [] then printf W (h.binding ++ [':']) p else p
    let p := printf W ['('] p
    let p := pop W h.op p
    let p := if h.type ≠ [] then printf W ([' ', '<'] ++ h.type ++ ['>']) p else p
    let p := match h.auxInt with
      | some e => printf W [']'] (pgoexpr W e (printf W [' ', '['] p))
      | none => p
    let p := match h.aux with
      | some e => printf W ['}'] (pgoexpr W e (printf W [' ', '{'] p))
      | none => p
    let p := pvalues W args p
    let p := if h.ellipsis then printf W [' ', '.', '.', '.'] p else p
    let p := if h.trailing then printf W [' ', '_', '_', '_'] p else p
    printf W [')'] p
  | .expr e, p => pgoexpr W e p
  | .var v, p => printf W v p
  | .nil, p => p.seterror (some (.unexpectedType nilType))
/-- The loop over the arguments (printer/printer.go:134-138) -/
def pvalues (W : Writer σ) : List Value → PState σ → PState σ
  | [], p => p
  | a :: as, p => pvalues W as (pvalue W a (printf W [' '] p))
end

/-- `rule` (printer/printer.go:68-88) -/
def prule (W : Writer σ) (r : Rule) (p : PState σ) : PState σ :=
  let p := pvalue W r.match p
  let p := match r.condition with
    | some e => pgoexpr W e (printf W [' ', '&', '&', ' '] p)
    | none => p
  let p := printf W [' ', '=', '>', ' '] p
  let p := if r.block ≠ [] then printf W (['@'] ++ r.block ++ [' ']) p else p
  pvalue W r.result p

/-- The loop over the rules of a file (printer/printer.go:49-52). -/
def prules (W : Writer σ) : List Rule → PState σ → PState σ
  | [], p => p
  | r :: rs, p => prules W rs (printf W ['\n'] (prule W r p))

/-- `node` (printer/printer.go:46-66).  `ast.OpcodeAlt` is neither an `ast.Value` nor an `ast.Op`. -/
def pnode (W : Writer σ) (n : Node) (p : PState σ) : PState σ :=
  match n with
  | .file f => prules W f.rules p
  | .rule r => prule W r p
  | .sexpr h args => pvalue W (.sexpr h args) p
  | .expr e => pvalue W (.expr e) p
  | .var v => pvalue W (.var v) p
  | .opcode s => pop W (.opcode s) p
  | .parts ps => pop W (.parts ps) p
  | .alt _ => p.seterror (some (.unexpectedType "ast.OpcodeAlt".toList))
  | .nil => p.seterror (some (.unexpectedType nilType))

/-- `Fprint` (printer/printer.go:31-35): the writer's final state and the error. -/
def fprint (W : Writer σ) (n : Node) (w : σ) : σ × Option Err :=
  let p := pnode W n { w := w, err := none }
  (p.w, p.err)

/-- `Bytes` (printer/printer.go:17-23) -/
def printBytes (n : Node) : Res Str :=
  match fprint bufferWriter n [] with
  | (_, some e) => .err e
  | (buf, none) => .ok buf

end Verif

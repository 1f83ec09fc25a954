/-!
# Model of package `ast` (ast/ast.go) and of the part of `go/ast` it uses

Go strings holding text are lists of characters.  A nil interface value is an explicit constructor.
-/
namespace Verif

/-- Go `string`.  Simplification: a string is a list of Unicode characters, not of bytes
(every string the parser puts into an AST is valid UTF-8, see `Model/Peg.lean`). (ast/ast.go:23, 53, 75, 84) -/
abbrev Str := List Char

/-- `go/token.Token`: the operators that occur in `UnaryExpr.Op` and `BinaryExpr.Op`
(printer/printer.go:193-203).  `other s` is any other token, rendered as `s`. -/
inductive Tok where
  | add | sub | mul | quo | rem
  | and | or | xor | shl | shr | andNot
  | land | lor | arrow
  | eql | neq | lss | leq | gtr | geq
  | not
  | other (s : Str)
  deriving DecidableEq, Repr

/-- `go/token.Token.String` on operators (used by `printf("%s", e.Op)`, printer/printer.go:194,199,201). -/
def Tok.str : Tok → Str
  | .add => ['+'] | .sub => ['-'] | .mul => ['*'] | .quo => ['/'] | .rem => ['%']
  | .and => ['&'] | .or => ['|'] | .xor => ['^'] | .shl => ['<', '<'] | .shr => ['>', '>']
  | .andNot => ['&', '^']
  | .land => ['&', '&'] | .lor => ['|', '|'] | .arrow => ['<', '-']
  | .eql => ['=', '='] | .neq => ['!', '='] | .lss => ['<'] | .leq => ['<', '=']
  | .gtr => ['>'] | .geq => ['>', '=']
  | .not => ['!']
  | .other s => s

/-- `go/token.Token.Precedence` (used at printer/printer.go:198): 1..5 for binary operators, 0 otherwise. -/
def Tok.prec : Tok → Nat
  | .lor => 1
  | .land => 2
  | .eql | .neq | .lss | .leq | .gtr | .geq => 3
  | .add | .sub | .or | .xor => 4
  | .mul | .quo | .rem | .shl | .shr | .and | .andNot => 5
  | _ => 0

/-- Kinds of `go/ast.BasicLit`. (the `Kind` of the literals of parse/internal/goexpr/parse.go:31 and printer/printer.go:206-207) -/
inductive LitKind where
  | int | float | imag | char | string
  deriving DecidableEq, Repr

/-- `go/ast.Expr`.  The eight node kinds that `goexpr.clearpos` (parse/internal/goexpr/parse.go:30-54) and the
printer (printer/printer.go:183-223) know, with their `token.Pos` fields (`0` is `token.NoPos`);
`other k` is a node of any other kind `k` (its children are never looked at by this code base);
`nil` is the nil interface. -/
inductive GoExpr where
  | nil
  | ident (namePos : Nat) (name : Str)
  | basicLit (valuePos : Nat) (kind : LitKind) (value : Str)
  | paren (lparen : Nat) (x : GoExpr) (rparen : Nat)
  | unary (opPos : Nat) (op : Tok) (x : GoExpr)
  | binary (x : GoExpr) (opPos : Nat) (op : Tok) (y : GoExpr)
  | call (fn : GoExpr) (lparen : Nat) (args : List GoExpr) (ellipsis : Nat) (rparen : Nat)
  | star (starPos : Nat) (x : GoExpr)
  | selector (x : GoExpr) (selPos : Nat) (sel : Str)
  | other (kind : Str)
  deriving Repr

/-- `ast.OpPart` (ast/ast.go:65-73): `ast.Opcode` or `ast.OpcodeAlt`, or a nil interface. -/
inductive OpPart where
  | nil
  | opcode (s : Str)
  | alt (cs : List Str)
  deriving DecidableEq, Repr

/-- `ast.Op` (ast/ast.go:48-63): `ast.Opcode` or `ast.OpcodeParts`, or a nil interface. -/
inductive Op where
  | nil
  | opcode (s : Str)
  | parts (ps : List OpPart)
  deriving DecidableEq, Repr

/-- The fields of `ast.SExpr` other than `Args` (ast/ast.go:34-43).
`binding = []` and `type = []` are Go's empty strings (absent); `auxInt`, `aux` are `*ast.Expr`. -/
structure Hdr where
  binding : Str := []
  op : Op
  type : Str := []
  auxInt : Option GoExpr := none
  aux : Option GoExpr := none
  ellipsis : Bool := false
  trailing : Bool := false
  deriving Repr

/-- `ast.Value` (ast/ast.go:29-32): `*ast.SExpr` (header and `Args`), `*ast.Expr`, `ast.Variable`, or nil. -/
inductive Value where
  | nil
  | sexpr (h : Hdr) (args : List Value)
  | expr (e : GoExpr)
  | var (name : Str)
  deriving Repr

/-- `ast.Rule` (ast/ast.go:20-25).  `block = []` means absent. -/
structure Rule where
  «match» : Value
  condition : Option GoExpr := none
  block : Str := []
  result : Value
  deriving Repr

/-- `ast.File` (ast/ast.go:14-16). -/
structure File where
  rules : List Rule
  deriving Repr

/-- `ast.Placeholder` (ast/ast.go:89). -/
abbrev placeholder : Str := ['_']

/-- `ast.Node` (ast/ast.go:10-12): the dynamic types that implement it, or a nil interface. -/
inductive Node where
  | nil
  | file (f : File)
  | rule (r : Rule)
  | sexpr (h : Hdr) (args : List Value)
  | opcode (s : Str)
  | parts (ps : List OpPart)
  | alt (cs : List Str)
  | expr (e : GoExpr)
  | var (name : Str)
  deriving Repr

/-- Conversion of an `ast.Value` interface to `ast.Node`. (ast/ast.go:29-32; as at ast/walk.go:26-27, 32) -/
def Value.toNode : Value → Node
  | .nil => .nil
  | .sexpr h args => .sexpr h args
  | .expr e => .expr e
  | .var v => .var v

/-- Conversion of an `ast.Op` interface to `ast.Node`. (ast/ast.go:48-51; as at ast/walk.go:30) -/
def Op.toNode : Op → Node
  | .nil => .nil
  | .opcode s => .opcode s
  | .parts ps => .parts ps

/-- Conversion of an `ast.OpPart` interface to `ast.Node`. (ast/ast.go:65-68; as at ast/walk.go:37) -/
def OpPart.toNode : OpPart → Node
  | .nil => .nil
  | .opcode s => .opcode s
  | .alt cs => .alt cs

/-- Error values of the code base. (the calls in pass/alt.go:71, 133, 140, 156, 169, 182, ast/walk.go:47, printer/printer.go:64, parse/internal/goexpr/parse.go:51, smt2/generate.go, cmd/ssarules/main.go:70) -/
inductive Err where
  /-- `errutil.UnexpectedType` (internal/errutil/errutil.go:20-22); `type` is what `%T` prints -/
  | unexpectedType (type : Str)
  /-- `errutil.AssertionFailure` (internal/errutil/errutil.go:15-17) -/
  | assertion (msg : Str)
  /-- `errutil.NotSupported` (internal/errutil/errutil.go:9-11) -/
  | notSupported (what : Str)
  /-- pass/alt.go:182 -/
  | incompatible (m n : Nat)
  /-- any other error text -/
  | other (msg : Str)
  deriving DecidableEq, Repr

/-- Decimal digits: `%d` and `strconv.Itoa` of a number that is not negative. (cmd/ssarules/main.go:53, 72, 75, 92, 99, pass/alt.go:182, parse/internal/parser/zparser.go:1774) -/
def natStr (n : Nat) : Str := Nat.toDigits 10 n

/-- `err.Error()`. (what cmd/ssarules/main.go:23, 49 print) -/
def Err.text : Err → Str
  | .unexpectedType t => "assertion failure: unexpected type ".toList ++ t -- internal/errutil/errutil.go:15-22
  | .assertion msg => "assertion failure: ".toList ++ msg -- internal/errutil/errutil.go:15-17
  | .notSupported what => "not supported: ".toList ++ what -- internal/errutil/errutil.go:9-11
  | .incompatible m n => "incompatible alternative counts ".toList ++ natStr m ++ " and ".toList ++ natStr n -- pass/alt.go:182
  | .other msg => msg

/-- What `%T` prints for a nil interface. (internal/errutil/errutil.go:21) -/
def nilType : Str := "<nil>".toList

/-- What `%T` prints for a node of `go/ast` of a kind without own constructor. (internal/errutil/errutil.go:21) -/
def goType (kind : Str) : Str := "*ast.".toList ++ kind

/-- Result of a Go function with result type `(α, error)`: a value with nil error, an error, or a panic. (the result types in pass/alt.go:10-138, printer/printer.go:17, smt2/generate.go:16, parse/parse.go:15-30) -/
inductive Res (α : Type) where
  | ok (a : α)
  | err (e : Err)
  | panic
  deriving Repr, DecidableEq

/-- Sequencing with early return on error (`if err != nil { return nil, err }`). (as at pass/alt.go:11-14, 22-25, 32-45) -/
@[inline] def Res.bind {α β : Type} (r : Res α) (f : α → Res β) : Res β :=
  match r with
  | .ok a => f a
  | .err e => .err e
  | .panic => .panic

instance : Monad Res where
  pure := .ok
  bind := Res.bind

@[simp] theorem Res.bind_ok {α β : Type} (a : α) (f : α → Res β) : (Res.ok a >>= f) = f a := rfl
@[simp] theorem Res.bind_err {α β : Type} (e : Err) (f : α → Res β) : (Res.err e >>= f) = .err e := rfl
@[simp] theorem Res.bind_panic {α β : Type} (f : α → Res β) : (Res.panic >>= f) = .panic := rfl
@[simp] theorem Res.pure_eq {α : Type} (a : α) : (pure a : Res α) = .ok a := rfl

theorem Res.bind_eq_ok {α β : Type} {r : Res α} {f : α → Res β} {b : β} :
    (r >>= f) = .ok b ↔ ∃ a, r = .ok a ∧ f a = .ok b := by
  cases r <;> simp

theorem Res.bind_eq_err {α β : Type} {r : Res α} {f : α → Res β} {e : Err} :
    (r >>= f) = .err e ↔ r = .err e ∨ ∃ a, r = .ok a ∧ f a = .err e := by
  cases r <;> simp

theorem Res.bind_eq_panic {α β : Type} {r : Res α} {f : α → Res β} :
    (r >>= f) = .panic ↔ r = .panic ∨ ∃ a, r = .ok a ∧ f a = .panic := by
  cases r <;> simp

end Verif

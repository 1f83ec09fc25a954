import Verif.Model.Ast
/-!
# Model of ast.Print, ast.Dump, ast.Fprint (ast/ast.go:91-108)

They call `goast.Fprint(w, nil, n, goast.NotNilFilter)`, a printer for arbitrary values that works by reflection.  It is not part of the repo and modelled from its source
(Go standard library, go/ast/print.go): `RVal` is what reflection sees, `Node.rval` how an AST looks to reflection.

Simplifications: values are finite trees (no pointer leads back to itself); texts are characters instead of bytes; the field `Obj` of Go identifiers is nil (as in Go 1.17 and
later; Go 1.16 lets it refer to one shared empty object); in `File.Rules`, `SExpr.Args` and `CallExpr.Args` an empty slice is nil (as in every AST the parser makes) and
`OpcodeParts` and `OpcodeAlt` are not nil.
-/
namespace Verif

mutual
/-- A value as `reflect` shows it; interfaces are looked through. (the argument at ast/ast.go:107, seen by package reflect) -/
inductive RVal where
  /-- nil pointer, interface or slice -/
  | nil
  /-- pointer: its type and address, as one number, and what it points to -/
  | ptr (addr : Nat) (x : RVal)
  /-- slice, with the name of its type -/
  | slice (type : Str) (xs : RVals)
  /-- struct, with the name of its type -/
  | struct (type : Str) (fields : RFields)
  /-- of type `string` -/
  | string (s : Str)
  /-- anything else; what `%v` prints -/
  | other (text : Str)
/-- The elements of a slice of the value printed at ast/ast.go:107. -/
inductive RVals where
  | nil
  | cons (x : RVal) (xs : RVals)
/-- The fields of a struct in the value printed at ast/ast.go:107. -/
inductive RFields where
  | nil
  | cons (name : Str) (x : RVal) (fs : RFields)
end

/-- Length of a slice of the value printed at ast/ast.go:107. -/
def RVals.length : RVals → Nat
  | .nil => 0
  | .cons _ xs => xs.length + 1

/-- `NotNilFilter` (go/ast/print.go). (passed at ast/ast.go:107) -/
def RVal.notNil : RVal → Bool
  | .nil => false
  | _ => true

/-! ## `strconv.Quote` -/

/-- What depends on the version of Go: the characters for which `strconv.IsPrint` holds, and whether U+007F is written `\x7f` or `\u007f`. (for strings printed by the call at ast/ast.go:107) -/
structure QuoteTable where
  printable : Char → Bool
  /-- control characters are not printable -/
  control : ∀ c, c.toNat < 32 → printable c = false
  delX : Bool

/-- The last `w` hexadecimal digits of a number. (for strings printed by the call at ast/ast.go:107) -/
def hexStr : Nat → Nat → Str
  | 0, _ => []
  | w + 1, n => hexStr w (n / 16) ++ [(n % 16).digitChar]

/-- `appendEscapedRune` (Go standard library, strconv/quote.go) with the quote `"`. -/
def quoteChar (q : QuoteTable) (c : Char) : Str :=
  if c = '"' ∨ c = '\\' then ['\\', c]
  else if q.printable c then [c]
  else if c.toNat = 7 then ['\\', 'a']
  else if c.toNat = 8 then ['\\', 'b']
  else if c.toNat = 12 then ['\\', 'f']
  else if c.toNat = 10 then ['\\', 'n']
  else if c.toNat = 13 then ['\\', 'r']
  else if c.toNat = 9 then ['\\', 't']
  else if c.toNat = 11 then ['\\', 'v']
  else if c.toNat < 32 ∨ q.delX = true ∧ c.toNat = 127 then '\\' :: 'x' :: hexStr 2 c.toNat
  else if c.toNat < 65536 then '\\' :: 'u' :: hexStr 4 c.toNat
  else '\\' :: 'U' :: hexStr 8 c.toNat

/-- `%q` of a string. (for strings printed by the call at ast/ast.go:107) -/
def quoteStr (q : QuoteTable) (s : Str) : Str := '"' :: s.flatMap (quoteChar q) ++ ['"']

/-! ## The printer -/

/-- `printer` (go/ast/print.go), with the calls of `Write` of the `io.Writer` so far. (called at ast/ast.go:107) -/
structure DumpState where
  ptrmap : List (Nat × Nat) := []
  indent : Nat := 0
  last : Char := '\n'
  line : Nat := 0
  out : List Str := []

/-- The outcome of a part of the printer: it goes on, or an error has been met (`localError`). (called at ast/ast.go:107) -/
abbrev DumpOut := DumpState × Option Err

/-- Go on unless there was an error. (called at ast/ast.go:107) -/
def DumpOut.andThen (r : DumpOut) (f : DumpState → DumpOut) : DumpOut :=
  match r with
  | (s, none) => f s
  | (s, some e) => (s, some e)

/-- `p.output.Write(data)`: `ans` answers it, given all the calls so far, including this one. (called at ast/ast.go:107; the writer is the `w` of ast/ast.go:106) -/
def dEmit (ans : List Str → Option Err) (data : Str) (s : DumpState) : DumpOut :=
  ({ s with out := s.out ++ [data] }, ans (s.out ++ [data]))

/-- `%6d` (called at ast/ast.go:107) -/
def pad6 (n : Nat) : Str := List.replicate (6 - (natStr n).length) ' ' ++ natStr n

/-- The loop in `(*printer).Write` that writes the indentation. (called at ast/ast.go:107) -/
def dIndent (ans : List Str → Option Err) : Nat → DumpState → DumpOut
  | 0, s => (s, none)
  | j + 1, s => (dEmit ans ['.', ' ', ' '] s).andThen (dIndent ans j)

/-- `(*printer).Write` (go/ast/print.go): the loop over the data.  `seg` is `data[n:i]`. (called at ast/ast.go:107) -/
def dWriteLoop (ans : List Str → Option Err) : Str → Str → DumpState → DumpOut
  | seg, [], s => if seg = [] then (s, none) else dEmit ans seg s
  | seg, b :: data, s =>
    if b = '\n' then
      (dEmit ans (seg ++ [b]) s).andThen fun s => dWriteLoop ans [] data { s with line := s.line + 1, last := b }
    else if s.last = '\n' then
      ((dEmit ans (pad6 s.line ++ [' ', ' ']) s).andThen fun s => dIndent ans s.indent s).andThen fun s => dWriteLoop ans (seg ++ [b]) data { s with last := b }
    else dWriteLoop ans (seg ++ [b]) data { s with last := b }

/-- `(*printer).printf` (go/ast/print.go), of a text that has been formatted. (called at ast/ast.go:107) -/
def dPrintf (ans : List Str → Option Err) (text : Str) (s : DumpState) : DumpOut := dWriteLoop ans [] text s

/-- Lookup in the map `ptrmap` of `printer` (go/ast/print.go; called at ast/ast.go:107). -/
def dLookup (a : Nat) : List (Nat × Nat) → Option Nat
  | [] => none
  | (b, l) :: m => if b = a then some l else dLookup a m

/-- `p.indent++`, `p.indent--` in `(*printer).print` (go/ast/print.go; called at ast/ast.go:107). -/
def dIndentBy (f : Nat → Nat) (s : DumpState) : DumpOut := ({ s with indent := f s.indent }, none)

mutual
/-- `(*printer).print` (go/ast/print.go), with the filter `NotNilFilter` and without a `FileSet`. (called at ast/ast.go:107) -/
def dPrint (q : QuoteTable) (ans : List Str → Option Err) : RVal → DumpState → DumpOut
  | .nil, s => dPrintf ans "nil".toList s
  | .ptr a x, s =>
    (dPrintf ans ['*'] s).andThen fun s =>
      match dLookup a s.ptrmap with
      | some l => dPrintf ans ("(obj @ ".toList ++ natStr l ++ [')']) s
      | none => dPrint q ans x { s with ptrmap := (a, s.line) :: s.ptrmap }
  | .slice type xs, s =>
    (dPrintf ans (type ++ " (len = ".toList ++ natStr xs.length ++ ") {".toList) s).andThen fun s =>
      (if 0 < xs.length then
        (((dIndentBy (· + 1) s).andThen (dPrintf ans ['\n'])).andThen (dElems q ans 0 xs)).andThen (dIndentBy (· - 1))
      else (s, none)).andThen (dPrintf ans ['}'])
  | .struct type fields, s =>
    ((((dPrintf ans (type ++ " {".toList) s).andThen (dIndentBy (· + 1))).andThen (dFields q ans true fields)).andThen (dIndentBy (· - 1))).andThen (dPrintf ans ['}'])
  | .string t, s => dPrintf ans (quoteStr q t) s
  | .other t, s => dPrintf ans t s

/-- The loop over the elements of a slice. (called at ast/ast.go:107) -/
def dElems (q : QuoteTable) (ans : List Str → Option Err) : Nat → RVals → DumpState → DumpOut
  | _, .nil, s => (s, none)
  | i, .cons x xs, s =>
    (((dPrintf ans (natStr i ++ [':', ' ']) s).andThen (dPrint q ans x)).andThen (dPrintf ans ['\n'])).andThen (dElems q ans (i + 1) xs)

/-- The loop over the fields of a struct (all of them are exported). (called at ast/ast.go:107) -/
def dFields (q : QuoteTable) (ans : List Str → Option Err) : Bool → RFields → DumpState → DumpOut
  | _, .nil, s => (s, none)
  | first, .cons name x fs, s =>
    if x.notNil = true then
      ((((if first = true then dPrintf ans ['\n'] s else (s, none)).andThen (dPrintf ans (name ++ [':', ' ']))).andThen (dPrint q ans x)).andThen
        (dPrintf ans ['\n'])).andThen (dFields q ans false fs)
    else dFields q ans first fs s
end

/-- `fprint` (go/ast/print.go) on a new printer: the calls of `Write` and the error. (called at ast/ast.go:107) -/
def goFprint (q : QuoteTable) (ans : List Str → Option Err) (x : RVal) : DumpOut := (dPrint q ans x {}).andThen (dPrintf ans ['\n'])

/-- `ast.Fprint` (ast/ast.go:105-108) -/
def astFprint (q : QuoteTable) (ans : List Str → Option Err) (x : RVal) : List Str × Option Err := ((goFprint q ans x).1.out, (goFprint q ans x).2)

/-- `ast.Dump` (ast/ast.go:96-103): writing to a `bytes.Buffer` does not fail. -/
def astDump (q : QuoteTable) (x : RVal) : Res Str :=
  match astFprint q (fun _ => none) x with
  | (_, some e) => .err e
  | (out, none) => .ok out.flatten

/-! ## ASTs -/

/-- The fields of a struct (ast/ast.go:20-43), from a list. -/
def mkFields : List (Str × RVal) → RFields
  | [] => .nil
  | (n, x) :: fs => .cons n x (mkFields fs)

/-- The elements of a slice (ast/ast.go:15, 40, 60, 70), from a list. -/
def mkVals : List RVal → RVals
  | [] => .nil
  | x :: xs => .cons x (mkVals xs)

/-- A struct behind a pointer.  The address is left open. (`*File`, `*Rule`, `*SExpr`, `*Expr`: ast/ast.go:14-43, 77-79) -/
def rStruct (type : Str) (fields : List (Str × RVal)) : RVal := .ptr 0 (.struct type (mkFields fields))

/-- A slice that is nil if it is empty. (ast/ast.go:15, 40, 60, 70) -/
def rSlice (type : Str) (xs : List RVal) : RVal := if xs.isEmpty then .nil else .slice type (mkVals xs)

/-- `token.Pos` (the positions of parse/internal/goexpr/parse.go:30-47) -/
def rPos (n : Nat) : RVal := .other (natStr n)

/-- `bool` (ast/ast.go:41-42) -/
def rBool (b : Bool) : RVal := .other (if b = true then "true".toList else "false".toList)

/-- `token.Token` of a literal (`token.Token.String`) (for the literals of parse/internal/goexpr/parse.go:31) -/
def LitKind.str : LitKind → Str
  | .int => "INT".toList
  | .float => "FLOAT".toList
  | .imag => "IMAG".toList
  | .char => "CHAR".toList
  | .string => "STRING".toList

/-- The `*ast.Ident` of package go/ast. (parse/internal/goexpr/parse.go:44-45) -/
def rIdent (pos : Nat) (name : Str) : RVal :=
  rStruct "ast.Ident".toList [("NamePos".toList, rPos pos), ("Name".toList, .string name), ("Obj".toList, .nil)]

mutual
/-- The expression types of go/ast.  (Nodes of other kinds are never part of an AST that the parser makes; they stand for themselves.) (the kinds of parse/internal/goexpr/parse.go:31-49) -/
def GoExpr.rval : GoExpr → RVal
  | .nil => .nil
  | .ident p n => rIdent p n
  | .basicLit p k v => rStruct "ast.BasicLit".toList [("ValuePos".toList, rPos p), ("Kind".toList, .other k.str), ("Value".toList, .string v)]
  | .paren l x r => rStruct "ast.ParenExpr".toList [("Lparen".toList, rPos l), ("X".toList, x.rval), ("Rparen".toList, rPos r)]
  | .unary p op x => rStruct "ast.UnaryExpr".toList [("OpPos".toList, rPos p), ("Op".toList, .other op.str), ("X".toList, x.rval)]
  | .binary x p op y =>
    rStruct "ast.BinaryExpr".toList [("X".toList, x.rval), ("OpPos".toList, rPos p), ("Op".toList, .other op.str), ("Y".toList, y.rval)]
  | .call f l args e r =>
    rStruct "ast.CallExpr".toList [("Fun".toList, f.rval), ("Lparen".toList, rPos l), ("Args".toList, rSlice "[]ast.Expr".toList (goRvals args)),
      ("Ellipsis".toList, rPos e), ("Rparen".toList, rPos r)]
  | .star p x => rStruct "ast.StarExpr".toList [("Star".toList, rPos p), ("X".toList, x.rval)]
  | .selector x p n => rStruct "ast.SelectorExpr".toList [("X".toList, x.rval), ("Sel".toList, rIdent p n)]
  | .other k => .other k
/-- The `Args` of a `*goast.CallExpr` (parse/internal/goexpr/parse.go:38). -/
def goRvals : List GoExpr → List RVal
  | [] => []
  | x :: xs => x.rval :: goRvals xs
end

/-- `*ast.Expr` (ast/ast.go:77-79) -/
def exprRval (e : GoExpr) : RVal := rStruct "ast.Expr".toList [("Expr".toList, e.rval)]

/-- `*ast.Expr` that may be nil (ast/ast.go:22, 38-39) -/
def optRval : Option GoExpr → RVal
  | none => .nil
  | some e => exprRval e

/-- `Opcode` (ast/ast.go:53). -/
def opcodeRval (s : Str) : RVal := .other s

/-- `ast.OpcodeAlt` (ast/ast.go:70) -/
def altRval (cs : List Str) : RVal := .slice "ast.OpcodeAlt".toList (mkVals (cs.map opcodeRval))

/-- `ast.OpPart` (ast/ast.go:65-68) -/
def OpPart.rval : OpPart → RVal
  | .nil => .nil
  | .opcode s => opcodeRval s
  | .alt cs => altRval cs

/-- `ast.OpcodeParts` (ast/ast.go:60) -/
def partsRval (ps : List OpPart) : RVal := .slice "ast.OpcodeParts".toList (mkVals (ps.map OpPart.rval))

/-- `ast.Op` (ast/ast.go:48-51) -/
def Op.rval : Op → RVal
  | .nil => .nil
  | .opcode s => opcodeRval s
  | .parts ps => partsRval ps

/-- `*ast.SExpr` (ast/ast.go:34-43), given its arguments -/
def sexprRval (h : Hdr) (args : List RVal) : RVal :=
  rStruct "ast.SExpr".toList [("Binding".toList, .other h.binding), ("Op".toList, h.op.rval), ("Type".toList, .other h.type), ("AuxInt".toList, optRval h.auxInt),
    ("Aux".toList, optRval h.aux), ("Args".toList, rSlice "[]ast.Value".toList args), ("Ellipsis".toList, rBool h.ellipsis), ("Trailing".toList, rBool h.trailing)]

mutual
/-- `ast.Value` (ast/ast.go:29-32) -/
def Value.rval : Value → RVal
  | .nil => .nil
  | .sexpr h args => sexprRval h (valueRvals args)
  | .expr e => exprRval e
  | .var v => .other v
/-- `Args` of `SExpr` (ast/ast.go:40). -/
def valueRvals : List Value → List RVal
  | [] => []
  | v :: vs => v.rval :: valueRvals vs
end

/-- `*ast.Rule` (ast/ast.go:20-25) -/
def Rule.rval (r : Rule) : RVal :=
  rStruct "ast.Rule".toList [("Match".toList, r.match.rval), ("Condition".toList, optRval r.condition), ("Block".toList, .string r.block), ("Result".toList, r.result.rval)]

/-- `*ast.File` (ast/ast.go:14-16) -/
def File.rval (f : File) : RVal := rStruct "ast.File".toList [("Rules".toList, rSlice "[]*ast.Rule".toList (f.rules.map Rule.rval))]

/-- `ast.Node` (ast/ast.go:10-12) -/
def Node.rval : Node → RVal
  | .nil => .nil
  | .file f => f.rval
  | .rule r => r.rval
  | .sexpr h args => sexprRval h (valueRvals args)
  | .opcode s => opcodeRval s
  | .parts ps => partsRval ps
  | .alt cs => altRval cs
  | .expr e => exprRval e
  | .var v => .other v

mutual
/-- The value without its addresses. (for the values given at ast/ast.go:107) -/
def RVal.strip : RVal → RVal
  | .nil => .nil
  | .ptr _ x => .ptr 0 x.strip
  | .slice t xs => .slice t xs.strip
  | .struct t fs => .struct t fs.strip
  | .string s => .string s
  | .other s => .other s
/-- See `RVal.strip` (ast/ast.go:107). -/
def RVals.strip : RVals → RVals
  | .nil => .nil
  | .cons x xs => .cons x.strip xs.strip
/-- See `RVal.strip` (ast/ast.go:107). -/
def RFields.strip : RFields → RFields
  | .nil => .nil
  | .cons n x fs => .cons n x.strip fs.strip
end

end Verif

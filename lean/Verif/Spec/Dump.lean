import Verif.Model.Dump
/-!
# Specification of the dump of an AST

The lines of a dump, without reference to the machine that writes it; and which values are an AST in memory.
-/
namespace Verif.Spec
open Verif

/-- A line: indentation and text. -/
abbrev Line := Nat × Str

/-- Pointers seen so far, with the number of the line on which they first occur. -/
abbrev SeenAt := List (Nat × Nat)

mutual
/-- What a value looks like if it begins on line `k`, whose indentation is `i`: the rest of this line, the lines that follow, and the pointers seen. -/
def lay (q : QuoteTable) (i k : Nat) (m : SeenAt) : RVal → (Str × List Line) × SeenAt
  | .nil => (("nil".toList, []), m)
  | .ptr a x =>
    match dLookup a m with
    | some l => (("*(obj @ ".toList ++ natStr l ++ [')'], []), m)
    | none => (('*' :: (lay q i k ((a, k) :: m) x).1.1, (lay q i k ((a, k) :: m) x).1.2), (lay q i k ((a, k) :: m) x).2)
  | .slice t .nil => ((t ++ " (len = 0) {}".toList, []), m)
  | .slice t (.cons x xs) =>
    ((t ++ " (len = ".toList ++ natStr (xs.length + 1) ++ ") {".toList, (layElems q (i + 1) (k + 1) m 0 (.cons x xs)).1 ++ [(i, ['}'])]),
      (layElems q (i + 1) (k + 1) m 0 (.cons x xs)).2)
  | .struct t fs =>
    (if (layFields q (i + 1) (k + 1) m fs).1 = [] then (t ++ " {}".toList, []) else (t ++ " {".toList, (layFields q (i + 1) (k + 1) m fs).1 ++ [(i, ['}'])]),
      (layFields q (i + 1) (k + 1) m fs).2)
  | .string s => ((quoteStr q s, []), m)
  | .other s => ((s, []), m)
/-- Elements number `j`, `j + 1`, …, beginning on line `k`. -/
def layElems (q : QuoteTable) (i k : Nat) (m : SeenAt) (j : Nat) : RVals → List Line × SeenAt
  | .nil => ([], m)
  | .cons x xs =>
    let a := lay q i k m x
    let b := layElems q i (k + 1 + a.1.2.length) a.2 (j + 1) xs
    ((i, natStr j ++ [':', ' '] ++ a.1.1) :: (a.1.2 ++ b.1), b.2)
/-- Fields, beginning on line `k`; those that are nil are left out. -/
def layFields (q : QuoteTable) (i k : Nat) (m : SeenAt) : RFields → List Line × SeenAt
  | .nil => ([], m)
  | .cons n x fs =>
    if x.notNil = true then
      let a := lay q i k m x
      let b := layFields q i (k + 1 + a.1.2.length) a.2 fs
      ((i, n ++ [':', ' '] ++ a.1.1) :: (a.1.2 ++ b.1), b.2)
    else layFields q i k m fs
end

/-- What is before the text of a line: its number in six columns, two blanks and the indentation. -/
def linePrefix (k i : Nat) : Str := pad6 k ++ [' ', ' '] ++ (List.replicate i ['.', ' ', ' ']).flatten

/-- Lines as a text; the first has the number `k`. -/
def renderLines : Nat → List Line → Str
  | _, [] => []
  | k, (i, t) :: ls => linePrefix k i ++ t ++ '\n' :: renderLines (k + 1) ls

/-- The lines of a dump. -/
def dumpLines (q : QuoteTable) (x : RVal) : List Line := (0, (lay q 0 0 [] x).1.1) :: (lay q 0 0 [] x).1.2

/-! ## ASTs in memory -/

mutual
/-- The heap `H` holds what the pointers point to. -/
def inHeap (H : Nat → RVal) : RVal → Prop
  | .nil => True
  | .ptr a x => x = H a ∧ inHeap H x
  | .slice _ xs => inHeapVs H xs
  | .struct _ fs => inHeapFs H fs
  | .string _ => True
  | .other _ => True
def inHeapVs (H : Nat → RVal) : RVals → Prop
  | .nil => True
  | .cons x xs => inHeap H x ∧ inHeapVs H xs
def inHeapFs (H : Nat → RVal) : RFields → Prop
  | .nil => True
  | .cons _ x fs => inHeap H x ∧ inHeapFs H fs
end

/-- An AST in memory: the addresses are anything, but what is at an address is one thing. -/
def Image (n : Node) (t : RVal) : Prop := t.strip = n.rval ∧ ∃ H, inHeap H t

mutual
/-- The addresses of the pointers. -/
def addrs : RVal → List Nat
  | .nil => []
  | .ptr a x => a :: addrs x
  | .slice _ xs => addrsVs xs
  | .struct _ fs => addrsFs fs
  | .string _ => []
  | .other _ => []
def addrsVs : RVals → List Nat
  | .nil => []
  | .cons x xs => addrs x ++ addrsVs xs
def addrsFs : RFields → List Nat
  | .nil => []
  | .cons _ x fs => addrs x ++ addrsFs fs
end

/-- An AST in memory, every node of it at an address of its own. -/
def TreeImage (n : Node) (t : RVal) : Prop := t.strip = n.rval ∧ (addrs t).Nodup

/-! ## ASTs that a dump describes completely

Opcodes, variables, bindings and types are dumped without quotes. -/

/-- A text that cannot be mistaken for another kind of value. -/
def PlainText (s : Str) : Prop := '\n' ∉ s ∧ s.head? ≠ some '"' ∧ s.getLast? ≠ some '{' ∧ s.getLast? ≠ some '}' ∧ s.getLast? ≠ some ')'

/-- An operator: if it is not one of the known ones, it is written in a way of its own. -/
def TokClear : Tok → Prop
  | .other s => PlainText s ∧ ∀ t : Tok, t.str = s → t = .other s
  | _ => True

mutual
/-- Known kinds of nodes only, and no nil among the arguments of a call. -/
def GoClear : GoExpr → Prop
  | .nil => True
  | .ident _ _ => True
  | .basicLit _ _ _ => True
  | .paren _ x _ => GoClear x
  | .unary _ op x => TokClear op ∧ GoClear x
  | .binary x _ op y => GoClear x ∧ TokClear op ∧ GoClear y
  | .call f _ args _ _ => GoClear f ∧ GoClears args
  | .star _ x => GoClear x
  | .selector x _ _ => GoClear x
  | .other _ => False
def GoClears : List GoExpr → Prop
  | [] => True
  | e :: es => (e ≠ .nil ∧ GoClear e) ∧ GoClears es
end

def OptClear : Option GoExpr → Prop
  | none => True
  | some e => GoClear e

def PartClear : OpPart → Prop
  | .nil => False
  | .opcode s => PlainText s
  | .alt cs => ∀ c ∈ cs, PlainText c

def OpClear : Op → Prop
  | .nil => True
  | .opcode s => PlainText s
  | .parts ps => ∀ p ∈ ps, PartClear p

mutual
/-- No line break in a binding or a type; no nil among the arguments. -/
def ValueClear : Value → Prop
  | .nil => True
  | .sexpr h args => '\n' ∉ h.binding ∧ OpClear h.op ∧ '\n' ∉ h.type ∧ OptClear h.auxInt ∧ OptClear h.aux ∧ ValuesClear args
  | .expr e => GoClear e
  | .var v => PlainText v
def ValuesClear : List Value → Prop
  | [] => True
  | v :: vs => (v ≠ .nil ∧ ValueClear v) ∧ ValuesClear vs
end

def RuleClear (r : Rule) : Prop := ValueClear r.match ∧ OptClear r.condition ∧ ValueClear r.result

/-- (An opcode and a variable by themselves are not told apart.) -/
def NodeClear : Node → Prop
  | .nil => False
  | .file f => ∀ r ∈ f.rules, RuleClear r
  | .rule r => RuleClear r
  | .sexpr h args => ValueClear (.sexpr h args)
  | .opcode _ => False
  | .parts ps => ∀ p ∈ ps, PartClear p
  | .alt cs => ∀ c ∈ cs, PlainText c
  | .expr e => GoClear e
  | .var _ => False

/-! ## What can be unclear in an AST that the parser makes -/

mutual
/-- The operators in a Go expression. -/
def goToks : GoExpr → List Tok
  | .paren _ x _ => goToks x
  | .unary _ op x => op :: goToks x
  | .binary x _ op y => goToks x ++ op :: goToks y
  | .call f _ args _ _ => goToks f ++ goTokss args
  | .star _ x => goToks x
  | .selector x _ _ => goToks x
  | _ => []
def goTokss : List GoExpr → List Tok
  | [] => []
  | e :: es => goToks e ++ goTokss es
end

def optToks : Option GoExpr → List Tok
  | none => []
  | some e => goToks e

mutual
def valueToks : Value → List Tok
  | .sexpr h args => optToks h.auxInt ++ optToks h.aux ++ valuesToks args
  | .expr e => goToks e
  | _ => []
def valuesToks : List Value → List Tok
  | [] => []
  | v :: vs => valueToks v ++ valuesToks vs
end

/-- The Go operators in a rule. -/
def ruleToks (r : Rule) : List Tok := valueToks r.match ++ optToks r.condition ++ valueToks r.result

mutual
def valueTypes : Value → List Str
  | .sexpr h args => h.type :: valuesTypes args
  | _ => []
def valuesTypes : List Value → List Str
  | [] => []
  | v :: vs => valueTypes v ++ valuesTypes vs
end

/-- The types in a rule. -/
def ruleTypes (r : Rule) : List Str := valueTypes r.match ++ valueTypes r.result

/-! ## Declarations

The types whose values are in an AST, as ast/ast.go:14-79 and the package go/ast declare them: a pointer type by the name of the struct. -/

/-- What can be in a place. -/
inductive Alt where
  /-- a nil pointer, interface or slice -/
  | nil
  /-- text without quotes (a type with underlying type `string`, or `token.Token`) -/
  | text
  /-- a value of type `string` -/
  | quoted
  /-- a number -/
  | number
  /-- one of these words -/
  | word (ws : List Str)
  /-- a pointer to a struct of this type -/
  | ptr (type : Str)
  /-- a slice of this type -/
  | slice (type : Str)

/-- The interface `Expr` of go/ast. -/
def goTypes : List Alt :=
  [.nil, .ptr "ast.Ident".toList, .ptr "ast.BasicLit".toList, .ptr "ast.ParenExpr".toList, .ptr "ast.UnaryExpr".toList, .ptr "ast.BinaryExpr".toList, .ptr "ast.CallExpr".toList,
   .ptr "ast.StarExpr".toList, .ptr "ast.SelectorExpr".toList]
/-- The interface `Value`: S-expressions, Go expressions, variables. -/
def valueAlts : List Alt := [.nil, .ptr "ast.SExpr".toList, .ptr "ast.Expr".toList, .text]
/-- The interface `Op` -/
def opTypes : List Alt := [.nil, .text, .slice "ast.OpcodeParts".toList]
def optExpr : List Alt := [.nil, .ptr "ast.Expr".toList]
def boolWords : List Alt := [.word ["true".toList, "false".toList]]
def kindWords : List Alt := [.word ["INT".toList, "FLOAT".toList, "IMAG".toList, "CHAR".toList, "STRING".toList]]

/-- The structs and their fields. -/
def structDecls : List (Str × List (Str × List Alt)) :=
  [("ast.File".toList, [("Rules".toList, [.nil, .slice "[]*ast.Rule".toList])]),
   ("ast.Rule".toList, [("Match".toList, valueAlts), ("Condition".toList, optExpr), ("Block".toList, [.quoted]), ("Result".toList, valueAlts)]),
   ("ast.SExpr".toList, [("Binding".toList, [.text]), ("Op".toList, opTypes), ("Type".toList, [.text]), ("AuxInt".toList, optExpr), ("Aux".toList, optExpr),
     ("Args".toList, [.nil, .slice "[]ast.Value".toList]), ("Ellipsis".toList, boolWords), ("Trailing".toList, boolWords)]),
   ("ast.Expr".toList, [("Expr".toList, goTypes)]),
   ("ast.Ident".toList, [("NamePos".toList, [.number]), ("Name".toList, [.quoted]), ("Obj".toList, [.nil])]),
   ("ast.BasicLit".toList, [("ValuePos".toList, [.number]), ("Kind".toList, kindWords), ("Value".toList, [.quoted])]),
   ("ast.ParenExpr".toList, [("Lparen".toList, [.number]), ("X".toList, goTypes), ("Rparen".toList, [.number])]),
   ("ast.UnaryExpr".toList, [("OpPos".toList, [.number]), ("Op".toList, [.text]), ("X".toList, goTypes)]),
   ("ast.BinaryExpr".toList, [("X".toList, goTypes), ("OpPos".toList, [.number]), ("Op".toList, [.text]), ("Y".toList, goTypes)]),
   ("ast.CallExpr".toList, [("Fun".toList, goTypes), ("Lparen".toList, [.number]), ("Args".toList, [.nil, .slice "[]ast.Expr".toList]), ("Ellipsis".toList, [.number]),
     ("Rparen".toList, [.number])]),
   ("ast.StarExpr".toList, [("Star".toList, [.number]), ("X".toList, goTypes)]),
   ("ast.SelectorExpr".toList, [("X".toList, goTypes), ("Sel".toList, [.ptr "ast.Ident".toList])])]

/-- The slices and their elements. -/
def sliceDecls : List (Str × List Alt) :=
  [("[]*ast.Rule".toList, [.ptr "ast.Rule".toList]), ("[]ast.Value".toList, valueAlts), ("[]ast.Expr".toList, goTypes),
   ("ast.OpcodeParts".toList, [.text, .slice "ast.OpcodeAlt".toList]), ("ast.OpcodeAlt".toList, [.text])]

/-- The interface `Node`, except for nil, variables and opcodes. -/
def nodeTypes : List Alt :=
  [.ptr "ast.File".toList, .ptr "ast.Rule".toList, .ptr "ast.SExpr".toList, .ptr "ast.Expr".toList, .slice "ast.OpcodeParts".toList, .slice "ast.OpcodeAlt".toList]

mutual
/-- The value, and everything in it, is of the declared types. -/
def Fits : List Alt → RVal → Prop
  | alts, .nil => .nil ∈ alts
  | alts, .ptr _ (.struct t fs) => .ptr t ∈ alts ∧ ∃ decl, (t, decl) ∈ structDecls ∧ FitsFields decl fs
  | _, .ptr _ _ => False
  | alts, .slice t xs => .slice t ∈ alts ∧ ∃ elem, (t, elem) ∈ sliceDecls ∧ FitsAll elem xs
  | _, .struct _ _ => False
  | alts, .string _ => .quoted ∈ alts
  | alts, .other s => .text ∈ alts ∨ (.number ∈ alts ∧ ∃ n, s = natStr n) ∨ ∃ ws, .word ws ∈ alts ∧ s ∈ ws
def FitsAll : List Alt → RVals → Prop
  | _, .nil => True
  | elem, .cons x xs => Fits elem x ∧ FitsAll elem xs
/-- All the fields, and in this order. -/
def FitsFields : List (Str × List Alt) → RFields → Prop
  | [], .nil => True
  | (n, alts) :: decl, .cons m x fs => n = m ∧ Fits alts x ∧ FitsFields decl fs
  | _, _ => False
end

/-! ## String literals -/

/-- The hexadecimal digits. -/
def hexLetters : List Char := ['0', '1', '2', '3', '4', '5', '6', '7', '8', '9', 'a', 'b', 'c', 'd', 'e', 'f']

/-- The digits are those of the number. -/
inductive HexOf : Str → Nat → Prop
  | nil : HexOf [] 0
  | snoc {ds n d c} : HexOf ds n → hexLetters[d]? = some c → HexOf (ds ++ [c]) (16 * n + d)

/-- The escapes of one letter (Go specification, "Rune literals"). -/
def letterEscapes : List (Nat × Char) := [(7, 'a'), (8, 'b'), (9, 't'), (10, 'n'), (11, 'v'), (12, 'f'), (13, 'r'), (34, '"'), (92, '\\')]

/-- `Denotes t c`: in a string literal of Go, the text `t` stands for the character `c` (Go specification, "String literals"). -/
inductive Denotes : Str → Char → Prop
  | plain {c} : c ≠ '"' → c ≠ '\\' → c ≠ '\n' → Denotes [c] c
  | letter {c d} : (c.toNat, d) ∈ letterEscapes → Denotes ['\\', d] c
  | x {ds c} : HexOf ds c.toNat → ds.length = 2 → c.toNat < 128 → Denotes ('\\' :: 'x' :: ds) c
  | u {ds c} : HexOf ds c.toNat → ds.length = 4 → Denotes ('\\' :: 'u' :: ds) c
  | U {ds c} : HexOf ds c.toNat → ds.length = 8 → Denotes ('\\' :: 'U' :: ds) c

/-- The inside of a literal. -/
inductive Inside : Str → Str → Prop
  | nil : Inside [] []
  | cons {t c ts s} : Denotes t c → Inside ts s → Inside (t ++ ts) (c :: s)

/-- `t` is a string literal of Go for the string `s`. -/
def StringLiteral (t s : Str) : Prop := ∃ ts, Inside ts s ∧ t = '"' :: ts ++ ['"']

end Verif.Spec

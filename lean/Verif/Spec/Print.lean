import Verif.Model.Printer
import Verif.Spec.Operators
/-!
# Specification of the printed form

`show…` is the printed text as a plain function of the node; `…Printable` says which nodes can be printed.
-/
namespace Verif.Spec

open Verif

mutual
/-- A Go expression made of the eight supported node kinds only (positions are irrelevant). -/
def goSupported : GoExpr → Bool
  | .ident .. => true
  | .basicLit .. => true
  | .paren _ x _ => goSupported x
  | .unary _ _ x => goSupported x
  | .binary x _ _ y => goSupported x && goSupported y
  | .call fn _ args _ _ => goSupported fn && goSupporteds args
  | .star _ x => goSupported x
  | .selector x _ _ => goSupported x
  | .other _ => false
  | .nil => false
def goSupporteds : List GoExpr → Bool
  | [] => true
  | e :: es => goSupported e && goSupporteds es
end

/-- An optional Go expression is absent or supported. -/
def goSupportedOpt : Option GoExpr → Bool
  | none => true
  | some e => goSupported e

/-- No nil opcode or opcode part. -/
def opPrintable : Op → Bool
  | .opcode _ => true
  | .parts ps => ps.all fun p => p != .nil
  | .nil => false

mutual
/-- No nil value, opcode or opcode part anywhere, and all Go expressions supported. -/
def valuePrintable : Value → Bool
  | .sexpr h args => opPrintable h.op && goSupportedOpt h.auxInt && goSupportedOpt h.aux && valuesPrintable args
  | .expr e => goSupported e
  | .var _ => true
  | .nil => false
def valuesPrintable : List Value → Bool
  | [] => true
  | v :: vs => valuePrintable v && valuesPrintable vs
end

def rulePrintable (r : Rule) : Bool :=
  valuePrintable r.match && goSupportedOpt r.condition && valuePrintable r.result

/-- Which nodes can be printed (an alternation by itself cannot). -/
def printable : Node → Bool
  | .file f => f.rules.all rulePrintable
  | .rule r => rulePrintable r
  | .sexpr h args => valuePrintable (.sexpr h args)
  | .opcode _ => true
  | .parts ps => opPrintable (.parts ps)
  | .alt _ => false
  | .expr e => goSupported e
  | .var _ => true
  | .nil => false

/-! ## What cannot be printed: the Go types (as `%T` writes them) of the nodes without a printed form, in the order in which they would be printed -/

mutual
def badGo : GoExpr → List Str
  | .ident .. => []
  | .basicLit .. => []
  | .paren _ x _ => badGo x
  | .unary _ _ x => badGo x
  | .binary x _ _ y => badGo x ++ badGo y
  | .call fn _ args _ _ => badGo fn ++ badGos args
  | .star _ x => badGo x
  | .selector x _ _ => badGo x
  | .other k => ["*ast.".toList ++ k]
  | .nil => ["<nil>".toList]
def badGos : List GoExpr → List Str
  | [] => []
  | e :: es => badGo e ++ badGos es
end

def badGoOpt : Option GoExpr → List Str
  | none => []
  | some e => badGo e

def badOp : Op → List Str
  | .opcode _ => []
  | .parts ps => ps.flatMap fun p => if p = .nil then ["<nil>".toList] else []
  | .nil => ["<nil>".toList]

mutual
def badValue : Value → List Str
  | .sexpr h args => badOp h.op ++ badGoOpt h.auxInt ++ badGoOpt h.aux ++ badValues args
  | .expr e => badGo e
  | .var _ => []
  | .nil => ["<nil>".toList]
def badValues : List Value → List Str
  | [] => []
  | v :: vs => badValue v ++ badValues vs
end

def badRule (r : Rule) : List Str := badValue r.match ++ badGoOpt r.condition ++ badValue r.result

def badNode : Node → List Str
  | .file f => f.rules.flatMap badRule
  | .rule r => badRule r
  | .sexpr h args => badValue (.sexpr h args)
  | .opcode _ => []
  | .parts ps => badOp (.parts ps)
  | .alt _ => ["ast.OpcodeAlt".toList]
  | .expr e => badGo e
  | .var _ => []
  | .nil => ["<nil>".toList]

/-- Text of a binary operator: operators binding less tightly than `+` are surrounded by blanks. -/
def showBinOp (op : Tok) : Str := if op.level < 4 then ' ' :: op.str ++ [' '] else op.str

mutual
/-- Printed form of a Go expression. -/
def showGo : GoExpr → Str
  | .ident _ name => name
  | .basicLit _ _ v => v
  | .paren _ x _ => '(' :: showGo x ++ [')']
  | .unary _ op x => op.str ++ showGo x
  | .binary x _ op y => showGo x ++ showBinOp op ++ showGo y
  | .call fn _ args _ _ => showGo fn ++ '(' :: showGoArgs args ++ [')']
  | .star _ x => '*' :: showGo x
  | .selector x _ sel => showGo x ++ '.' :: sel
  | .other _ => []
  | .nil => []
/-- Call arguments separated by `", "`. -/
def showGoArgs : List GoExpr → Str
  | [] => []
  | e :: es => showGo e ++ showGoArgsTail es
def showGoArgsTail : List GoExpr → Str
  | [] => []
  | e :: es => ',' :: ' ' :: showGo e ++ showGoArgsTail es
end

/-- `(a|b|c)` -/
def showAlt : List Str → Str
  | [] => [')']
  | c :: cs => '(' :: c ++ cs.flatMap (fun c => '|' :: c) ++ [')']

def showPart : OpPart → Str
  | .opcode s => s
  | .alt cs => showAlt cs
  | .nil => []

def showOp : Op → Str
  | .opcode s => s
  | .parts ps => ps.flatMap showPart
  | .nil => []

/-- `binding:` -/
def showBinding (b : Str) : Str := if b = [] then [] else b ++ [':']
/-- ` <type>` -/
def showType (t : Str) : Str := if t = [] then [] else ' ' :: '<' :: t ++ ['>']
/-- ` [auxint]` -/
def showAuxInt : Option GoExpr → Str
  | none => []
  | some e => ' ' :: '[' :: showGo e ++ [']']
/-- ` {aux}` -/
def showAux : Option GoExpr → Str
  | none => []
  | some e => ' ' :: '{' :: showGo e ++ ['}']

mutual
/-- Printed form of a value. -/
def showValue : Value → Str
  | .sexpr h args =>
    showBinding h.binding ++ '(' :: showOp h.op ++ showType h.type ++ showAuxInt h.auxInt ++ showAux h.aux ++
      showArgs args ++ (if h.ellipsis then " ...".toList else []) ++ (if h.trailing then " ___".toList else []) ++ [')']
  | .expr e => showGo e
  | .var v => v
  | .nil => []
/-- Arguments, each preceded by a blank. -/
def showArgs : List Value → Str
  | [] => []
  | v :: vs => ' ' :: showValue v ++ showArgs vs
end

/-- ` && condition` -/
def showCond : Option GoExpr → Str
  | none => []
  | some e => ' ' :: '&' :: '&' :: ' ' :: showGo e
/-- `@block ` -/
def showBlock (b : Str) : Str := if b = [] then [] else '@' :: b ++ [' ']

/-- Printed form of a rule. -/
def showRule (r : Rule) : Str :=
  showValue r.match ++ showCond r.condition ++ ' ' :: '=' :: '>' :: ' ' :: showBlock r.block ++ showValue r.result

/-- Printed form of a node. -/
def showNode : Node → Str
  | .file f => f.rules.flatMap fun r => showRule r ++ ['\n']
  | .rule r => showRule r
  | .sexpr h args => showValue (.sexpr h args)
  | .opcode s => s
  | .parts ps => showOp (.parts ps)
  | .alt _ => []
  | .expr e => showGo e
  | .var v => v
  | .nil => []

/-- A writer that records every text it is given and whose answer (success or an error) may depend on all of them. -/
def recorder (ans : List Str → Option Err) : Writer (List Str) where
  write log s := (log ++ [s], ans (log ++ [s]))

end Verif.Spec

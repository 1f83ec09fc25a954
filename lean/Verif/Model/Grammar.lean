import Verif.Model.Peg
/-!
# Model of the grammar table and the semantic actions of parse/internal/parser/zparser.go

`pigeon -optimize-grammar` has inlined the small rules (`_`, `__`, `Skip`, `Ident`, …) into the table; here each inlined copy is a
reference to one definition.
-/
namespace Verif

/-- The inlined `Skip` (e.g. zparser.go:49-87): `"//" [^\n]* "\n"` or one of blank, tab, CR, LF. -/
def gSkip : PExpr :=
  .choice [.seq [.lit ['/', '/'], .zeroOrMore (.cls ['\n'] [] true), .lit ['\n']], .cls [' ', '\t', '\r', '\n'] [] false]

/-- `_` (e.g. zparser.go:47-88). -/
def g_ : PExpr := .zeroOrMore gSkip

/-- `__` (e.g. zparser.go:174-215). -/
def g__ : PExpr := .oneOrMore gSkip

/-- `[_a-zA-Z0-9]` (e.g. zparser.go:528-535). -/
def gWord : PExpr := .cls ['_'] [('a', 'z'), ('A', 'Z'), ('0', '9')] false

/-- `[a-z]` (e.g. zparser.go:519-525). -/
def gLower : PExpr := .cls [] [('a', 'z')] false

/-- The inlined `Ident` (e.g. zparser.go:516-538). -/
def gIdent : PExpr := .seq [gLower, .zeroOrMore gWord]

/-- The inlined `OpPart` without its action (e.g. zparser.go:615-625). -/
def gOpPart : PExpr := .oneOrMore gWord

/-- The inlined `OpAlt` (zparser.go:627-699). -/
def gOpAlt : PExpr :=
  .action .onSExpr29 (.seq [.lit ['('], .labeled .first (.action .onSExpr33 gOpPart),
    .labeled .rest (.oneOrMore (.seq [.lit ['|'], .action .onSExpr40 gOpPart])), .lit [')']])

/-- The inlined `Op` (zparser.go:601-704). -/
def gOp : PExpr :=
  .action .onSExpr22 (.labeled .parts (.oneOrMore (.choice [.action .onSExpr26 gOpPart, gOpAlt])))

/-- The inlined `Condition` (zparser.go:264-287). -/
def gCondition : PExpr := .action .onRule25 (.oneOrMore (.seq [.any, .not (.lit ['=', '>'])]))

/-- The inlined `Block` (zparser.go:387-422). -/
def gBlock : PExpr :=
  .action .onRule50 (.seq [.lit ['@'], .oneOrMore (.seq [.not (.cls [' ', '\t', '\r'] [] false), .any])])

/-- `File` (zparser.go:30-148). -/
def gFile : PExpr :=
  .action .onFile1 (.seq [.labeled .rs (.zeroOrMore (.seq [g_, .ruleRef .Rule, g_])), .not .any])

/-- `Rule` (zparser.go:149-478). -/
def gRule : PExpr :=
  .action .onRule1 (.seq [.labeled .m (.ruleRef .Value),
    .labeled .cond (.zeroOrOne (.seq [g__, .lit ['&', '&'], g__, gCondition])),
    g_, .lit ['=', '>'], g_, .labeled .block (.zeroOrOne gBlock), g_, .labeled .r (.ruleRef .Value)])

/-- `Value` (zparser.go:479-495). -/
def gValue : PExpr := .choice [.ruleRef .SExpr, .ruleRef .Expr]

/-- `SExpr` (zparser.go:496-935). -/
def gSExpr : PExpr :=
  .action .onSExpr1 (.seq [
    .labeled .binding (.zeroOrOne (.seq [.action .onSExpr6 gIdent, .lit [':']])),
    .lit ['('], g_, .labeled .op gOp,
    .labeled .operands (.zeroOrMore (.seq [g__, .ruleRef .Operand])),
    .labeled .ellipsis (.zeroOrOne (.seq [g__, .lit ['.', '.', '.']])),
    .labeled .trailing (.zeroOrOne (.seq [g__, .lit ['_', '_', '_']])),
    g_, .lit [')']])

/-- The inlined `Type` (zparser.go:942-972). -/
def gType : PExpr := .action .onOperand2 (.seq [.lit ['<'], .oneOrMore (.cls ['>'] [] true), .lit ['>']])

/-- The inlined `AuxInt` (zparser.go:973-1003). -/
def gAuxInt : PExpr := .action .onOperand8 (.seq [.lit ['['], .oneOrMore (.cls [']'] [] true), .lit [']']])

/-- The inlined `Aux` (zparser.go:1004-1034). -/
def gAux : PExpr := .action .onOperand14 (.seq [.lit ['{'], .oneOrMore (.cls ['}'] [] true), .lit ['}']])

/-- `Operand` (zparser.go:936-1041). -/
def gOperand : PExpr := .choice [gType, gAuxInt, gAux, .ruleRef .Value]

/-- `Expr` (zparser.go:1042-1105). -/
def gExpr : PExpr :=
  .choice [.ruleRef .Call, .action .onExpr3 gIdent, .action .onExpr8 (.seq [.lit ['_'], .not (.lit ['_'])])]

/-- `Call` (zparser.go:1106-1380). -/
def gCall : PExpr :=
  .action .onCall1 (.seq [gLower, .zeroOrMore gWord, .lit ['('], g_, .ruleRef .Expr,
    .zeroOrMore (.seq [g_, .lit [','], g_, .ruleRef .Expr, g_]), g_, .lit [')']])

/-- `g.rules` (zparser.go:28-1382). -/
def gRules : RuleName → PExpr
  | .File => gFile
  | .Rule => gRule
  | .Value => gValue
  | .SExpr => gSExpr
  | .Operand => gOperand
  | .Expr => gExpr
  | .Call => gCall

/-- The type assertion `x.(ast.Value)`; `none` is a panic. (zparser.go:1430-1431) -/
def Dyn.asValue : Dyn → Option Value
  | .variable s => some (.var s)
  | .expr e => some (.expr e)
  | .sexpr h args => some (.sexpr h args)
  | _ => none

/-- The type assertion `x.([]interface{})`. (zparser.go:1386-1387, 1435, 1493-1494, 1508, 1535, 1538-1539) -/
def Dyn.asList : Dyn → Option (List Dyn)
  | .list vs => some vs
  | _ => none

/-- The type assertion `x.(ast.Opcode)`. (zparser.go:1492, 1494, 1516) -/
def Dyn.asOpcode : Dyn → Option Str
  | .opcode s => some s
  | _ => none

/-- The type assertion `x.(ast.OpPart)`. (zparser.go:1509) -/
def Dyn.asOpPart : Dyn → Option OpPart
  | .opcode s => some (.opcode s)
  | .opcodeAlt cs => some (.alt cs)
  | _ => none

/-- The type assertion `x.(ast.Op)`. (zparser.go:1531) -/
def Dyn.asOp : Dyn → Option Op
  | .opcode s => some (.opcode s)
  | .opcodeParts ps => some (.parts ps)
  | _ => none

/-- The type assertion `x.(*ast.Expr)`. (zparser.go:1435) -/
def Dyn.asExpr : Dyn → Option GoExpr
  | .expr e => some e
  | _ => none

/-- The type assertion `x.(*ast.Rule)`. (zparser.go:1387) -/
def Dyn.asRule : Dyn → Option Rule
  | .rule r => some r
  | _ => none

/-- The type assertion `x.(ast.Variable)`. (zparser.go:1535) -/
def Dyn.asVariable : Dyn → Option Str
  | .variable s => some s
  | _ => none

/-- The type assertion `x.(string)`. (zparser.go:1439) -/
def Dyn.asString : Dyn → Option Str
  | .str s => some s
  | _ => none

/-- A computation that may panic, as the body of an action. (the actions at zparser.go:1384-1560) -/
def orPanic : Option Dyn → ActOut
  | some v => .ok v
  | none => .panic

/-- `i.([]interface{})[k]`: panics if `i` is not a slice or is too short. (zparser.go:1387, 1435, 1494, 1535, 1539) -/
def Dyn.index (d : Dyn) (k : Nat) : Option Dyn := d.asList.bind (·[k]?)

/-- `onFile1` (zparser.go:1384-1391). -/
def onFile1 (rs : Dyn) : ActOut := orPanic do
  let l ← rs.asList
  let rules ← l.mapM fun i => do (← i.index 1).asRule
  some (.file { rules })

/-- `unicode.IsSpace`, which `strings.TrimSpace` uses (zparser.go:1402). -/
def isSpace (c : Char) : Bool :=
  let n := c.toNat
  (9 ≤ n && n ≤ 13) || n == 32 || n == 0x85 || n == 0xA0 || n == 0x1680 || (0x2000 ≤ n && n ≤ 0x200A) ||
    n == 0x2028 || n == 0x2029 || n == 0x202F || n == 0x205F || n == 0x3000

/-- `strings.TrimSpace` (zparser.go:1402). -/
def trimSpace (s : Str) : Str := ((s.dropWhile isSpace).reverse.dropWhile isSpace).reverse

/-- `strings.ReplaceAll(x, "\n", " ")` (zparser.go:1401). -/
def nlToBlank (s : Str) : Str := s.map fun c => if c = '\n' then ' ' else c

/-- The text `onRule25` hands to `goexpr.Parse` (zparser.go:1400-1402). -/
def conditionText (text : Str) : Str := trimSpace (nlToBlank text)

/-- The actions that parse a Go expression (zparser.go:1404-1409, 1584-1588, 1600-1604, 1634-1638). -/
def viaGo (lib : GoLib) (x : Str) (wrap : GoExpr → Dyn) : ActOut :=
  match goexprParse lib x with
  | .ok e => .ok (wrap e)
  | .err e => .err e
  | .panic => .panic

/-- `onRule1` (zparser.go:1428-1443). -/
def onRule1 (m cond block r : Dyn) : ActOut := orPanic do
  let m' ← m.asValue
  let r' ← r.asValue
  let c ← match cond with
    | .nil => some none
    | d => do some (some (← (← d.index 3).asExpr))
  let b ← match block with
    | .nil => some []
    | d => d.asString
  some (.rule { «match» := m', condition := c, block := b, result := r' })

/-- `onSExpr29` (zparser.go:1491-1498). -/
def onSExpr29 (first rest : Dyn) : ActOut := orPanic do
  let f ← first.asOpcode
  let l ← rest.asList
  let cs ← l.mapM fun is => do (← is.index 1).asOpcode
  some (.opcodeAlt (f :: cs))

/-- `onSExpr22` (zparser.go:1506-1521). -/
def onSExpr22 (parts : Dyn) : ActOut := orPanic do
  let l ← parts.asList
  let op ← l.mapM Dyn.asOpPart
  match op with
  | [.opcode s] => some (.opcode s)
  | _ => some (.opcodeParts op)

/-- The loop over `operands` in `onSExpr1` (zparser.go:1538-1551): outer `none` is a panic, inner `none` the error "unknown operand". -/
def sexprOperands : List Dyn → Hdr → List Value → Option (Option (Hdr × List Value))
  | [], h, args => some (some (h, args))
  | is :: rest, h, args => do
    match ← is.index 1 with
    | .type t => sexprOperands rest { h with type := t } args
    | .auxint e => sexprOperands rest { h with auxInt := some e } args
    | .aux e => sexprOperands rest { h with aux := some e } args
    | d =>
      match d.asValue with
      | some v => sexprOperands rest h (args ++ [v])
      | none => some none

/-- `onSExpr1` (zparser.go:1529-1562). -/
def onSExpr1 (binding op operands ellipsis trailing : Dyn) : ActOut :=
  let body : Option (Option Dyn) := do
    let o ← op.asOp
    let b ← match binding with
      | .nil => some []
      | d => do (← d.index 0).asVariable
    let l ← operands.asList
    match ← sexprOperands l { binding := b, op := o } [] with
    | none => some none
    | some (h, args) =>
      let e := match ellipsis with | .nil => false | _ => true
      let t := match trailing with | .nil => false | _ => true
      some (some (.sexpr { h with ellipsis := e, trailing := t } args))
  match body with
  | none => .panic
  | some none => .err (.other "unknown operand".toList)
  | some (some v) => .ok v

/-- `c.text[1 : n-1]` (zparser.go:1572, 1583, 1599): without the first and last byte, which the grammar makes one-byte delimiters. -/
def inner (text : Str) : Str := text.tail.dropLast

/-- The semantic actions (zparser.go:1384-1645). -/
def gAct (lib : GoLib) : Act → Frame → Str → ActOut
  | .onFile1, fr, _ => onFile1 (fr .rs)
  | .onRule25, _, text => viaGo lib (conditionText text) .expr
  | .onRule50, _, text => .ok (.str text.tail) -- zparser.go:1418-1420
  | .onRule1, fr, _ => onRule1 (fr .m) (fr .cond) (fr .block) (fr .r)
  | .onSExpr6, _, text => .ok (.variable text) -- zparser.go:1451-1453
  | .onSExpr26, _, text => .ok (.opcode text) -- zparser.go:1461-1463
  | .onSExpr33, _, text => .ok (.opcode text) -- zparser.go:1471-1473
  | .onSExpr40, _, text => .ok (.opcode text) -- zparser.go:1481-1483
  | .onSExpr29, fr, _ => onSExpr29 (fr .first) (fr .rest)
  | .onSExpr22, fr, _ => onSExpr22 (fr .parts)
  | .onSExpr1, fr, _ => onSExpr1 (fr .binding) (fr .op) (fr .operands) (fr .ellipsis) (fr .trailing)
  | .onOperand2, _, text => .ok (.type (inner text)) -- zparser.go:1570-1573
  | .onOperand8, _, text => viaGo lib (inner text) .auxint -- zparser.go:1581-1589
  | .onOperand14, _, text => viaGo lib (inner text) .aux -- zparser.go:1597-1605
  | .onExpr3, _, text => .ok (.variable text) -- zparser.go:1613-1615
  | .onExpr8, _, _ => .ok (.variable placeholder) -- zparser.go:1623-1625
  | .onCall1, _, text => viaGo lib text .expr -- zparser.go:1633-1639

/-- Which text each action hands to `goexpr.Parse` (bookkeeping for `St.asked`). (zparser.go:1404, 1584, 1600, 1634) -/
def gAsks : Act → Str → Option Str
  | .onRule25, text => some (conditionText text)
  | .onOperand8, text => some (inner text)
  | .onOperand14, text => some (inner text)
  | .onCall1, text => some text
  | _, _ => none

/-- The grammar `g` with its actions. (zparser.go:28-1382) -/
def ruleGrammar (lib : GoLib) : Grammar where
  rules := gRules
  act := gAct lib
  asks := gAsks

end Verif

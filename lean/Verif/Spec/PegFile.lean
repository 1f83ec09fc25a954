import Verif.Spec.PegSem
/-!
# Specification: reading parse/rules.peg

A reader for grammar files in the notation of pigeon, and the text of parse/rules.peg.  Labels, actions and comments are skipped.
-/
namespace Verif.Spec.Peg

/-- The name of a rule in the file. -/
def NT.name : NT → String
  | .File => "File" | .Rule => "Rule" | .Value => "Value" | .SExpr => "SExpr" | .Op => "Op" | .OpPart => "OpPart" | .OpAlt => "OpAlt"
  | .Operand => "Operand" | .Type => "Type" | .AuxInt => "AuxInt" | .Aux => "Aux" | .Expr => "Expr" | .Call => "Call" | .Variable => "Variable"
  | .Placeholder => "Placeholder" | .Ident => "Ident" | .Condition => "Condition" | .Block => "Block" | .skips => "__" | .skip0 => "_" | .Skip => "Skip"
  | .Comment => "Comment" | .Whitespace => "Whitespace" | .EOL => "EOL" | .EOF => "EOF"

def NT.all : List NT :=
  [.File, .Rule, .Value, .SExpr, .Op, .OpPart, .OpAlt, .Operand, .Type, .AuxInt, .Aux, .Expr, .Call, .Variable, .Placeholder, .Ident, .Condition, .Block,
   .skips, .skip0, .Skip, .Comment, .Whitespace, .EOL, .EOF]

/-- The rule of that name. -/
def ruleOf (name : List Char) : Option NT := NT.all.find? fun x => x.name.toList == name

inductive Token where
  | word (name : List Char)
  | quoted (text : List Char)
  | bracketed (text : List Char)
  | arrow
  | sign (c : Char)
  deriving DecidableEq, Repr

/-- A character after a backslash. -/
def escaped : Char → Char
  | 'n' => '\n' | 't' => '\t' | 'r' => '\r' | c => c

/-- Text up to the closing character, and what follows. -/
def upTo (close : Char) : List Char → List Char × List Char
  | '\\' :: c :: l => let p := upTo close l; (escaped c :: p.1, p.2)
  | c :: l => if c = close then ([], l) else let p := upTo close l; (c :: p.1, p.2)
  | [] => ([], [])

/-- What follows a block in braces; the first argument is the number of open braces. -/
def afterBlock : Nat → List Char → List Char
  | n, '{' :: l => afterBlock (n + 1) l
  | n, '}' :: l => if n = 1 then l else afterBlock (n - 1) l
  | n, _ :: l => afterBlock n l
  | _, [] => []

def wordChar (c : Char) : Bool := c.isAlphanum || c == '_'

/-- The tokens of a grammar file; the first argument bounds their number. -/
def tokens : Nat → List Char → List Token
  | 0, _ => []
  | _, [] => []
  | n + 1, '/' :: '/' :: l => tokens n (l.dropWhile (· != '\n'))
  | n + 1, '<' :: '-' :: l => .arrow :: tokens n l
  | n + 1, '{' :: l => tokens n (afterBlock 1 l)
  | n + 1, c :: l =>
    if c.isWhitespace then tokens n l
    else if wordChar c then .word (c :: l.takeWhile wordChar) :: tokens n (l.dropWhile wordChar)
    else if c = '"' ∨ c = '\'' then let p := upTo c l; .quoted p.1 :: tokens n p.2
    else if c = '[' then let p := upTo ']' l; .bracketed p.1 :: tokens n p.2
    else .sign c :: tokens n l

/-- The characters and ranges of a class. -/
def classItems : List Char → List Char × List (Char × Char)
  | a :: '-' :: b :: l => let p := classItems l; (p.1, (a, b) :: p.2)
  | a :: l => let p := classItems l; (a :: p.1, p.2)
  | [] => ([], [])

/-- A class without its brackets. -/
def classExp : List Char → Exp
  | '^' :: l => let p := classItems l; .cls true p.1 p.2
  | l => let p := classItems l; .cls false p.1 p.2

/-- One expression stands for itself. -/
def seqOf : List Exp → Exp
  | [e] => e
  | es => .seq es

def choiceOf : List Exp → Exp
  | [e] => e
  | es => .choice es

/-- The signs after an expression. -/
def suffix (e : Exp) : List Token → Exp × List Token
  | .sign '*' :: l => (.star e, l)
  | .sign '+' :: l => (.plus e, l)
  | .sign '?' :: l => (.opt e, l)
  | l => (e, l)

mutual
/-- `e1 / e2 / …` -/
def readChoice : Nat → List Token → Option (List Exp × List Token)
  | 0, _ => none
  | n + 1, l => do
    let (es, l) ← readSeq n l
    match l with
    | .sign '/' :: l => let (more, l) ← readChoice n l; return (seqOf es :: more, l)
    | l => return ([seqOf es], l)
/-- `e1 e2 …`, up to something else, in particular the next definition -/
def readSeq : Nat → List Token → Option (List Exp × List Token)
  | 0, _ => none
  | _ + 1, [] => some ([], [])
  | n + 1, .word x :: .arrow :: l => some ([], .word x :: .arrow :: l)
  | n + 1, .sign c :: l =>
    if c = '/' ∨ c = ')' then some ([], .sign c :: l)
    else do
      let (e, l) ← readItem n (.sign c :: l)
      let (es, l) ← readSeq n l
      return (e :: es, l)
  | n + 1, l => do
    let (e, l) ← readItem n l
    let (es, l) ← readSeq n l
    return (e :: es, l)
/-- one of them, perhaps with a label -/
def readItem : Nat → List Token → Option (Exp × List Token)
  | 0, _ => none
  | n + 1, .word _ :: .sign ':' :: l => readItem n l
  | n + 1, .sign '!' :: l => do
    let (e, l) ← readItem n l
    return (.not e, l)
  | n + 1, .sign '(' :: l => do
    let (es, l) ← readChoice n l
    match l with
    | .sign ')' :: l => return suffix (choiceOf es) l
    | _ => none
  | _ + 1, .sign '.' :: l => some (suffix .any l)
  | _ + 1, .word x :: l => do
    let r ← ruleOf x
    return suffix (.nt r) l
  | _ + 1, .quoted t :: l => some (suffix (.lit t) l)
  | _ + 1, .bracketed t :: l => some (suffix (classExp t) l)
  | _ + 1, _ => none
end

/-- The definitions of a grammar file. -/
def readDefs : Nat → List Token → Option (List (NT × Exp))
  | 0, _ => none
  | _ + 1, [] => some []
  | n + 1, .word x :: .arrow :: l => do
    let r ← ruleOf x
    let (es, l) ← readChoice n l
    let defs ← readDefs n l
    return (r, choiceOf es) :: defs
  | _ + 1, _ => none

/-- The definitions of a grammar file, given by its lines. -/
def readGrammar (lines : List String) : Option (List (NT × Exp)) :=
  let l := lines.flatMap fun s => s.toList ++ ['\n']
  let ts := tokens l.length l
  readDefs (2 * ts.length + 2) ts

/-- The lines of parse/rules.peg. -/
def rulesPeg : List String := [
  "{",
  "",
  "package parser",
  "",
  "import (",
  "    goast \"go/ast\"",
  "    goparser \"go/parser\"",
  ")",
  "",
  "type (",
  "    valueauxint ast.Expr",
  "    valueaux ast.Expr",
  ")",
  "",
  "}",
  "",
  "// File",
  "",
  "File <- rs:( _ Rule _ )* EOF {",
  "    f := &ast.File{}",
  "    for _, i := range rs.([]interface{}) {",
  "        r := i.([]interface{})[1].(*ast.Rule)",
  "        f.Rules = append(f.Rules, r)",
  "    }",
  "    return f, nil",
  "}",
  "",
  "// Rule",
  "",
  "Rule <- m:Value cond:( __ \"&&\" __ Condition)? _ \"=>\" _ block:Block? _ r:Value {",
  "    rule := &ast.Rule{",
  "        Match: m.(ast.Value),",
  "        Result: r.(ast.Value),",
  "    }",
  "",
  "    if cond != nil {",
  "         rule.Condition = cond.([]interface{})[3].(*ast.Expr)",
  "    }",
  "",
  "    if block != nil {",
  "        rule.Block = block.(string)",
  "    }",
  "",
  "    return rule, nil",
  "}",
  "",
  "Value <- SExpr / Expr",
  "",
  "SExpr <- binding:( Variable ':' )? '(' _ op:Op operands:( __ Operand )* ellipsis:( __ \"...\")? trailing:( __ \"___\" )? _ ')' {",
  "    s := &ast.SExpr{",
  "        Op: op.(ast.Op),",
  "    }",
  "",
  "    if binding != nil {",
  "        s.Binding = binding.([]interface{})[0].(ast.Variable)",
  "    }",
  "",
  "    for _, is := range operands.([]interface{}) {",
  "        switch operand := is.([]interface{})[1].(type) {",
  "        case ast.Type:",
  "            s.Type = operand",
  "        case *valueauxint:",
  "            s.AuxInt = (*ast.Expr)(operand)",
  "        case *valueaux:",
  "            s.Aux = (*ast.Expr)(operand)",
  "        case ast.Value:",
  "            s.Args = append(s.Args, operand)",
  "        default:",
  "            return nil, errors.New(\"unknown operand\")",
  "        }",
  "    }",
  "",
  "    if ellipsis != nil {",
  "        s.Ellipsis = true",
  "    }",
  "",
  "    if trailing != nil {",
  "        s.Trailing = true",
  "    }",
  "",
  "    return s, nil",
  "}",
  "",
  "// Op",
  "",
  "Op <- parts:( OpPart / OpAlt )+ {",
  "    var op ast.OpcodeParts",
  "    for _, i := range parts.([]interface{}) {",
  "        op = append(op, i.(ast.OpPart))",
  "    }",
  "",
  "    if len(op) != 1 {",
  "        return op, nil",
  "    }",
  "",
  "    if _, ok := op[0].(ast.Opcode); ok {",
  "        return op[0], nil",
  "    }",
  "",
  "    return op, nil",
  "}",
  "",
  "OpPart <- [_a-zA-Z0-9]+ {",
  "    return ast.Opcode(c.text), nil",
  "}",
  "",
  "OpAlt <- '(' first:OpPart rest:( '|' OpPart )+ ')' {",
  "    alts := ast.OpcodeAlt{first.(ast.Opcode)}",
  "    for _, is := range rest.([]interface{}) {",
  "        alt := is.([]interface{})[1].(ast.Opcode)",
  "        alts = append(alts, alt)",
  "    }",
  "    return alts, nil",
  "}",
  "",
  "// Operand",
  "",
  "Operand <- Type / AuxInt / Aux / Value",
  "",
  "Type <- '<' [^>]+ '>' {",
  "    n := len(c.text)",
  "    return ast.Type(c.text[1:n-1]), nil",
  "}",
  "",
  "AuxInt <- '[' [^\\]]+ ']' {",
  "    n := len(c.text)",
  "    x := string(c.text[1:n-1])",
  "    expr, err := goexpr.Parse(x)",
  "    if err != nil {",
  "        return nil, err",
  "    }",
  "    return &valueauxint{Expr: expr}, nil",
  "}",
  "",
  "Aux <- '{' [^}]+ '}' {",
  "    n := len(c.text)",
  "    x := string(c.text[1:n-1])",
  "    expr, err := goexpr.Parse(x)",
  "    if err != nil {",
  "        return nil, err",
  "    }",
  "    return &valueaux{Expr: expr}, nil",
  "}",
  "",
  "// Expr",
  "",
  "Expr <- Call / Variable / Placeholder",
  "",
  "Call <- Ident '(' _ Expr ( _ ',' _ Expr _ )* _ ')' {",
  "    expr, err := goexpr.Parse(string(c.text))",
  "    if err != nil {",
  "        return nil, err",
  "    }",
  "    return &ast.Expr{Expr: expr}, nil",
  "}",
  "",
  "Variable <- Ident {",
  "    return ast.Variable(c.text), nil",
  "}",
  "",
  "Placeholder <- \"_\" !\"_\" {",
  "    return ast.Placeholder, nil",
  "}",
  "",
  "Ident <- [a-z] [_a-zA-Z0-9]*",
  "",
  "// Condition",
  "",
  "Condition <- ( . !\"=>\" )+ {",
  "    x := string(c.text)",
  "    x = strings.ReplaceAll(x, \"\\n\", \" \")",
  "    x = strings.TrimSpace(x)",
  "",
  "    cond, err := goexpr.Parse(x)",
  "    if err != nil {",
  "        return nil, err",
  "    }",
  "",
  "    return &ast.Expr{Expr: cond}, nil",
  "}",
  "",
  "// Block",
  "",
  "Block <- '@' ( !Whitespace .)+ {",
  "    return string(c.text[1:]), nil",
  "}",
  "",
  "// Skip",
  "",
  "__ <- Skip+",
  "_ <- Skip*",
  "",
  "Skip <- (Comment / Whitespace / EOL)",
  "",
  "// Comments",
  "",
  "Comment <- \"//\" [^\\n]* EOL",
  "",
  "// Character classes",
  "",
  "Whitespace <- [ \\t\\r]",
  "EOL <- '\\n'",
  "EOF <- !."]

end Verif.Spec.Peg

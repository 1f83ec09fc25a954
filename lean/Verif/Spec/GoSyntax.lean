import Verif.Spec.GoTree
import Verif.Spec.Syntax
/-!
# Go expression syntax

A reference for what `go/parser.ParseExpr` does, restricted to the node kinds this code base supports: `goSyntax u t` is the tree, without
source positions, if the text `t` is a Go expression made of those kinds only, and `none` if it is not a Go expression or uses anything else.
Written from the Go specification (lexical elements, operators, primary expressions) and from go/scanner and go/parser.  It is a
specification: nothing in the model of the code uses it; theorems about printing and re-parsing assume that the library agrees with it.

Deviations: newer Go versions reject nesting beyond 10⁵; the `Obj` field of identifiers is ignored.
-/
namespace Verif.Spec
open Verif

/-- What depends on the Go version: the non-ASCII letters and digits (`unicode.IsLetter`, `unicode.IsDigit`), none of which is white space, and whether `~` is a unary
operator (Go 1.18). -/
structure GoVersion where
  letter : Char → Bool
  digit : Char → Bool
  tilde : Bool
  letter_not_space : ∀ c, letter c = true → c.toNat ∉ whiteSpace
  digit_not_space : ∀ c, digit c = true → c.toNat ∉ whiteSpace

/-- Tokens.  `other` is any token that cannot occur in a supported expression: keywords, brackets, braces, assignments, … -/
inductive GTok where
  | ident (s : Str)
  | lit (k : LitKind) (s : Str)
  | op (t : Tok)
  | lparen | rparen | comma | period | ellipsis
  /-- the semicolon inserted for a newline -/
  | semi
  | other
  deriving DecidableEq, Repr

/-! ## Lexical elements -/

def isDec (c : Char) : Bool := '0' ≤ c && c ≤ '9'
def isHexDigit (c : Char) : Bool := isDec c || ('a' ≤ c && c ≤ 'f') || ('A' ≤ c && c ≤ 'F')
def isAsciiLetter (c : Char) : Bool := ('a' ≤ c && c ≤ 'z') || ('A' ≤ c && c ≤ 'Z') || c == '_'
def isGoLetter (u : GoVersion) (c : Char) : Bool := isAsciiLetter c || (0x80 ≤ c.toNat && u.letter c)
def isGoDigit (u : GoVersion) (c : Char) : Bool := isDec c || (0x80 ≤ c.toNat && u.digit c)

def keywords : List Str := ["break", "case", "chan", "const", "continue", "default", "defer", "else", "fallthrough", "for", "func", "go",
  "goto", "if", "import", "interface", "map", "package", "range", "return", "select", "struct", "switch", "type", "var"].map (·.toList)

/-- The longest prefix of characters satisfying `p`, and the rest. -/
def spanOf (p : Char → Bool) (s : Str) : Str × Str := (s.takeWhile p, s.dropWhile p)

/-- Digits and digit separators. -/
def digits (hex : Bool) : Char → Bool := fun c => (if hex then isHexDigit c else isDec c) || c == '_'

/-- The base prefix of a number: its text, and whether the digits that follow are hexadecimal. -/
def numPrefix : Str → Str × Bool
  | '0' :: 'x' :: _ => (['0', 'x'], true)
  | '0' :: 'X' :: _ => (['0', 'X'], true)
  | '0' :: 'o' :: _ => (['0', 'o'], false)
  | '0' :: 'O' :: _ => (['0', 'O'], false)
  | '0' :: 'b' :: _ => (['0', 'b'], false)
  | '0' :: 'B' :: _ => (['0', 'B'], false)
  | _ => ([], false)

/-- The parts of a number at the beginning of a text: prefix, digits, fraction (with the point), exponent (with letter and sign), `i`; and the
rest of the text. -/
structure NumParts where
  pre : Str
  hex : Bool
  int : Str
  frac : Str
  exp : Str
  suf : Str
  rest : Str

def fracOf (hex : Bool) : Str → Str × Str
  | '.' :: s => let (d, r) := spanOf (digits hex) s; ('.' :: d, r)
  | s => ([], s)

def isExpChar (c : Char) : Bool := c == 'e' || c == 'E' || c == 'p' || c == 'P'

def signOf : Str → Str × Str
  | '+' :: s => (['+'], s)
  | '-' :: s => (['-'], s)
  | s => ([], s)

def expOf : Str → Str × Str
  | c :: s =>
    if isExpChar c then
      let (g, s) := signOf s
      let (d, r) := spanOf (digits false) s
      (c :: g ++ d, r)
    else ([], c :: s)
  | [] => ([], [])

def sufOf : Str → Str × Str
  | 'i' :: s => (['i'], s)
  | s => ([], s)

def numParts (s : Str) : NumParts :=
  let (pre, hex) := numPrefix s
  let (int, s) := spanOf (digits hex) (s.drop pre.length)
  let (frac, s) := fracOf hex s
  let (exp, s) := expOf s
  let (suf, s) := sufOf s
  { pre := pre, hex := hex, int := int, frac := frac, exp := exp, suf := suf, rest := s }

/-- The text of the number. -/
def NumParts.text (n : NumParts) : Str := n.pre ++ n.int ++ n.frac ++ n.exp ++ n.suf

/-- `_` only between digits; a base prefix counts as a digit.  `prev` is whether the last character was a digit (or the prefix). -/
def sepOk (hex : Bool) : Bool → Str → Bool
  | _, [] => true
  | prev, '_' :: c :: s => prev && (isDec c || (hex && isHexDigit c)) && sepOk hex false (c :: s)
  | _, ['_'] => false
  | _, c :: s => sepOk hex (isDec c || (hex && isHexDigit c)) s

/-- The kind of a number, if it is a legal one. -/
def NumParts.kind (n : NumParts) : Option LitKind :=
  let p := (n.pre.drop 1).map Char.toLower
  let octal := p == ['o'] || (n.pre == [] && n.int.head? == some '0')
  let k : LitKind := if n.suf != [] then .imag else if n.frac != [] || n.exp != [] then .float else .int
  if (p == ['o'] || p == ['b']) && n.frac != [] then none                          -- radix point
  else if !(n.int ++ n.frac).any (if n.hex then isHexDigit else isDec) then none      -- no digits
  else if n.exp != [] && n.hex && !(n.exp.head? == some 'p' || n.exp.head? == some 'P') then none
  else if n.exp != [] && p != [] && !n.hex then none
  else if n.exp != [] && p == [] && (n.exp.head? == some 'p' || n.exp.head? == some 'P') then none
  else if n.exp != [] && !n.exp.any isDec then none                                  -- exponent without digits
  else if n.hex && n.frac != [] && n.exp == [] then none                             -- exponent required
  else if k == .int && octal && n.int.any (fun c => c == '8' || c == '9') then none
  else if k == .int && p == ['b'] && n.int.any (fun c => '2' ≤ c && c ≤ '9') then none
  else if !sepOk n.hex (n.pre != []) (n.text.drop n.pre.length) then none
  else some k

/-- A number at the beginning of a text. -/
def number (s : Str) : Option (GTok × Str) := (numParts s).kind.map fun k => (.lit k (numParts s).text, (numParts s).rest)

/-- State in a quoted literal: outside an escape; after `\`; in a numeric escape that still has `n` digits, in base `b`, with maximal value
`m`, the value so far being `x`. -/
inductive QState where
  | body
  | esc
  | num (n b m x : Nat)

def QState.isBody : QState → Bool
  | .body => true
  | _ => false

/-- Value of a digit; 16 if it is none. -/
def digitVal (c : Char) : Nat :=
  if isDec c then c.toNat - '0'.toNat
  else if 'a' ≤ c && c ≤ 'f' then c.toNat - 'a'.toNat + 10
  else if 'A' ≤ c && c ≤ 'F' then c.toNat - 'A'.toNat + 10
  else 16

/-- The next state in a numeric escape. -/
def numStep (n b m x : Nat) (c : Char) : Option QState :=
  if b ≤ digitVal c then none
  else if 1 < n then some (.num (n - 1) b m (x * b + digitVal c))
  else if m < x * b + digitVal c || (0xD800 ≤ x * b + digitVal c && x * b + digitVal c < 0xE000) then none
  else some .body

/-- The next state inside a literal with quote `q` (for a character that does not close it). -/
def qStep (q : Char) : QState → Char → Option QState
  | .body, c => if c = '\n' then none else if c = '\\' then some .esc else some .body
  | .esc, c =>
    if c = q || c = 'a' || c = 'b' || c = 'f' || c = 'n' || c = 'r' || c = 't' || c = 'v' || c = '\\' then some .body
    else if '0' ≤ c && c ≤ '7' then numStep 3 8 255 0 c
    else if c = 'x' then some (.num 2 16 255 0)
    else if c = 'u' then some (.num 4 16 0x10FFFF 0)
    else if c = 'U' then some (.num 8 16 0x10FFFF 0)
    else none
  | .num n b m x, c => numStep n b m x c

/-- After the opening quote: the number of characters denoted, the text up to and including the closing quote, and the rest. -/
def quoted (q : Char) : QState → Str → Option (Nat × Str × Str)
  | _, [] => none
  | st, c :: s =>
    if c = q && st.isBody then some (0, [c], s)
    else
      match qStep q st c with
      | none => none
      | some st' => (quoted q st' s).map fun (n, t, r) => ((if st'.isBody then n + 1 else n), c :: t, r)

/-- After the opening back quote of a raw string: the text up to and including the closing one, and the rest. -/
def rawBody : Str → Option (Str × Str)
  | [] => none
  | '`' :: s => some (['`'], s)
  | c :: s => (rawBody s).map fun (t, r) => (c :: t, r)

/-- All operators and delimiters, longer ones first (`~` aside). -/
def operators : List (Str × GTok) := [
  ("<<=".toList, .other), (">>=".toList, .other), ("&^=".toList, .other), ("...".toList, .ellipsis),
  ("<<".toList, .op .shl), (">>".toList, .op .shr), ("&^".toList, .op .andNot), ("+=".toList, .other), ("-=".toList, .other),
  ("*=".toList, .other), ("/=".toList, .other), ("%=".toList, .other), ("&=".toList, .other), ("|=".toList, .other), ("^=".toList, .other),
  ("&&".toList, .op .land), ("||".toList, .op .lor), ("<-".toList, .op .arrow), ("++".toList, .other), ("--".toList, .other),
  ("==".toList, .op .eql), ("!=".toList, .op .neq), ("<=".toList, .op .leq), (">=".toList, .op .geq), (":=".toList, .other),
  ("+".toList, .op .add), ("-".toList, .op .sub), ("*".toList, .op .mul), ("/".toList, .op .quo), ("%".toList, .op .rem),
  ("&".toList, .op .and), ("|".toList, .op .or), ("^".toList, .op .xor), ("<".toList, .op .lss), (">".toList, .op .gtr),
  ("=".toList, .other), ("!".toList, .op .not), ("(".toList, .lparen), (")".toList, .rparen), (",".toList, .comma), (".".toList, .period),
  ("[".toList, .other), ("]".toList, .other), ("{".toList, .other), ("}".toList, .other), (";".toList, .other), (":".toList, .other)]

/-- The operator at the beginning of a text. -/
def operator (u : GoVersion) (s : Str) : Option (GTok × Str) :=
  match s with
  | '~' :: r => if u.tilde then some (.op (.other ['~']), r) else none
  | _ =>
    match operators.find? (fun o => o.1.isPrefixOf s) with
    | some (w, k) => some (k, s.drop w.length)
    | none => none

/-- The token at the beginning of a text that does not begin with white space or a comment, and the rest. -/
def lexTok (u : GoVersion) (s : Str) : Option (GTok × Str) :=
  match s with
  | [] => none
  | c :: r =>
    if isGoLetter u c then
      let (w, r) := spanOf (fun c => isGoLetter u c || isGoDigit u c) s
      some (if keywords.contains w then .other else .ident w, r)
    else if isDec c || (c == '.' && (match r with | d :: _ => isDec d | [] => false)) then number s
    else if c == '"' then (quoted '"' .body r).map fun (_, t, r) => (.lit .string ('"' :: t), r)
    else if c == '\'' then
      match quoted '\'' .body r with
      | some (1, t, r) => some (.lit .char ('\'' :: t), r)
      | _ => none
    else if c == '`' then (rawBody r).map fun (t, r) => (.lit .string ('`' :: t.filter (· != '\r')), r)
    else operator u s

/-- After `/*`: whether there is a newline before `*/`, and the rest. -/
def closeComment : Str → Option (Bool × Str)
  | '*' :: '/' :: s => some (false, s)
  | c :: s => (closeComment s).map fun (b, r) => (b || c == '\n', r)
  | [] => none

/-- A newline after this token stands for a semicolon. -/
def endsLine : GTok → Bool
  | .ident _ | .lit .. | .rparen => true
  | _ => false

/-- Tokens of a text.  `nl` is whether a newline stands for a semicolon here.  `n` bounds the number of steps; `length + 1` is enough. -/
def lexGo (u : GoVersion) : Nat → Bool → Str → Option (List GTok)
  | 0, _, _ => none
  | _ + 1, _, [] => some []
  | n + 1, nl, c :: s =>
    if c = '\n' then if nl then (lexGo u n false s).map (.semi :: ·) else lexGo u n false s
    else if c = ' ' ∨ c = '\t' ∨ c = '\r' then lexGo u n nl s
    else
      match c, s with
      | '/', '/' :: s => lexGo u n nl (s.dropWhile (· != '\n'))
      | '/', '*' :: s =>
        match closeComment s with
        | none => none
        | some (b, s) => if b && nl then (lexGo u n false s).map (.semi :: ·) else lexGo u n nl s
      | c, s =>
        match lexTok u (c :: s) with
        | none => none
        | some (k, r) => (lexGo u n (endsLine k) r).map (k :: ·)

/-- No NUL, and no byte order mark except at the beginning, where it is dropped. -/
def noMarks (t : Str) : Option Str :=
  let t := match t with
    | '\uFEFF' :: t => t
    | t => t
  if t.any (fun c => c == '\x00' || c == '\uFEFF') then none else some t

def lexAll (u : GoVersion) (t : Str) : Option (List GTok) := (noMarks t).bind fun t => lexGo u (t.length + 1) false t

/-! ## Expressions -/

/-- Unary operators other than `*`. -/
def unaryOps (u : GoVersion) : List Tok := [.add, .sub, .not, .xor, .and, .arrow] ++ if u.tilde then [.other ['~']] else []

mutual
/-- Expression made of operators of precedence at least `p`.  The number bounds the recursion depth. -/
def pExpr (u : GoVersion) : Nat → Nat → List GTok → Option (GoExpr × List GTok)
  | 0, _, _ => none
  | n + 1, p, ts =>
    match pUnary u n ts with
    | none => none
    | some (x, ts) => pBinary u n p x ts
/-- The rest of such an expression after `x`. -/
def pBinary (u : GoVersion) : Nat → Nat → GoExpr → List GTok → Option (GoExpr × List GTok)
  | 0, _, _, _ => none
  | n + 1, p, x, .op o :: ts =>
    if 1 ≤ o.level ∧ p ≤ o.level then
      match pExpr u n (o.level + 1) ts with
      | none => none
      | some (y, ts) => pBinary u n p (.binary x 0 o y) ts
    else some (x, .op o :: ts)
  | _ + 1, _, x, ts => some (x, ts)
def pUnary (u : GoVersion) : Nat → List GTok → Option (GoExpr × List GTok)
  | 0, _ => none
  | n + 1, ts =>
    match ts with
    | .op o :: ts =>
      if o = .mul then (pUnary u n ts).map fun (x, ts) => (.star 0 x, ts)
      else if o ∈ unaryOps u then (pUnary u n ts).map fun (x, ts) => (.unary 0 o x, ts)
      else none
    | .ident s :: ts => pSuffix u n (.ident 0 s) ts
    | .lit k s :: ts => pSuffix u n (.basicLit 0 k s) ts
    | .lparen :: ts =>
      match pExpr u n 1 ts with
      | some (x, .rparen :: ts) => pSuffix u n (.paren 0 x 0) ts
      | _ => none
    | _ => none
/-- Selectors and calls after `x`. -/
def pSuffix (u : GoVersion) : Nat → GoExpr → List GTok → Option (GoExpr × List GTok)
  | 0, _, _ => none
  | n + 1, x, .period :: .ident s :: ts => pSuffix u n (.selector x 0 s) ts
  | _ + 1, _, .period :: _ => none
  | n + 1, x, .lparen :: ts =>
    match pArgs u n ts with
    | none => none
    | some (args, ts) => pSuffix u n (.call x 0 args 0 0) ts
  | _ + 1, x, ts => some (x, ts)
/-- Arguments up to and including the closing parenthesis; a comma may end the list, and `...` may follow the last argument. -/
def pArgs (u : GoVersion) : Nat → List GTok → Option (List GoExpr × List GTok)
  | 0, _ => none
  | _ + 1, .rparen :: ts => some ([], ts)
  | n + 1, ts =>
    match pExpr u n 1 ts with
    | some (x, .rparen :: ts) => some ([x], ts)
    | some (x, .ellipsis :: .rparen :: ts) => some ([x], ts)
    | some (x, .ellipsis :: .comma :: .rparen :: ts) => some ([x], ts)
    | some (x, .comma :: ts) => (pArgs u n ts).map fun (xs, ts) => (x :: xs, ts)
    | _ => none
end

/-- The whole token sequence is an expression; one semicolon inserted at the end is ignored. -/
def parseToks (u : GoVersion) (ts : List GTok) : Option GoExpr :=
  match pExpr u (4 * ts.length + 4) 1 ts with
  | some (x, []) => some x
  | some (x, [.semi]) => some x
  | _ => none

/-- The Go expression a text is. -/
def goSyntax (u : GoVersion) (t : Str) : Option GoExpr := (lexAll u t).bind (parseToks u)

/-- The library's Go parser agrees with the reference. -/
def FollowsGo (u : GoVersion) (lib : GoLib) : Prop := ∀ t e, GoText lib t e ↔ goSyntax u t = some e

end Verif.Spec

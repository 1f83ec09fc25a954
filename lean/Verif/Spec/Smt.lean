import Verif.Model.Ast
/-!
# A reader and a semantics for the SMT-LIB 2.6 fragment used by the scripts

Independent of the generator: characters to tokens, tokens to S-expressions, S-expressions to commands, and the
meaning of terms over Booleans and bit vectors.  References are to "The SMT-LIB Standard, version 2.6".
-/
namespace Verif.Spec.Smt

open Verif

/-! ## Lexical level (section 3.1) -/

inductive Token where
  | lp | rp | sym (s : Str)
  deriving DecidableEq, Repr

def isSpace (c : Char) : Bool := c == ' ' || c == '\t' || c == '\n' || c == '\r'

/-- Characters of simple symbols: ASCII letters, digits and `~ ! @ $ % ^ & * _ - + = < > . ? /`. -/
def isSymChar (c : Char) : Bool :=
  ('a' ≤ c && c ≤ 'z') || ('A' ≤ c && c ≤ 'Z') || ('0' ≤ c && c ≤ '9') || "~!@$%^&*_-+=<>.?/".toList.contains c

/-- Characters of atoms: symbols, numerals, decimals, and keywords such as `:smt-lib-version`. -/
def isAtomChar (c : Char) : Bool := isSymChar c || c == ':'

/-- Lexer modes: between tokens, inside a comment, inside an atom (its characters so far, last first). -/
inductive Mode where
  | between
  | comment
  | atom (acc : List Char)

/-- The lexer.  A comment runs from `;` to the end of the line (LF or CR).  Quoted symbols, string literals and
`#`-constants do not belong to the fragment: they are rejected. -/
def lex : Mode → Str → Option (List Token)
  | .between, [] => some []
  | .comment, [] => some []
  | .atom acc, [] => some [.sym acc.reverse]
  | .between, c :: s =>
    if c = '(' then (lex .between s).map (.lp :: ·)
    else if c = ')' then (lex .between s).map (.rp :: ·)
    else if c = ';' then lex .comment s
    else if isSpace c then lex .between s
    else if isAtomChar c then lex (.atom [c]) s
    else none
  | .comment, c :: s => if c = '\n' ∨ c = '\r' then lex .between s else lex .comment s
  | .atom acc, c :: s =>
    if c = '(' then (lex .between s).map (fun ts => .sym acc.reverse :: .lp :: ts)
    else if c = ')' then (lex .between s).map (fun ts => .sym acc.reverse :: .rp :: ts)
    else if c = ';' then (lex .comment s).map (.sym acc.reverse :: ·)
    else if isSpace c then (lex .between s).map (.sym acc.reverse :: ·)
    else if isAtomChar c then lex (.atom (c :: acc)) s
    else none

/-! ## S-expressions (section 3.2) -/

inductive SExp where
  | atom (s : Str)
  | list (l : List SExp)
  deriving Repr

/-- Reader with a stack of the lists that are open, each with its last element first. -/
def readTokens : List (List SExp) → List Token → Option (List SExp)
  | [top], [] => some top.reverse
  | _, [] => none
  | stack, .lp :: ts => readTokens ([] :: stack) ts
  | top :: up :: rest, .rp :: ts => readTokens ((.list top.reverse :: up) :: rest) ts
  | _, .rp :: _ => none
  | top :: rest, .sym a :: ts => readTokens ((.atom a :: top) :: rest) ts
  | [], .sym _ :: _ => none

/-- All S-expressions of a text. -/
def readAll (s : Str) : Option (List SExp) := (lex .between s).bind (readTokens [[]])

/-! ## Sorts, values, terms (sections 3.5, 3.6; theories Core and FixedSizeBitVectors, logic QF_BV) -/

inductive Srt where
  | bool
  | bv (width : Nat)
  deriving DecidableEq, Repr

inductive Val where
  | bool (b : Bool)
  | bits (w : Nat) (x : BitVec w)
  deriving DecidableEq, Repr

def Val.sort : Val → Srt
  | .bool _ => .bool
  | .bits w _ => .bv w

/-- Decimal numeral. -/
def numeral (s : Str) : Option Nat :=
  if s ≠ [] ∧ s.all Char.isDigit then some (s.foldl (fun n c => 10 * n + (c.toNat - '0'.toNat)) 0) else none

/-- A sort: `Bool` or `(_ BitVec n)` with n > 0. -/
def parseSort : SExp → Option Srt
  | .atom s => if s = "Bool".toList then some .bool else none
  | .list [.atom u, .atom b, .atom n] =>
    if u = ['_'] ∧ b = "BitVec".toList then
      match numeral n with
      | some k => if k > 0 then some (.bv k) else none
      | none => none
    else none
  | _ => none

/-- Reserved words, section 3.1 (general reserved words and command names). -/
def reservedWords : List Str := ["BINARY", "DECIMAL", "HEXADECIMAL", "NUMERAL", "STRING", "_", "!", "as", "let", "exists",
  "forall", "match", "par", "assert", "check-sat", "check-sat-assuming", "declare-const", "declare-datatype",
  "declare-datatypes", "declare-fun", "declare-sort", "define-fun", "define-fun-rec", "define-funs-rec", "define-sort",
  "echo", "exit", "get-assertions", "get-assignment", "get-info", "get-model", "get-option", "get-proof",
  "get-unsat-assumptions", "get-unsat-core", "get-value", "pop", "push", "reset", "reset-assertions", "set-info",
  "set-logic", "set-option"].map String.toList

/-- Function symbols of the theories Core and FixedSizeBitVectors and of the logic QF_BV; they cannot be redeclared. -/
def theorySymbols : List Str := ["true", "false", "not", "=>", "and", "or", "xor", "=", "distinct", "ite", "concat", "extract",
  "bvnot", "bvneg", "bvand", "bvor", "bvadd", "bvmul", "bvudiv", "bvurem", "bvshl", "bvlshr", "bvult", "bvnand", "bvnor",
  "bvxor", "bvxnor", "bvcomp", "bvsub", "bvsdiv", "bvsrem", "bvsmod", "bvashr", "repeat", "zero_extend", "sign_extend",
  "rotate_left", "rotate_right", "bvule", "bvugt", "bvuge", "bvslt", "bvsle", "bvsgt", "bvsge"].map String.toList

/-- A name a script may declare: a simple symbol that is not reserved, not reserved for solvers (initial `@` or `.`)
and not a theory symbol. -/
def legalName (x : Str) : Bool :=
  x.all isSymChar && (match x with
    | [] => false
    | c :: _ => !('0' ≤ c && c ≤ '9') && c != '@' && c != '.') &&
  !reservedWords.contains x && !theorySymbols.contains x

mutual
/-- Sort of a term, `none` if ill-sorted or outside the fragment. -/
def sortOf (decls : List (Str × Srt)) : SExp → Option Srt
  | .atom x => (decls.find? (fun d => d.1 == x)).map (·.2)
  | .list (.atom f :: args) => (sortsOf decls args).bind (resultSort f)
  | _ => none
def sortsOf (decls : List (Str × Srt)) : List SExp → Option (List Srt)
  | [] => some []
  | t :: ts => (sortOf decls t).bind fun s => (sortsOf decls ts).map (s :: ·)
/-- Ranks of the function symbols. -/
def resultSort (f : Str) (args : List Srt) : Option Srt :=
  if f = "not".toList then (if args = [.bool] then some .bool else none)
  else if f = "and".toList ∨ f = "or".toList then (if args = [.bool, .bool] then some .bool else none)
  else if f = "=".toList then
    match args with
    | [a, b] => if a = b then some .bool else none
    | _ => none
  else if f = "bvnot".toList ∨ f = "bvneg".toList then
    match args with
    | [.bv w] => some (.bv w)
    | _ => none
  else if f = "bvand".toList ∨ f = "bvor".toList ∨ f = "bvxor".toList ∨ f = "bvadd".toList ∨ f = "bvsub".toList then
    match args with
    | [.bv w, .bv w'] => if w = w' then some (.bv w) else none
    | _ => none
  else none
end

/-- Binary function on bit vectors of equal width. -/
def bvBin (f : ∀ w, BitVec w → BitVec w → BitVec w) : List Val → Option Val
  | [.bits w x, .bits w' y] => if h : w' = w then some (.bits w (f w x (h ▸ y))) else none
  | _ => none

/-- Unary function on bit vectors. -/
def bvUn (f : ∀ w, BitVec w → BitVec w) : List Val → Option Val
  | [.bits w x] => some (.bits w (f w x))
  | _ => none

/-- Meaning of the function symbols. -/
def applySym (f : Str) (args : List Val) : Option Val :=
  if f = "not".toList then
    match args with
    | [.bool a] => some (.bool (!a))
    | _ => none
  else if f = "and".toList then
    match args with
    | [.bool a, .bool b] => some (.bool (a && b))
    | _ => none
  else if f = "or".toList then
    match args with
    | [.bool a, .bool b] => some (.bool (a || b))
    | _ => none
  else if f = "=".toList then
    match args with
    | [a, b] => if a.sort = b.sort then some (.bool (decide (a = b))) else none
    | _ => none
  else if f = "bvnot".toList then bvUn (fun _ x => ~~~x) args
  else if f = "bvneg".toList then bvUn (fun _ x => -x) args
  else if f = "bvand".toList then bvBin (fun _ x y => x &&& y) args
  else if f = "bvor".toList then bvBin (fun _ x y => x ||| y) args
  else if f = "bvxor".toList then bvBin (fun _ x y => x ^^^ y) args
  else if f = "bvadd".toList then bvBin (fun _ x y => x + y) args
  else if f = "bvsub".toList then bvBin (fun _ x y => x - y) args
  else none

mutual
/-- Value of a term under an assignment of the declared constants. -/
def evalTerm (env : Str → Val) : SExp → Option Val
  | .atom x => some (env x)
  | .list (.atom f :: args) => (evalTerms env args).bind (applySym f)
  | _ => none
def evalTerms (env : Str → Val) : List SExp → Option (List Val)
  | [] => some []
  | t :: ts => (evalTerm env t).bind fun v => (evalTerms env ts).map (v :: ·)
end

/-! ## Scripts (sections 3.9, 4.1) -/

/-- A satisfiability query: the declared constants and the assertions at the time of `check-sat`. -/
structure Query where
  decls : List (Str × Srt)
  asserts : List SExp
  deriving Repr

/-- State of the script interpreter. -/
structure Session where
  /-- `set-logic QF_BV` has been executed -/
  logic : Bool := false
  decls : List (Str × Srt) := []
  asserts : List SExp := []
  queries : List Query := []
  exited : Bool := false
  deriving Repr

/-- One command; `none` is an error.  `set-info` has no effect; the logic has to be set, once, before declarations, assertions and
checks; a constant is declared once, with a legal name; an assertion is a well-sorted term of sort Bool; nothing follows `exit`. -/
def command (σ : Session) : SExp → Option Session
  | .list (.atom c :: args) =>
    if σ.exited then none
    else if c = "set-info".toList then
      match args with
      | [.atom (':' :: _), .atom _] => some σ
      | _ => none
    else if c = "set-logic".toList then
      match args with
      | [.atom l] => if l = "QF_BV".toList ∧ σ.logic = false then some { σ with logic := true } else none
      | _ => none
    else if c = "declare-const".toList then
      match args with
      | [.atom x, s] =>
        match parseSort s with
        | some srt => if σ.logic ∧ legalName x ∧ x ∉ σ.decls.map (·.1) then some { σ with decls := σ.decls ++ [(x, srt)] } else none
        | none => none
      | _ => none
    else if c = "assert".toList then
      match args with
      | [t] => if σ.logic ∧ sortOf σ.decls t = some .bool then some { σ with asserts := σ.asserts ++ [t] } else none
      | _ => none
    else if c = "check-sat".toList then
      match args with
      | [] => if σ.logic then some { σ with queries := σ.queries ++ [⟨σ.decls, σ.asserts⟩] } else none
      | _ => none
    else if c = "exit".toList then
      match args with
      | [] => some { σ with exited := true }
      | _ => none
    else none
  | _ => none

def commands : Session → List SExp → Option Session
  | σ, [] => some σ
  | σ, e :: es => (command σ e).bind fun σ' => commands σ' es

/-- Execute a script text; `none` if it is not a legal script. -/
def execute (s : Str) : Option Session := (readAll s).bind (commands {})

/-- A query is satisfiable: some assignment, respecting the sorts of the declared constants, makes all assertions true. -/
def Sat (q : Query) : Prop :=
  ∃ env : Str → Val, (∀ d ∈ q.decls, (env d.1).sort = d.2) ∧ ∀ t ∈ q.asserts, evalTerm env t = some (.bool true)

end Verif.Spec.Smt

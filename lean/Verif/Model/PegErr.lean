import Verif.Model.Parse
/-!
# Model of the PEG machine in parse/internal/parser/zparser.go, with positions and error messages

The same machine as in `Model/Peg.lean`, over the same grammar table and actions, with all the state that makes up the error
message: line, column and byte offset, the rule stack, the farthest failure and what was expected there.  `Proof/PegErr.lean` proves that
forgetting this state gives the machine of `Model/Peg.lean`.
-/
namespace Verif

/-- `position` (zparser.go:1769-1771). -/
structure Position where
  line : Nat
  col : Nat
  offset : Nat
  deriving DecidableEq, Repr

/-- `savepoint` (zparser.go:1779-1783).  Instead of the current rune and its width: the input from `offset` on. -/
structure Pt where
  pos : Position
  rest : List Sym
  deriving DecidableEq, Repr

/-- The width `utf8.DecodeRune` reports (zparser.go:2164). -/
def Sym.width : Sym → Nat
  | .ok c => c.utf8Size
  | .bad _ => 1

/-- What is wrong: the `Inner` error of a `parserError` (zparser.go:1942). -/
inductive Problem where
  /-- `errInvalidEncoding` (zparser.go:2175) -/
  | invalidEncoding
  /-- `goexpr.Parse` has rejected this text (zparser.go:1404, 1584, 1600, 1634, 2341) -/
  | goError (text : Str)
  /-- any other error of a semantic action: `errors.New("unknown operand")` (zparser.go:1549, 2341) -/
  | unknownOperand
  /-- a recovered panic (zparser.go:2215-2220) -/
  | panicked
  /-- "no match found" (zparser.go:2255) with the sorted list of what was expected -/
  | noMatch (expected : List Str)
  deriving DecidableEq, Repr

/-- `parserError` (zparser.go:1941-1946): the problem, its position, and the rule named in the prefix, if any. -/
structure PError where
  problem : Problem
  pos : Position
  rule : Option RuleName
  deriving DecidableEq, Repr

/-- `parser` (zparser.go:2020-2056): the fields used by a parse without options.  `frame` is the top of `vstack`, see `St`. -/
structure DSt where
  pt : Pt
  frame : Frame
  errs : List PError
  rstack : List RuleName
  maxFailPos : Position
  maxFailExpected : List Str
  invert : Bool

/-- Outcome of a `parse…` method, see `POut`. (zparser.go:2274-2604) -/
inductive DOut where
  | ok (v : Dyn) (s : DSt)
  | fail (s : DSt)
  | panic (s : DSt)

/-- `addErrAt` (zparser.go:2118-2140).  No rule has a display name (zparser.go:28-1382). -/
def DSt.addErrAt (s : DSt) (p : Problem) (pos : Position) : DSt :=
  { s with errs := s.errs ++ [⟨p, pos, s.rstack.head?⟩] }

/-- `failAt` (zparser.go:2142-2159); the first parameter, called `fail` there, is whether the terminal has matched. -/
def DSt.failAt (s : DSt) (matched : Bool) (pos : Position) (want : Str) : DSt :=
  if matched = s.invert then
    if pos.offset < s.maxFailPos.offset then s
    else
      let s := if pos.offset > s.maxFailPos.offset then { s with maxFailPos := pos, maxFailExpected := [] } else s
      let want := if s.invert then '!' :: want else want
      { s with maxFailExpected := s.maxFailExpected ++ [want] }
  else s

/-- The first part of `read` (zparser.go:2163-2171), at a savepoint. -/
def Pt.advance (p : Pt) : Pt :=
  let offset := p.pos.offset + (match p.rest with | x :: _ => x.width | [] => 0)
  let rest := p.rest.tail
  match rest with
  | x :: _ => if x.rune = '\n' then ⟨⟨p.pos.line + 1, 0, offset⟩, rest⟩ else ⟨⟨p.pos.line, p.pos.col + 1, offset⟩, rest⟩
  | [] => ⟨⟨p.pos.line, p.pos.col + 1, offset⟩, rest⟩

/-- The second part of `read` (zparser.go:2173-2177). -/
def DSt.noteBad (s : DSt) : DSt :=
  match s.pt.rest with
  | .bad _ :: _ => s.addErrAt .invalidEncoding s.pt.pos
  | _ => s

/-- `read` (zparser.go:2162-2178). -/
def DSt.read (s : DSt) : DSt := DSt.noteBad { s with pt := s.pt.advance }

/-- `restore` (zparser.go:2181-2186). -/
def DSt.restore (s : DSt) (pt : Pt) : DSt :=
  if pt.pos.offset = s.pt.pos.offset then s else { s with pt := pt }

/-- `sliceFrom` (zparser.go:2189-2191), see `sliceFrom`. -/
def DSt.sliceFrom (s : DSt) (start : Pt) : Str := Verif.sliceFrom start.rest s.pt.rest

/-- A character inside a quoted literal or a class, as pigeon writes it. (the fields `want` and `val` at zparser.go:1877, 1882) -/
def escChar : Char → Str
  | '\n' => ['\\', 'n']
  | '\t' => ['\\', 't']
  | '\r' => ['\\', 'r']
  | c => [c]

/-- `litMatcher.want` in the table (e.g. zparser.go:59: `"\"//\""`, zparser.go:75: `"\"\\n\""`): the quoted literal. -/
def litWant (val : Str) : Str := '"' :: val.flatMap escChar ++ ['"']

/-- `charClassMatcher.val` in the table (e.g. zparser.go:65: `"[^\\n]"`, zparser.go:530: `"[_a-zA-Z0-9]"`). -/
def clsWant (chars : List Char) (ranges : List (Char × Char)) (inverted : Bool) : Str :=
  '[' :: (if inverted then ['^'] else []) ++ chars.flatMap escChar ++ ranges.flatMap (fun r => [r.1, '-', r.2]) ++ [']']

/-- `parseCharClassMatcher` (zparser.go:2381-2441). -/
def dCls (chars : List Char) (ranges : List (Char × Char)) (inverted : Bool) (s : DSt) : DOut :=
  let start := s.pt
  let want := clsWant chars ranges inverted
  match s.pt.rest with
  | [] => .fail (s.failAt false start.pos want)
  | x :: _ =>
    if inClass chars ranges x.rune then
      if inverted then .fail (s.failAt false start.pos want)
      else let s := s.read.failAt true start.pos want; .ok (.bytes (s.sliceFrom start)) s
    else
      if inverted then let s := s.read.failAt true start.pos want; .ok (.bytes (s.sliceFrom start)) s
      else .fail (s.failAt false start.pos want)

/-- `parseAnyMatcher` (zparser.go:2369-2379). -/
def dAny (s : DSt) : DOut :=
  let start := s.pt
  match s.pt.rest with
  | [] => .fail (s.failAt false start.pos ['.'])
  | _ :: _ => let s := s.read.failAt true start.pos ['.']; .ok (.bytes (s.sliceFrom start)) s

/-- The loop of `parseLitMatcher` (zparser.go:2471-2484). -/
def dLit (start : Pt) (want : Str) : List Char → DSt → DOut
  | [], s => let s := s.failAt true start.pos want; .ok (.bytes (s.sliceFrom start)) s
  | c :: cs, s =>
    match s.pt.rest with
    | [] => .fail ((s.failAt false start.pos want).restore start)
    | x :: _ => if x.rune = c then dLit start want cs s.read else .fail ((s.failAt false start.pos want).restore start)

/-- The error of an action: if it calls `goexpr.Parse`, its only error is that call's (zparser.go:1404-1409, 1584-1588, 1600-1604, 1634-1638); the only other
error is that of `onSExpr1` (zparser.go:1549). -/
def actionProblem (G : Grammar) (a : Act) (text : Str) : Problem :=
  match G.asks a text with
  | some t => .goError t
  | none => .unknownOperand

/-- `act.run(p)` and what follows (zparser.go:2337-2344); `start` is the savepoint before the match. -/
def dAction (G : Grammar) (a : Act) (start : Pt) (s : DSt) : DOut :=
  let text := s.sliceFrom start
  match G.act a s.frame text with
  | .ok v => .ok v s
  | .err _ => .ok .nil (s.addErrAt (actionProblem G a text) start.pos)
  | .panic => .panic s

/-- `popV` (zparser.go:2079-2087). -/
def dPop (fr : Frame) : DOut → DOut
  | .ok v s => .ok v { s with frame := fr }
  | .fail s => .fail { s with frame := fr }
  | .panic s => .panic s

/-- `pushV` (zparser.go:2058-2076). -/
def DSt.push (s : DSt) : DSt := { s with frame := Frame.empty }

/-- `p.maxFailInvertExpected = !p.maxFailInvertExpected` (zparser.go:2499, 2501). -/
def DSt.flip (s : DSt) : DSt := { s with invert := !s.invert }

/-- The end of `parseRule` (zparser.go:2278-2279): `popV` and back to the rule stack before the call.  (After a panic neither happens.) -/
def dLeave (fr : Frame) (rs : List RuleName) : DOut → DOut
  | .ok v s => .ok v { s with frame := fr, rstack := rs }
  | .fail s => .fail { s with frame := fr, rstack := rs }
  | .panic s => .panic s

mutual
/-- `parseExpr` (zparser.go:2283-2331); depth bound as in `run`. -/
def dRun (G : Grammar) : Nat → PExpr → DSt → Option DOut
  | 0, _, _ => none
  | n + 1, .action a e, s => -- parseActionExpr (zparser.go:2333-2347)
    match dRun G n e s with
    | some (.ok _ s') => some (dAction G a s.pt s')
    | o => o
  | _ + 1, .any, s => some (dAny s)
  | _ + 1, .cls chars ranges inv, s => some (dCls chars ranges inv s)
  | n + 1, .choice es, s => dChoice G n es s -- parseChoiceExpr (zparser.go:2443-2456)
  | n + 1, .labeled l e, s => -- parseLabeledExpr (zparser.go:2458-2467)
    match (dRun G n e s.push).map (dPop s.frame) with
    | some (.ok v s') => some (.ok v { s' with frame := s'.frame.set l v })
    | o => o
  | _ + 1, .lit val, s => some (dLit s.pt (litWant val) val s) -- parseLitMatcher (zparser.go:2469-2485)
  | n + 1, .not e, s => -- parseNotExpr (zparser.go:2496-2506)
    match (dRun G n e s.push.flip).map (dPop s.frame) with
    | some (.ok _ s') => some (.fail (s'.flip.restore s.pt))
    | some (.fail s') => some (.ok .nil (s'.flip.restore s.pt))
    | o => o
  | n + 1, .oneOrMore e, s => dLoop G n e true [] s -- parseOneOrMoreExpr (zparser.go:2508-2525)
  | n + 1, .ruleRef name, s => -- parseRuleRefExpr, parseRule (zparser.go:2535-2546, 2274-2281)
    (dRun G n (G.rules name) { s.push with rstack := name :: s.rstack }).map (dLeave s.frame s.rstack)
  | n + 1, .seq es, s => dSeq G n s.pt es [] s -- parseSeqExpr (zparser.go:2548-2561)
  | n + 1, .zeroOrMore e, s => dLoop G n e false [] s -- parseZeroOrMoreExpr (zparser.go:2576-2588)
  | n + 1, .zeroOrOne e, s => -- parseZeroOrOneExpr (zparser.go:2590-2596)
    match (dRun G n e s.push).map (dPop s.frame) with
    | some (.fail s') => some (.ok .nil s')
    | o => o
/-- The loop of `parseChoiceExpr` (zparser.go:2444-2455). -/
def dChoice (G : Grammar) : Nat → List PExpr → DSt → Option DOut
  | 0, _, _ => none
  | _ + 1, [], s => some (.fail s)
  | n + 1, e :: es, s =>
    match (dRun G n e s.push).map (dPop s.frame) with
    | some (.fail s') => dChoice G n es s'
    | o => o
/-- The loop of `parseSeqExpr` (zparser.go:2552-2560). -/
def dSeq (G : Grammar) : Nat → Pt → List PExpr → List Dyn → DSt → Option DOut
  | 0, _, _, _, _ => none
  | _ + 1, _, [], vals, s => some (.ok (.list vals) s)
  | n + 1, start, e :: es, vals, s =>
    match dRun G n e s with
    | some (.ok v s') => dSeq G n start es (vals ++ [v]) s'
    | some (.fail s') => some (.fail (s'.restore start))
    | o => o
/-- The loops of `parseOneOrMoreExpr` and `parseZeroOrMoreExpr` (zparser.go:2511-2524, 2579-2587). -/
def dLoop (G : Grammar) : Nat → PExpr → Bool → List Dyn → DSt → Option DOut
  | 0, _, _, _, _ => none
  | n + 1, e, need, vals, s =>
    match (dRun G n e s.push).map (dPop s.frame) with
    | some (.ok v s') => dLoop G n e need (vals ++ [v]) s'
    | some (.fail s') => if need && vals.isEmpty then some (.fail s') else some (.ok (.list vals) s')
    | o => o
end

/-- `newParser` (zparser.go:1954-1980) and the first `read` (zparser.go:2232).  Before it the position is line 1, column 0, offset 0
with width 0 (zparser.go:1963). -/
def dInit (data : List Sym) : DSt :=
  let pt : Pt := match data with
    | x :: _ => if x.rune = '\n' then ⟨⟨2, 0, 0⟩, data⟩ else ⟨⟨1, 1, 0⟩, data⟩
    | [] => ⟨⟨1, 1, 0⟩, data⟩
  DSt.noteBad { pt := pt, frame := Frame.empty, errs := [], rstack := [], maxFailPos := ⟨1, 1, 0⟩, maxFailExpected := [], invert := false }

/-- `a <= b` for Go strings.  For text it does not matter that Go compares bytes: the order of UTF-8 is that of code points. (for `sort.Strings` at zparser.go:2251) -/
def strLE : Str → Str → Bool
  | [], _ => true
  | _ :: _, [] => false
  | a :: as, b :: bs => if a = b then strLE as bs else a.toNat < b.toNat

/-- Inserts a string into a sorted list. (for `sort.Strings` at zparser.go:2251) -/
def insertStr (x : Str) : List Str → List Str
  | [] => [x]
  | y :: l => if strLE x y then x :: y :: l else y :: insertStr x l

/-- `sort.Strings` (zparser.go:2251), by insertion; the strings are distinct, so any way of sorting gives the same. -/
def sortStrings : List Str → List Str
  | [] => []
  | x :: l => insertStr x (sortStrings l)

/-- The list of expected terminals in the message (zparser.go:2238-2255).  `order` is the order in which `range` enumerates the map. -/
def expectedList (order : List Str → List Str) (l : List Str) : List Str :=
  let keys := l.eraseDups
  let expected := sortStrings (order (keys.filter (· ≠ ['!', '.'])))
  if ['!', '.'] ∈ keys then expected ++ ["EOF".toList] else expected

/-- `(*parser).parse` (zparser.go:2200-2261) with entry point `File`: the value and `*p.errs` before `dedupe`. -/
def dParse (order : List Str → List Str) (G : Grammar) (n : Nat) (data : List Sym) : Option (Dyn × List PError) :=
  match dRun G n (.ruleRef .File) (dInit data) with
  | none => none
  | some (.ok v s) => some (v, s.errs)
  | some (.fail s) =>
    some (.nil, if s.errs.isEmpty then (s.addErrAt (.noMatch (expectedList order s.maxFailExpected)) s.maxFailPos).errs else s.errs)
  | some (.panic s) => some (.nil, (s.addErrAt .panicked s.pt.pos).errs)

/-- `strings.Join`. (zparser.go:2270, 1927-1935) -/
def strJoin (sep : Str) : List Str → Str
  | [] => []
  | [x] => x
  | x :: y :: l => x ++ sep ++ strJoin sep (y :: l)

/-- `listJoin` (zparser.go:2263-2272) with the arguments of its only call. -/
def listJoin : List Str → Str
  | [] => []
  | [x] => x
  | x :: y :: l => strJoin [',', ' '] (x :: y :: l).dropLast ++ " or ".toList ++ (y :: l).getLast (by simp)

/-- `rule.name` (zparser.go:31, 150, 480, 497, 937, 1043, 1107). -/
def RuleName.str : RuleName → Str
  | .File => "File".toList
  | .Rule => "Rule".toList
  | .Value => "Value".toList
  | .SExpr => "SExpr".toList
  | .Operand => "Operand".toList
  | .Expr => "Expr".toList
  | .Call => "Call".toList

/-- The texts of errors that come from outside: what `goexpr.Parse` reports about a text, and what the Go runtime says in a panic. (zparser.go:1942) -/
structure Texts where
  goError : Str → Str
  panic : Str

/-- `Inner.Error()`. (zparser.go:1657, 1950, 2217-2220, 2255) -/
def Problem.text (T : Texts) : Problem → Str
  | .invalidEncoding => "invalid encoding".toList -- zparser.go:1657
  | .goError t => T.goError t
  | .unknownOperand => "unknown operand".toList
  | .panicked => T.panic
  | .noMatch expected => "no match found, expected: ".toList ++ listJoin expected

/-- `(*parserError).Error` (zparser.go:1949-1951) with the prefix made by `addErrAt` (zparser.go:2119-2137). -/
def PError.text (T : Texts) (filename : Str) (e : PError) : Str :=
  (if filename = [] then [] else filename ++ [':']) ++ natStr e.pos.line ++ [':'] ++ natStr e.pos.col ++ " (".toList ++ natStr e.pos.offset ++ [')'] ++
    (match e.rule with | some r => ": rule ".toList ++ r.str | none => []) ++ [':', ' '] ++ e.problem.text T

/-- The loop of `dedupe` (zparser.go:1908-1918); `seen` is `set`. -/
def dedupe (text : PError → Str) : List Str → List PError → List PError
  | _, [] => []
  | seen, e :: es => if text e ∈ seen then dedupe text seen es else e :: dedupe text (text e :: seen) es

/-- `errList.Error` (zparser.go:1920-1937). -/
def errListText (text : PError → Str) (es : List PError) : Str := strJoin ['\n'] (es.map text)

/-- What `parse.Reader(filename, r)` (parse/parse.go:21-23), `parse.String` (parse/parse.go:26-28, with the filename `string`) and
`parse.File` (parse/parse.go:15-17) return when the data `bs` could be read: the file, or the list of errors (`errList`). -/
inductive Parsed where
  | file (f : File)
  | errors (es : List PError)
  | panic

/-- See `Parsed` (parse/parse.go:15-35, zparser.go:2200-2261). -/
def parseFull (lib : GoLib) (T : Texts) (order : List Str → List Str) (filename : Str) (bs : List UInt8) : Parsed :=
  match dParse order (ruleGrammar lib) (depthBound bs.length) (decode bs) with
  | some (.file f, []) => .file f
  | some (_, e :: es) => .errors (dedupe (PError.text T filename) [] (e :: es))
  | _ => .panic

end Verif

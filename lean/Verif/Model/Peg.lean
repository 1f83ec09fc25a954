import Verif.Model.Utf8
import Verif.Model.Goexpr
/-!
# Model of the PEG machine in parse/internal/parser/zparser.go

The grammar is data (`PExpr`), interpreted by `run`; see `Model/Grammar.lean` for the table `g` itself.
Not here: positions and texts of error messages (`failAt`, `maxFail…`, `rstack`, `dedupe`; see Model/PegErr.lean) and the counter `ExprCnt` (see
Model/PegCount.lean; its limit, zparser.go:2286, is the largest uint64 and so never exceeded).  Not modelled: the constructs the table does not use (`andExpr`, code predicates, `throwExpr`, `recoveryExpr`, `ignoreCase`,
Unicode classes).
-/
namespace Verif

/-- Names of the rules of `g` (zparser.go:31, 150, 480, 497, 937, 1043, 1107). -/
inductive RuleName where
  | File | Rule | Value | SExpr | Operand | Expr | Call
  deriving DecidableEq, Repr

/-- The semantic actions (zparser.go:1384-1638), named as in the source. -/
inductive Act where
  | onFile1 | onRule25 | onRule50 | onRule1
  | onSExpr6 | onSExpr26 | onSExpr33 | onSExpr40 | onSExpr29 | onSExpr22 | onSExpr1
  | onOperand2 | onOperand8 | onOperand14 | onExpr3 | onExpr8 | onCall1
  deriving DecidableEq, Repr

/-- The labels used in `g`. (zparser.go:28-1382) -/
inductive Label where
  | rs | m | cond | block | r | binding | op | operands | ellipsis | trailing | parts | first | rest
  deriving DecidableEq, Repr

/-- Grammar expressions (zparser.go:1813-1891). -/
inductive PExpr where
  /-- `actionExpr` -/
  | action (run : Act) (e : PExpr)
  /-- `anyMatcher` -/
  | any
  /-- `charClassMatcher` without `ignoreCase` and Unicode classes -/
  | cls (chars : List Char) (ranges : List (Char × Char)) (inverted : Bool)
  /-- `choiceExpr` -/
  | choice (alternatives : List PExpr)
  /-- `labeledExpr` -/
  | labeled (label : Label) (e : PExpr)
  /-- `litMatcher` -/
  | lit (val : List Char)
  /-- `notExpr` -/
  | not (e : PExpr)
  /-- `oneOrMoreExpr` -/
  | oneOrMore (e : PExpr)
  /-- `ruleRefExpr` -/
  | ruleRef (name : RuleName)
  /-- `seqExpr` -/
  | seq (es : List PExpr)
  /-- `zeroOrMoreExpr` -/
  | zeroOrMore (e : PExpr)
  /-- `zeroOrOneExpr` -/
  | zeroOrOne (e : PExpr)

/-- `interface{}` values that occur during a parse. (the results of zparser.go:2274-2604 and of the actions at zparser.go:1384-1652) -/
inductive Dyn where
  | nil
  /-- `[]byte` -/
  | bytes (s : Str)
  /-- `[]interface{}` (possibly nil or empty) -/
  | list (vs : List Dyn)
  /-- `ast.Variable` -/
  | variable (s : Str)
  /-- `ast.Opcode` -/
  | opcode (s : Str)
  /-- `ast.OpcodeAlt` -/
  | opcodeAlt (cs : List Str)
  /-- `ast.OpcodeParts` -/
  | opcodeParts (ps : List OpPart)
  /-- `ast.Type` -/
  | type (s : Str)
  /-- `*valueauxint` (zparser.go:24) -/
  | auxint (e : GoExpr)
  /-- `*valueaux` (zparser.go:25) -/
  | aux (e : GoExpr)
  /-- `*ast.Expr` -/
  | expr (e : GoExpr)
  /-- `*ast.SExpr` -/
  | sexpr (h : Hdr) (args : List Value)
  /-- `*ast.Rule` -/
  | rule (r : Rule)
  /-- `*ast.File` -/
  | file (f : File)
  /-- `string` -/
  | str (s : Str)
  deriving Repr

/-- One entry of `p.vstack` (zparser.go:2034): a map from labels to values; a missing key reads as nil. -/
abbrev Frame := Label → Dyn

/-- `make(map[string]interface{})` (zparser.go:2074). -/
def Frame.empty : Frame := fun _ => .nil

/-- `m[lab.label] = val` (zparser.go:2464). -/
def Frame.set (fr : Frame) (l : Label) (v : Dyn) : Frame := fun l' => if l' = l then v else fr l'

/-- Entries of `p.errs`.  Simplification: positions and prefixes of messages are dropped. (zparser.go:1894, 2026) -/
inductive PErr where
  /-- `errInvalidEncoding` (zparser.go:2175) -/
  | invalidEncoding
  /-- the error of a semantic action (zparser.go:2341) -/
  | action (e : Err)
  /-- a recovered panic (zparser.go:2215-2220) -/
  | panicked
  /-- "no match found" (zparser.go:2255) -/
  | noMatch
  deriving DecidableEq, Repr

/-- The part of `parser` that matters.  `pos` is the input from `p.pt.offset` on, so its head is the current rune (`p.pt.rn`,
`p.pt.w`) and `[]` is end of input; `frame` is the top of `p.vstack` (pushes and pops are balanced, so the rest of the stack is the
caller's); `errs` is `*p.errs`.  `asked` is not in the code: it records the texts handed to `goexpr.Parse` so far. (zparser.go:2020-2055) -/
structure St where
  pos : List Sym
  frame : Frame
  errs : List PErr
  asked : List Str

/-- Outcome of a `parse…` method: match with a value, no match, or a Go panic.
(Every method that does not match returns a nil value, so `fail` carries none.) (zparser.go:2274-2604) -/
inductive POut where
  | ok (v : Dyn) (s : St)
  | fail (s : St)
  | panic (s : St)

/-- The end of `read` (zparser.go:2174-2178): an invalid byte that becomes current is recorded as an error.
`allowInvalidUTF8` is false (no options are passed, parse/parse.go:16,22). -/
def noteBad (s : St) : St :=
  match s.pos with
  | .bad _ :: _ => { s with errs := s.errs ++ [.invalidEncoding] }
  | _ => s

/-- `read` (zparser.go:2162-2178): advance to the next rune; at end of input the width is 0 and nothing moves. -/
def read (s : St) : St := noteBad { s with pos := s.pos.tail }

/-- `sliceFrom` (zparser.go:2189-2191) as text.  Simplification: an invalid byte in it reads as U+FFFD; the error for it is already recorded. -/
def sliceFrom (start cur : List Sym) : Str := (start.take (start.length - cur.length)).map Sym.rune

/-- Membership in `chr.chars` or one of `chr.ranges` (zparser.go:2396-2422). -/
def inClass (chars : List Char) (ranges : List (Char × Char)) (c : Char) : Bool :=
  chars.contains c || ranges.any (fun r => r.1 ≤ c && c ≤ r.2)

/-- `parseCharClassMatcher` (zparser.go:2381-2441). -/
def parseCls (chars : List Char) (ranges : List (Char × Char)) (inverted : Bool) (s : St) : POut :=
  match s.pos with
  | [] => .fail s
  | x :: _ =>
    if inClass chars ranges x.rune then
      if inverted then .fail s else .ok (.bytes (sliceFrom s.pos (read s).pos)) (read s)
    else
      if inverted then .ok (.bytes (sliceFrom s.pos (read s).pos)) (read s) else .fail s

/-- `parseAnyMatcher` (zparser.go:2369-2379). -/
def parseAny (s : St) : POut :=
  match s.pos with
  | [] => .fail s
  | _ :: _ => .ok (.bytes (sliceFrom s.pos (read s).pos)) (read s)

/-- The loop of `parseLitMatcher` (zparser.go:2471-2483); `start` is the position to restore. -/
def litLoop (start : List Sym) : List Char → St → POut
  | [], s => .ok (.bytes (sliceFrom start s.pos)) s
  | want :: rest, s =>
    match s.pos with
    | [] => .fail { s with pos := start }
    | x :: _ => if x.rune = want then litLoop start rest (read s) else .fail { s with pos := start }

/-- What a semantic action returns: a value, an error (with a nil value), or a panic; and the text it handed to `goexpr.Parse`. (zparser.go:1821, 2337-2345) -/
inductive ActOut where
  | ok (v : Dyn)
  | err (e : Err)
  | panic

/-- A grammar: its rule table and its actions.  An action gets the labels of the current frame and `c.text`;
`asks` is the text it hands to `goexpr.Parse`, if any. (zparser.go:1801-1822) -/
structure Grammar where
  rules : RuleName → PExpr
  act : Act → Frame → Str → ActOut
  asks : Act → Str → Option Str

/-- `act.run(p)` and what follows (zparser.go:2337-2345), after the inner expression matched from `start` to `s.pos`. -/
def runAction (G : Grammar) (a : Act) (start : List Sym) (s : St) : POut :=
  let text := sliceFrom start s.pos
  let s := { s with asked := s.asked ++ (G.asks a text).toList }
  match G.act a s.frame text with
  | .ok v => .ok v s
  | .err e => .ok .nil { s with errs := s.errs ++ [.action e] }
  | .panic => .panic s

/-- `popV` (zparser.go:2079-2087): back to the frame `fr` that was current before `pushV`. -/
def popTo (fr : Frame) : POut → POut
  | .ok v s => .ok v { s with frame := fr }
  | .fail s => .fail { s with frame := fr }
  | .panic s => .panic s

/-- `pushV` (zparser.go:2058-2076). -/
def push (s : St) : St := { s with frame := Frame.empty }

mutual
/-- `parseExpr` (zparser.go:2283-2331).  The first argument bounds the depth of the recursion (a loop iteration counts as one level);
`none` means the bound was too small, see C21 for a bound that always suffices. -/
def run (G : Grammar) : Nat → PExpr → St → Option POut
  | 0, _, _ => none
  | n + 1, .action a e, s => -- parseActionExpr (zparser.go:2333-2347)
    match run G n e s with
    | some (.ok _ s') => some (runAction G a s.pos s')
    | o => o
  | _ + 1, .any, s => some (parseAny s)
  | _ + 1, .cls chars ranges inv, s => some (parseCls chars ranges inv s)
  | n + 1, .choice es, s => runChoice G n es s -- parseChoiceExpr (zparser.go:2443-2456)
  | n + 1, .labeled l e, s => -- parseLabeledExpr (zparser.go:2458-2467)
    match (run G n e (push s)).map (popTo s.frame) with
    | some (.ok v s') => some (.ok v { s' with frame := s'.frame.set l v })
    | o => o
  | _ + 1, .lit val, s => some (litLoop s.pos val s) -- parseLitMatcher (zparser.go:2469-2485)
  | n + 1, .not e, s => -- parseNotExpr (zparser.go:2496-2506)
    match (run G n e (push s)).map (popTo s.frame) with
    | some (.ok _ s') => some (.fail { s' with pos := s.pos })
    | some (.fail s') => some (.ok .nil { s' with pos := s.pos })
    | o => o
  | n + 1, .oneOrMore e, s => runLoop G n e true [] s -- parseOneOrMoreExpr (zparser.go:2508-2525)
  | n + 1, .ruleRef name, s => (run G n (G.rules name) (push s)).map (popTo s.frame) -- parseRuleRefExpr, parseRule (zparser.go:2535-2546, 2274-2281)
  | n + 1, .seq es, s => runSeq G n s.pos es [] s -- parseSeqExpr (zparser.go:2548-2561)
  | n + 1, .zeroOrMore e, s => runLoop G n e false [] s -- parseZeroOrMoreExpr (zparser.go:2576-2588)
  | n + 1, .zeroOrOne e, s => -- parseZeroOrOneExpr (zparser.go:2590-2596)
    match (run G n e (push s)).map (popTo s.frame) with
    | some (.fail s') => some (.ok .nil s')
    | o => o
/-- The loop of `parseChoiceExpr` (zparser.go:2444-2455). -/
def runChoice (G : Grammar) : Nat → List PExpr → St → Option POut
  | 0, _, _ => none
  | _ + 1, [], s => some (.fail s)
  | n + 1, e :: es, s =>
    match (run G n e (push s)).map (popTo s.frame) with
    | some (.fail s') => runChoice G n es s'
    | o => o
/-- The loop of `parseSeqExpr` (zparser.go:2552-2560); `start` is the position to restore. -/
def runSeq (G : Grammar) : Nat → List Sym → List PExpr → List Dyn → St → Option POut
  | 0, _, _, _, _ => none
  | _ + 1, _, [], vals, s => some (.ok (.list vals) s)
  | n + 1, start, e :: es, vals, s =>
    match run G n e s with
    | some (.ok v s') => runSeq G n start es (vals ++ [v]) s'
    | some (.fail s') => some (.fail { s' with pos := start })
    | o => o
/-- The loops of `parseOneOrMoreExpr` (`need = true`, zparser.go:2511-2524) and `parseZeroOrMoreExpr`
(`need = false`, zparser.go:2579-2587). -/
def runLoop (G : Grammar) : Nat → PExpr → Bool → List Dyn → St → Option POut
  | 0, _, _, _, _ => none
  | n + 1, e, need, vals, s =>
    match (run G n e (push s)).map (popTo s.frame) with
    | some (.ok v s') => runLoop G n e need (vals ++ [v]) s'
    | some (.fail s') => if need && vals.isEmpty then some (.fail s') else some (.ok (.list vals) s')
    | o => o
end

/-- The state in which `newParser` (zparser.go:1954-1980) and the first `read` (zparser.go:2232) leave the machine. -/
def initSt (data : List Sym) : St := noteBad { pos := data, frame := Frame.empty, errs := [], asked := [] }

/-- `(*parser).parse` (zparser.go:2200-2261) with entry point `File`, after decoding: the value and the error list (empty means nil
error).  A panic in an action is recovered (zparser.go:2211-2224): the value is nil and an error is added. -/
def parseSyms (G : Grammar) (n : Nat) (data : List Sym) : Option (Dyn × List PErr × List Str) :=
  match run G n (.ruleRef .File) (initSt data) with
  | none => none
  | some (.ok v s) => some (v, s.errs, s.asked)
  | some (.fail s) => some (.nil, if s.errs.isEmpty then [.noMatch] else s.errs, s.asked)
  | some (.panic s) => some (.nil, s.errs ++ [.panicked], s.asked)

end Verif

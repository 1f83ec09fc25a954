import Verif.Model.Parse
/-!
# Model of the counter `ExprCnt` of the PEG machine (zparser.go:2000-2003, 2285)

`parser.Stats.ExprCnt` counts the calls of `parseExpr`.  `runN` is `run` (Model/Peg.lean) together with the number of calls made.  The limit on this number
(zparser.go:2286-2288) is the largest uint64 (zparser.go:1976-1978; the option `MaxExpressions` is never passed), so a counter of this type never exceeds it.
The other statistic, `ChoiceAltCnt` (zparser.go:2005-2017), is not modelled.
-/
namespace Verif

/-- An outcome with a number of calls, to which `k` more are added. (zparser.go:2285) -/
def addCalls (k : Nat) : Option (POut × Nat) → Option (POut × Nat)
  | some (o, c) => some (o, k + c)
  | none => none

/-- `popTo` where the number of calls is counted as well. (zparser.go:2079-2087, 2285) -/
def popToN (fr : Frame) : Option (POut × Nat) → Option (POut × Nat)
  | some (o, c) => some (popTo fr o, c)
  | none => none

mutual
/-- `parseExpr` (zparser.go:2283-2331), which counts itself (zparser.go:2285). -/
def runN (G : Grammar) : Nat → PExpr → St → Option (POut × Nat)
  | 0, _, _ => none
  | n + 1, .action a e, s => -- parseActionExpr (zparser.go:2333-2347)
    match runN G n e s with
    | some (.ok _ s', c) => some (runAction G a s.pos s', c + 1)
    | o => addCalls 1 o
  | _ + 1, .any, s => some (parseAny s, 1)
  | _ + 1, .cls chars ranges inv, s => some (parseCls chars ranges inv s, 1)
  | n + 1, .choice es, s => addCalls 1 (runNChoice G n es s) -- parseChoiceExpr (zparser.go:2443-2456)
  | n + 1, .labeled l e, s => -- parseLabeledExpr (zparser.go:2458-2467)
    match popToN s.frame (runN G n e (push s)) with
    | some (.ok v s', c) => some (.ok v { s' with frame := s'.frame.set l v }, c + 1)
    | o => addCalls 1 o
  | _ + 1, .lit val, s => some (litLoop s.pos val s, 1) -- parseLitMatcher (zparser.go:2469-2485)
  | n + 1, .not e, s => -- parseNotExpr (zparser.go:2496-2506)
    match popToN s.frame (runN G n e (push s)) with
    | some (.ok _ s', c) => some (.fail { s' with pos := s.pos }, c + 1)
    | some (.fail s', c) => some (.ok .nil { s' with pos := s.pos }, c + 1)
    | o => addCalls 1 o
  | n + 1, .oneOrMore e, s => addCalls 1 (runNLoop G n e true [] s) -- parseOneOrMoreExpr (zparser.go:2508-2525)
  | n + 1, .ruleRef name, s => addCalls 1 (popToN s.frame (runN G n (G.rules name) (push s))) -- parseRuleRefExpr, parseRule (zparser.go:2535-2546, 2274-2281)
  | n + 1, .seq es, s => addCalls 1 (runNSeq G n s.pos es [] s) -- parseSeqExpr (zparser.go:2548-2561)
  | n + 1, .zeroOrMore e, s => addCalls 1 (runNLoop G n e false [] s) -- parseZeroOrMoreExpr (zparser.go:2576-2588)
  | n + 1, .zeroOrOne e, s => -- parseZeroOrOneExpr (zparser.go:2590-2596)
    match popToN s.frame (runN G n e (push s)) with
    | some (.fail s', c) => some (.ok .nil s', c + 1)
    | o => addCalls 1 o
/-- The loop of `parseChoiceExpr` (zparser.go:2444-2455). -/
def runNChoice (G : Grammar) : Nat → List PExpr → St → Option (POut × Nat)
  | 0, _, _ => none
  | _ + 1, [], s => some (.fail s, 0)
  | n + 1, e :: es, s =>
    match popToN s.frame (runN G n e (push s)) with
    | some (.fail s', c) => addCalls c (runNChoice G n es s')
    | o => o
/-- The loop of `parseSeqExpr` (zparser.go:2552-2560). -/
def runNSeq (G : Grammar) : Nat → List Sym → List PExpr → List Dyn → St → Option (POut × Nat)
  | 0, _, _, _, _ => none
  | _ + 1, _, [], vals, s => some (.ok (.list vals) s, 0)
  | n + 1, start, e :: es, vals, s =>
    match runN G n e s with
    | some (.ok v s', c) => addCalls c (runNSeq G n start es (vals ++ [v]) s')
    | some (.fail s', c) => some (.fail { s' with pos := start }, c)
    | o => o
/-- The loops of `parseOneOrMoreExpr` and `parseZeroOrMoreExpr` (zparser.go:2511-2524, 2579-2587). -/
def runNLoop (G : Grammar) : Nat → PExpr → Bool → List Dyn → St → Option (POut × Nat)
  | 0, _, _, _, _ => none
  | n + 1, e, need, vals, s =>
    match popToN s.frame (runN G n e (push s)) with
    | some (.ok v s', c) => addCalls c (runNLoop G n e need (vals ++ [v]) s')
    | some (.fail s', c) => if need && vals.isEmpty then some (.fail s', c) else some (.ok (.list vals) s', c)
    | o => o
end

/-- `ExprCnt` after `parse.String`, `parse.Reader` or `parse.File` on the bytes `bs` (the calls made by `p.parseRule(startRule)`, zparser.go:2233, 2277). -/
def exprCnt (lib : GoLib) (bs : List UInt8) : Nat :=
  match runN (ruleGrammar lib) (depthBound bs.length) ((ruleGrammar lib).rules .File) (push (initSt (decode bs))) with
  | some (_, c) => c
  | none => 0

end Verif

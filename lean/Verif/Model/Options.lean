import Verif.Model.PegCount
import Verif.Model.PegErr
/-!
# Model of the options of the generated parser (zparser.go:1666-1735, 1954-1988, 2200-2261, 2283-2288)

`parser.Parse`, `parser.ParseReader` and `parser.ParseFile` take options.  Package `parse` passes none (parse/parse.go:16, 22), which is the case of `parseBytes`
(Model/Parse.lean; C72 proves the agreement).
-/
namespace Verif

/-- `Option` (zparser.go:1666): the five constructors of options (zparser.go:1673, 1688, 1705, 1719, 1729). -/
inductive Opt where
  | maxExpressions (n : UInt64)
  | entrypoint (ruleName : Str)
  | allowInvalidUTF8 (b : Bool)
  | recover (b : Bool)
  | globalStore (key : Str) (value : Dyn)

/-- The fields of `parser` that options set (zparser.go:2020-2056).  A key that is missing from `globalStore` reads as nil. -/
structure Config where
  maxExprCnt : UInt64
  entrypoint : Str
  allowInvalidUTF8 : Bool
  recover : Bool
  globalStore : Str → Dyn

/-- The rules in the order of the table. (zparser.go:28-1382) -/
def ruleNames : List RuleName := [.File, .Rule, .Value, .SExpr, .Operand, .Expr, .Call]

/-- `p.rules[name]` after `buildRulesTable` (zparser.go:2193-2198, 2226). -/
def ruleNamed (name : Str) : Option RuleName := ruleNames.find? fun r => r.str == name

/-- Applying an option (zparser.go:1673-1735): the new fields, and the option that it returns. -/
def Opt.apply : Opt → Config → Config × Opt
  | .maxExpressions n, p => ({ p with maxExprCnt := n }, .maxExpressions p.maxExprCnt)
  | .entrypoint name, p =>
    ({ p with entrypoint := if name = [] then RuleName.File.str else name }, .entrypoint p.entrypoint)
  | .allowInvalidUTF8 b, p => ({ p with allowInvalidUTF8 := b }, .allowInvalidUTF8 p.allowInvalidUTF8)
  | .recover b, p => ({ p with recover := b }, .recover p.recover)
  | .globalStore k v, p => ({ p with globalStore := fun k' => if k' = k then v else p.globalStore k' }, .globalStore k (p.globalStore k))

/-- The fields before any option (zparser.go:1959-1973). -/
def Config.default : Config where
  maxExprCnt := 0
  entrypoint := RuleName.File.str
  allowInvalidUTF8 := false
  recover := true
  globalStore := fun _ => .nil

/-- `setOptions` (zparser.go:1984-1988) on the new parser (zparser.go:1974). -/
def configOf (opts : List Opt) : Config := opts.foldl (fun p o => (o.apply p).1) Config.default

/-- The limit in force (zparser.go:1976-1978).  0 is replaced by the largest uint64; the counter has this type too and so never exceeds it: no limit. -/
def Config.limit (p : Config) : Option Nat :=
  if p.maxExprCnt = 0 ∨ p.maxExprCnt.toNat = 2 ^ 64 - 1 then none else some p.maxExprCnt.toNat

/-- `p.ExprCnt > p.maxExprCnt` (zparser.go:2286). -/
def over : Option Nat → Nat → Bool
  | none, _ => false
  | some m, c => m < c

/-- How a call of `parseExpr` ends: as without limit, with the value of `ExprCnt` then, or with the panic of zparser.go:2287. -/
inductive LOut where
  | done (o : POut) (cnt : Nat)
  | limit (s : St)

/-- `popV` (zparser.go:2079-2087); a panic skips it. -/
def popToL (fr : Frame) : LOut → LOut
  | .done o c => .done (popTo fr o) c
  | .limit s => .limit s

mutual
/-- `parseExpr` (zparser.go:2283-2331) with its counter and limit (zparser.go:2285-2288); `c` is `ExprCnt` before the call.  The rest is as in `run` (Model/Peg.lean). -/
def runL (lim : Option Nat) (G : Grammar) : Nat → PExpr → St → Nat → Option LOut
  | 0, _, _, _ => none
  | n + 1, e, s, c =>
    if over lim (c + 1) then some (.limit s) else
    match e with
    | .action a e => -- parseActionExpr (zparser.go:2333-2347)
      match runL lim G n e s (c + 1) with
      | some (.done (.ok _ s') c') => some (.done (runAction G a s.pos s') c')
      | o => o
    | .any => some (.done (parseAny s) (c + 1))
    | .cls chars ranges inv => some (.done (parseCls chars ranges inv s) (c + 1))
    | .choice es => runLChoice lim G n es s (c + 1) -- parseChoiceExpr (zparser.go:2443-2456)
    | .labeled l e => -- parseLabeledExpr (zparser.go:2458-2467)
      match (runL lim G n e (push s) (c + 1)).map (popToL s.frame) with
      | some (.done (.ok v s') c') => some (.done (.ok v { s' with frame := s'.frame.set l v }) c')
      | o => o
    | .lit val => some (.done (litLoop s.pos val s) (c + 1)) -- parseLitMatcher (zparser.go:2469-2485)
    | .not e => -- parseNotExpr (zparser.go:2496-2506)
      match (runL lim G n e (push s) (c + 1)).map (popToL s.frame) with
      | some (.done (.ok _ s') c') => some (.done (.fail { s' with pos := s.pos }) c')
      | some (.done (.fail s') c') => some (.done (.ok .nil { s' with pos := s.pos }) c')
      | o => o
    | .oneOrMore e => runLLoop lim G n e true [] s (c + 1) -- parseOneOrMoreExpr (zparser.go:2508-2525)
    | .ruleRef name => (runL lim G n (G.rules name) (push s) (c + 1)).map (popToL s.frame) -- parseRuleRefExpr, parseRule (zparser.go:2535-2546, 2274-2281)
    | .seq es => runLSeq lim G n s.pos es [] s (c + 1) -- parseSeqExpr (zparser.go:2548-2561)
    | .zeroOrMore e => runLLoop lim G n e false [] s (c + 1) -- parseZeroOrMoreExpr (zparser.go:2576-2588)
    | .zeroOrOne e => -- parseZeroOrOneExpr (zparser.go:2590-2596)
      match (runL lim G n e (push s) (c + 1)).map (popToL s.frame) with
      | some (.done (.fail s') c') => some (.done (.ok .nil s') c')
      | o => o
/-- The loop of `parseChoiceExpr` (zparser.go:2444-2455). -/
def runLChoice (lim : Option Nat) (G : Grammar) : Nat → List PExpr → St → Nat → Option LOut
  | 0, _, _, _ => none
  | _ + 1, [], s, c => some (.done (.fail s) c)
  | n + 1, e :: es, s, c =>
    match (runL lim G n e (push s) c).map (popToL s.frame) with
    | some (.done (.fail s') c') => runLChoice lim G n es s' c'
    | o => o
/-- The loop of `parseSeqExpr` (zparser.go:2552-2560). -/
def runLSeq (lim : Option Nat) (G : Grammar) : Nat → List Sym → List PExpr → List Dyn → St → Nat → Option LOut
  | 0, _, _, _, _, _ => none
  | _ + 1, _, [], vals, s, c => some (.done (.ok (.list vals) s) c)
  | n + 1, start, e :: es, vals, s, c =>
    match runL lim G n e s c with
    | some (.done (.ok v s') c') => runLSeq lim G n start es (vals ++ [v]) s' c'
    | some (.done (.fail s') c') => some (.done (.fail { s' with pos := start }) c')
    | o => o
/-- The loops of `parseOneOrMoreExpr` and `parseZeroOrMoreExpr` (zparser.go:2511-2524, 2579-2587). -/
def runLLoop (lim : Option Nat) (G : Grammar) : Nat → PExpr → Bool → List Dyn → St → Nat → Option LOut
  | 0, _, _, _, _, _ => none
  | n + 1, e, need, vals, s, c =>
    match (runL lim G n e (push s) c).map (popToL s.frame) with
    | some (.done (.ok v s') c') => runLLoop lim G n e need (vals ++ [v]) s' c'
    | some (.done (.fail s') c') => if need && vals.isEmpty then some (.done (.fail s') c') else some (.done (.ok (.list vals) s') c')
    | o => o
end

/-- Entries of `p.errs` when options are used.  Simplification as for `PErr`: positions and prefixes are dropped. (zparser.go:2026) -/
inductive OErr where
  | base (e : PErr)
  /-- `errMaxExprCnt` (zparser.go:2287, recovered: zparser.go:2217) -/
  | maxExprCnt
  /-- `errInvalidEntrypoint` (zparser.go:2228) -/
  | invalidEntrypoint
  deriving DecidableEq, Repr

/-- What `parser.Parse` does: it returns a value and the list of errors (empty: nil error), or panics. (zparser.go:1764-1766) -/
inductive OptOut where
  | ret (v : Dyn) (errs : List OErr)
  | panic

/-- What `read` sees (zparser.go:2162-2178): with `allowInvalidUTF8` an invalid byte is U+FFFD and no error.  Simplification: so it is in the texts given to the actions,
where the code keeps the byte; on valid UTF-8 there is no difference. -/
def Config.symbols (p : Config) (data : List Sym) : List Sym :=
  if p.allowInvalidUTF8 then data.map fun x => .ok x.rune else data

/-- `(*parser).parse` (zparser.go:2200-2261), with the recursion depth bounded by `n`; `none`: the bound was too small. -/
def parseWith (lib : GoLib) (n : Nat) (p : Config) (bs : List UInt8) : Option OptOut :=
  match ruleNamed p.entrypoint with
  | none => some (.ret .nil [.invalidEntrypoint])
  | some r =>
    match runL p.limit (ruleGrammar lib) n ((ruleGrammar lib).rules r) (push (initSt (p.symbols (decode bs)))) 0 with
    | none => none
    | some (.done (.ok v s) _) => some (.ret v (s.errs.map .base))
    | some (.done (.fail s) _) => some (.ret .nil ((if s.errs.isEmpty then [.noMatch] else s.errs).map .base))
    | some (.done (.panic s) _) => some (if p.recover then .ret .nil (s.errs.map .base ++ [.base .panicked]) else .panic)
    | some (.limit s) => some (if p.recover then .ret .nil (s.errs.map .base ++ [.maxExprCnt]) else .panic)

/-- `parser.Parse(filename, bs, opts...)` (zparser.go:1764-1766); the depth always suffices (C72_terminates). -/
def parserParse (lib : GoLib) (opts : List Opt) (bs : List UInt8) : OptOut :=
  (parseWith lib (depthBound bs.length) (configOf opts) bs).getD .panic

/-- `ExprCnt` at the end of a parse with these options, if there were no limit. (zparser.go:2003, 2285) -/
def exprCntWith (lib : GoLib) (opts : List Opt) (bs : List UInt8) : Nat :=
  match ruleNamed (configOf opts).entrypoint with
  | none => 0
  | some r =>
    match runN (ruleGrammar lib) (depthBound bs.length) ((ruleGrammar lib).rules r) (push (initSt ((configOf opts).symbols (decode bs)))) with
    | some (_, c) => c
    | none => 0

end Verif

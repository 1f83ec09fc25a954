import Verif.Model.Walk
import Verif.Model.Printer
import Verif.Model.Expand
import Verif.Model.Smt2
import Verif.Model.Filter
/-!
# ASTs with nil pointers

The other models have no nil `*ast.File`, `*ast.Rule` and `*ast.SExpr`, and no nil `*ast.Expr` inside an `ast.Value`.  An AST made by hand may contain
them (the parser makes none).  Here are ast/walk.go, rules/rules.go, printer/printer.go, pass/alt.go, smt2/generate.go and the filter of the command
again, for ASTs in which every such pointer may be nil: reading a field through a nil pointer is a panic.

Simplification: pointers to nodes of package go/ast are still never nil.
-/
namespace Verif

/-- `ast.Value` (ast/ast.go:29-32), where the pointer in the interface may be nil. -/
inductive NValue where
  | nil
  /-- `(*ast.SExpr)(nil)` -/
  | sexprNil
  | sexpr (h : Hdr) (args : List NValue)
  /-- `(*ast.Expr)(nil)` -/
  | exprNil
  | expr (e : GoExpr)
  | var (name : Str)
  deriving Repr

/-- `ast.Rule` (ast/ast.go:20-25). -/
structure NRule where
  «match» : NValue
  condition : Option GoExpr := none
  block : Str := []
  result : NValue
  deriving Repr

/-- `ast.File` (ast/ast.go:14-16); `none` is a nil `*Rule`. -/
structure NFile where
  rules : List (Option NRule)
  deriving Repr

/-- `ast.Node` (ast/ast.go:10-12), where the pointer in the interface may be nil. -/
inductive NNode where
  | nil
  | fileNil
  | file (f : NFile)
  | ruleNil
  | rule (r : NRule)
  | sexprNil
  | sexpr (h : Hdr) (args : List NValue)
  | opcode (s : Str)
  | parts (ps : List OpPart)
  | alt (cs : List Str)
  | exprNil
  | expr (e : GoExpr)
  | var (name : Str)
  deriving Repr

/-- Conversion of an `ast.Value` interface to `ast.Node` (as at ast/walk.go:26-27, 32). -/
def NValue.toNNode : NValue → NNode
  | .nil => .nil
  | .sexprNil => .sexprNil
  | .sexpr h args => .sexpr h args
  | .exprNil => .exprNil
  | .expr e => .expr e
  | .var x => .var x

/-- Conversion of a `*ast.Rule` to `ast.Node` (as at ast/walk.go:22). -/
def ruleNode : Option NRule → NNode
  | none => .ruleNil
  | some r => .rule r

/-- Conversion of an `ast.Op` interface to `ast.Node` (as at ast/walk.go:30). -/
def Op.toNNode : Op → NNode
  | .nil => .nil
  | .opcode s => .opcode s
  | .parts ps => .parts ps

/-- Conversion of an `ast.OpPart` interface to `ast.Node` (as at ast/walk.go:37). -/
def OpPart.toNNode : OpPart → NNode
  | .nil => .nil
  | .opcode s => .opcode s
  | .alt cs => .alt cs

/-- `x; y` for calls that work by side effects and may panic (as at ast/walk.go:26-27). -/
def Out.andThen {σ : Type} (o : Out σ) (f : σ → Out σ) : Out σ :=
  match o with
  | .done s => f s
  | .panic s => .panic s

/-! ## ast/walk.go -/

/-- `ast.Visitor` (ast/walk.go:7-12).  `Visit` may panic: it may read fields of the node. -/
structure NVisiting (V σ : Type) where
  visit : V → NNode → σ → Out (σ × Option V)

variable {V σ : Type}

/-- The first statement of `Walk` (ast/walk.go:15-17), and what follows if the visitor is not nil. -/
def visitThen (vis : NVisiting V σ) (v : V) (n : NNode) (k : V → σ → Out σ) (s : σ) : Out σ :=
  match vis.visit v n s with
  | .panic (s', _) => .panic s'
  | .done (s', none) => .done s'
  | .done (s', some w) => k w s'

/-- `Walk` on a node without children (ast/walk.go:40-47): nothing to do, or `default: panic`. -/
def nwalkLeaf (vis : NVisiting V σ) (v : V) (n : NNode) : σ → Out σ :=
  visitThen vis v n fun _ s => match n with | .nil => .panic s | _ => .done s

/-- `Walk` on an `ast.Op` (ast/walk.go:14-17, 35-41). -/
def nwalkOp (vis : NVisiting V σ) (v : V) (o : Op) : σ → Out σ :=
  match o with
  | .parts ps => visitThen vis v (.parts ps) fun w => forEach (fun p => nwalkLeaf vis w p.toNNode) ps
  | o => nwalkLeaf vis v o.toNNode

mutual
/-- `Walk` on an `ast.Value` (ast/walk.go:14-17, 29-33, 43-47).  `n.Op` of a nil `*SExpr` is a panic (ast/walk.go:30). -/
def nwalkValue (vis : NVisiting V σ) (v : V) : NValue → σ → Out σ
  | .sexpr h args => visitThen vis v (.sexpr h args) fun w s => (nwalkOp vis w h.op s).andThen (nwalkValues vis w args)
  | .sexprNil => visitThen vis v .sexprNil fun _ s => .panic s
  | .nil => nwalkLeaf vis v .nil
  | .exprNil => nwalkLeaf vis v .exprNil
  | .expr e => nwalkLeaf vis v (.expr e)
  | .var x => nwalkLeaf vis v (.var x)
/-- The loop over `n.Args` (ast/walk.go:31-33). -/
def nwalkValues (vis : NVisiting V σ) (v : V) : List NValue → σ → Out σ
  | [], s => .done s
  | a :: as, s => (nwalkValue vis v a s).andThen (nwalkValues vis v as)
end

/-- `Walk` on a `*ast.Rule` (ast/walk.go:14-17, 25-27).  `n.Match` of a nil `*Rule` is a panic (ast/walk.go:26). -/
def nwalkRule (vis : NVisiting V σ) (v : V) : Option NRule → σ → Out σ
  | none => visitThen vis v .ruleNil fun _ s => .panic s
  | some r => visitThen vis v (.rule r) fun w s => (nwalkValue vis w r.match s).andThen (nwalkValue vis w r.result)

/-- `ast.Walk` (ast/walk.go:14-49).  `n.Rules` of a nil `*File` is a panic (ast/walk.go:21). -/
def nwalk (vis : NVisiting V σ) (v : V) : NNode → σ → Out σ
  | .fileNil => visitThen vis v .fileNil fun _ s => .panic s
  | .file f => visitThen vis v (.file f) fun w => forEach (nwalkRule vis w) f.rules
  | .ruleNil => nwalkRule vis v none
  | .rule r => nwalkRule vis v (some r)
  | .sexprNil => nwalkValue vis v .sexprNil
  | .sexpr h args => nwalkValue vis v (.sexpr h args)
  | .parts ps => nwalkOp vis v (.parts ps)
  | n => nwalkLeaf vis v n

/-- `inspector` (ast/walk.go:58-65), for a callback that may panic. -/
def ninspector (f : NNode → σ → Out (σ × Bool)) : NVisiting Unit σ where
  visit _ n s :=
    match f n s with
    | .panic (s', _) => .panic (s', none)
    | .done (s', true) => .done (s', some ())
    | .done (s', false) => .done (s', none)

/-- `ast.Inspect` (ast/walk.go:54-56). -/
def ninspect (n : NNode) (f : NNode → σ → Out (σ × Bool)) (s : σ) : Out σ := nwalk (ninspector f) () n s

/-- `ast.Contains` (ast/walk.go:69-76) with a predicate without side effects that may panic (`none`); a panic is `none`. -/
def ncontains (n : NNode) (pred : NNode → Option Bool) : Option Bool :=
  match ninspect n (fun n found =>
      if found then .done (true, false) -- found || predicate(n)
      else match pred n with
        | none => .panic (found, false)
        | some b => .done (b, !b)) false with
  | .done found => some found
  | .panic _ => none

/-! ## rules/rules.go -/

/-- `s, ok := n.(*ast.SExpr); return ok && p(s)` where `p` reads a field of `s` (rules/rules.go:7-8, 14-15, 21-22, 28-29, 35-36, 42-43). -/
def onSExpr (p : Hdr → Bool) : NNode → Option Bool
  | .sexpr h _ => some (p h)
  | .sexprNil => none
  | _ => some false

/-- rules/rules.go:5-10 -/
def nhasBinding (r : Option NRule) : Option Bool := ncontains (ruleNode r) (onSExpr fun h => h.binding != [])
/-- rules/rules.go:12-17 -/
def nhasType (r : Option NRule) : Option Bool := ncontains (ruleNode r) (onSExpr fun h => h.type != [])
/-- rules/rules.go:19-24 -/
def nhasAux (r : Option NRule) : Option Bool := ncontains (ruleNode r) (onSExpr fun h => h.aux.isSome)
/-- rules/rules.go:26-31 -/
def nhasAuxInt (r : Option NRule) : Option Bool := ncontains (ruleNode r) (onSExpr fun h => h.auxInt.isSome)
/-- rules/rules.go:33-38 -/
def nhasEllipsis (r : Option NRule) : Option Bool := ncontains (ruleNode r) (onSExpr fun h => h.ellipsis)
/-- rules/rules.go:40-45 -/
def nhasTrailing (r : Option NRule) : Option Bool := ncontains (ruleNode r) (onSExpr fun h => h.trailing)

/-! ## printer/printer.go -/

mutual
/-- `value` (printer/printer.go:90-101) and `sexpr` (printer/printer.go:103-152).  `s.Binding` of a nil `*SExpr` (printer/printer.go:105) and `v.Expr` of a
nil `*Expr` (printer/printer.go:95) are panics. -/
def npvalue (W : Writer σ) : NValue → PState σ → Out (PState σ)
  | .sexpr h args, p =>
    let p := if h.binding ≠ [] then printf W (h.binding ++ [':']) p else p
    let p := printf W ['('] p
    let p := pop W h.op p
    let p := if h.type ≠ [] then printf W ([' ', '<'] ++ h.type ++ ['>']) p else p
    let p := match h.auxInt with
      | some e => printf W [']'] (pgoexpr W e (printf W [' ', '['] p))
      | none => p
    let p := match h.aux with
      | some e => printf W ['}'] (pgoexpr W e (printf W [' ', '{'] p))
      | none => p
    (npvalues W args p).andThen fun p =>
    let p := if h.ellipsis then printf W [' ', '.', '.', '.'] p else p
    let p := if h.trailing then printf W [' ', '_', '_', '_'] p else p
    .done (printf W [')'] p)
  | .sexprNil, p => .panic p
  | .exprNil, p => .panic p
  | .expr e, p => .done (pgoexpr W e p)
  | .var v, p => .done (printf W v p)
  | .nil, p => .done (p.seterror (some (.unexpectedType nilType)))
/-- The loop over the arguments (printer/printer.go:134-138) -/
def npvalues (W : Writer σ) : List NValue → PState σ → Out (PState σ)
  | [], p => .done p
  | a :: as, p => (npvalue W a (printf W [' '] p)).andThen (npvalues W as)
end

/-- `rule` (printer/printer.go:68-88).  `r.Match` of a nil `*Rule` is a panic (printer/printer.go:70). -/
def nprule (W : Writer σ) : Option NRule → PState σ → Out (PState σ)
  | none, p => .panic p
  | some r, p =>
    (npvalue W r.match p).andThen fun p =>
    let p := match r.condition with
      | some e => pgoexpr W e (printf W [' ', '&', '&', ' '] p)
      | none => p
    let p := printf W [' ', '=', '>', ' '] p
    let p := if r.block ≠ [] then printf W (['@'] ++ r.block ++ [' ']) p else p
    npvalue W r.result p

/-- The loop over the rules of a file (printer/printer.go:49-52). -/
def nprules (W : Writer σ) : List (Option NRule) → PState σ → Out (PState σ)
  | [], p => .done p
  | r :: rs, p => (nprule W r p).andThen fun p => nprules W rs (printf W ['\n'] p)

/-- `node` (printer/printer.go:46-66).  `n.Rules` of a nil `*File` is a panic (printer/printer.go:49). -/
def npnode (W : Writer σ) (n : NNode) (p : PState σ) : Out (PState σ) :=
  match n with
  | .fileNil => .panic p
  | .file f => nprules W f.rules p
  | .ruleNil => nprule W none p
  | .rule r => nprule W (some r) p
  | .sexprNil => npvalue W .sexprNil p
  | .sexpr h args => npvalue W (.sexpr h args) p
  | .exprNil => npvalue W .exprNil p
  | .expr e => npvalue W (.expr e) p
  | .var v => npvalue W (.var v) p
  | .opcode s => .done (pop W (.opcode s) p)
  | .parts ps => .done (pop W (.parts ps) p)
  | .alt _ => .done (p.seterror (some (.unexpectedType "ast.OpcodeAlt".toList)))
  | .nil => .done (p.seterror (some (.unexpectedType nilType)))

/-- `Fprint` (printer/printer.go:31-35): the writer's final state and, if it returns, the error. -/
def nfprint (W : Writer σ) (n : NNode) (w : σ) : Out (σ × Option Err) :=
  match npnode W n { w := w, err := none } with
  | .done p => .done (p.w, p.err)
  | .panic p => .panic (p.w, p.err)

/-- `Bytes` (printer/printer.go:17-23) -/
def nprintBytes (n : NNode) : Res Str :=
  match nfprint bufferWriter n [] with
  | .panic _ => .panic
  | .done (_, some e) => .err e
  | .done (buf, none) => .ok buf

/-! ## pass/alt.go -/

/-- The body of the loop generating alternate S-expressions (pass/alt.go:104-122). -/
def nbuildSExpr (h : Hdr) (opcodes : List Str) (expargs : List (List NValue)) (i : Nat) : Res NValue := do
  let o ← getIdx opcodes (idx i opcodes.length)
  let args ← forRes (fun alts => getIdx alts (idx i alts.length)) expargs
  .ok (.sexpr { h with op := .opcode o } args)

mutual
/-- `expandvalue` (pass/alt.go:64-73) and `expandsexpr` (pass/alt.go:75-125).  `s.Op` of a nil `*SExpr` is a panic (pass/alt.go:77); a nil `*Expr` is
handed through (pass/alt.go:68-69). -/
def nexpandvalue : NValue → Res (List NValue)
  | .sexpr h args => do
    let opcodes ← expandop h.op
    let (n, expargs) ← nexpandargs opcodes.length args
    if n = 1 then .ok [.sexpr h args]
    else forRes (nbuildSExpr h opcodes expargs) (List.range n)
  | .sexprNil => .panic
  | .exprNil => .ok [.exprNil]
  | .expr e => .ok [.expr e]
  | .var v => .ok [.var v]
  | .nil => .err (.unexpectedType nilType)
/-- The loop over the arguments (pass/alt.go:85-98). -/
def nexpandargs : Nat → List NValue → Res (Nat × List (List NValue))
  | n, [] => .ok (n, [])
  | n, a :: as => do
    let exparg ← nexpandvalue a
    let n' ← resolvecounts n exparg.length
    let (m, rest) ← nexpandargs n' as
    .ok (m, exparg :: rest)
end

/-- The body of the loop generating alternate rules (pass/alt.go:52-59). -/
def nbuildRule (r : NRule) (ms rs : List NValue) (i : Nat) : Res NRule := do
  let m ← getIdx ms (idx i ms.length)
  let v ← getIdx rs (idx i rs.length)
  .ok { «match» := m, condition := r.condition, block := r.block, result := v }

/-- `expandrule` (pass/alt.go:31-62).  `r.Match` of a nil `*Rule` is a panic (pass/alt.go:32). -/
def nexpandrule : Option NRule → Res (List NRule)
  | none => .panic
  | some r => do
    let ms ← nexpandvalue r.match
    let rs ← nexpandvalue r.result
    let n ← resolvecounts ms.length rs.length
    if n = 1 then .ok [r]
    else forRes (nbuildRule r ms rs) (List.range n)

/-- `ExpandAlternates` (pass/alt.go:10-17) and `expandrules` (pass/alt.go:19-29); `none` is a nil `*File` (`f.Rules`: pass/alt.go:11).  The rules returned
are not nil. -/
def nexpandAlternates : Option NFile → Res (List NRule)
  | none => .panic
  | some f => do
    let xss ← forRes nexpandrule f.rules
    .ok xss.flatten

/-! ## smt2/generate.go -/

mutual
/-- `generator.eval` (smt2/generate.go:80-91) and `generator.sexpr` (smt2/generate.go:154-208).  `s.Binding` of a nil `*SExpr` is a panic
(smt2/generate.go:157). -/
def ngeval : NValue → Option GoType → GM SmtValue
  | .var v, t, st => gvariable v t st
  | .sexpr h args, t, st =>
    match unsupported h with
    | some e => .err e
    | none =>
      match h.op with
      | .opcode opcode =>
        match operations opcode with
        | none => .err (.notSupported ("opcode ".toList ++ opcode))
        | some op => do
          let params ← (op.params t).wrap (opcode ++ ": ".toList)
          if params.length ≠ args.length then
            .err (.other (opcode ++ ": expect ".toList ++ natStr params.length ++ " arguments got ".toList ++ natStr args.length))
          else do
            let (vs, st') ← ngevals opcode 0 args params st
            let v ← (op.evaluate vs).wrap (opcode ++ ": ".toList)
            .ok (v, st')
      | _ => .err (.other "unexpanded opcode".toList)
  | .sexprNil, _, _ => .panic
  | .exprNil, _, _ => .err (.unexpectedType "*ast.Expr".toList)
  | .expr _, _, _ => .err (.unexpectedType "*ast.Expr".toList)
  | .nil, _, _ => .err (.unexpectedType nilType)
/-- The loop over the arguments (smt2/generate.go:192-199). -/
def ngevals (opcode : Str) : Nat → List NValue → List (Option GoType) → GM (List SmtValue)
  | _, [], _, st => .ok ([], st)
  | _, _ :: _, [], _ => .panic
  | i, a :: as, p :: ps, st => do
    let (v, st') ← (ngeval a p st).wrap (opcode ++ ": evaluate argument ".toList ++ natStr i ++ ": ".toList)
    let (vs, st'') ← ngevals opcode (i + 1) as ps st'
    .ok (v :: vs, st'')
end

/-- `Generate` and `generator.generate` (smt2/generate.go:16-27, 36-78); `none` is a nil `*Rule`: it gets as far as `printer.Bytes` (smt2/generate.go:42). -/
def ngenerate (r : Option NRule) : Res Str := do
  let out := "(set-info :smt-lib-version 2.6)\n".toList ++ "(set-logic QF_BV)\n".toList
  let rule ← nprintBytes (ruleNode r)
  let out := out ++ "; ".toList ++ replaceNewlines rule ++ "\n".toList
  match r with
  | none => .panic
  | some r => do
    let (m, st) ← ngeval r.match none { out := out, vars := [] }
    if r.condition.isSome then .err (.notSupported "rule conditions".toList)
    else if r.block ≠ [] then .err (.notSupported "rule blocks".toList)
    else do
      let (res, st) ← ngeval r.result (some m.type) st
      .ok (st.out ++ "(assert (not (= ".toList ++ m.expr ++ [' '] ++ res.expr ++ ")))\n".toList ++ "(check-sat)\n".toList ++ "(exit)\n".toList)

/-! ## The filter of cmd/ssarules/main.go -/

/-- The condition of the `if` in `load` without the outer negation (cmd/ssarules/main.go:80-87).  `r.Condition` of a nil `*Rule` is a panic. -/
def nhasFeature (r : Option NRule) : Option Bool :=
  match r with
  | none => none
  | some q =>
    orElseB (some q.condition.isSome) <|
    orElseB (some (q.block != [])) <|
    orElseB (nhasBinding r) <|
    orElseB (nhasType r) <|
    orElseB (nhasAux r) <|
    orElseB (nhasAuxInt r) <|
    orElseB (nhasEllipsis r) <|
    nhasTrailing r

end Verif

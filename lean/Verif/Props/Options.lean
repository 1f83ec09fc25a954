import Verif.Proof.OptionsMain
import Verif.Props.Count
/-!
# C72: the options of the generated parser

`parserParse lib opts bs` is `parser.Parse(filename, bs, opts...)`: it returns a value and a list of errors (none: nil error), or panics.
-/
namespace Verif.Props
open Verif Verif.Spec Verif.Proof Verif.Proof.Opts

/-- C72.  Every parse comes to an end, whatever the options. -/
theorem C72_terminates (lib : GoLib) (opts : List Opt) (bs : List UInt8) : parseWith lib (depthBound bs.length) (configOf opts) bs = some (parserParse lib opts bs) := by
  rw [parserParse]
  cases hr : ruleNamed (configOf opts).entrypoint with
  | none => simp [parseWith, hr]
  | some r =>
    obtain ⟨o, k, h⟩ := entry_run lib r (configOf opts) bs (depthBound bs.length) (Nat.le_refl _)
    obtain ⟨h1, h2⟩ := parseWith_cases lib (configOf opts) bs _ hr h
    cases ho : over (configOf opts).limit k with
    | false => rw [h1 ho]; rfl
    | true => obtain ⟨s, -, h3⟩ := h2 ho; rw [h3]; rfl

/-- C72.  Only four things matter: the last entry point, the last limit, the last `Recover` and the last `AllowInvalidUTF8`.  The order of options of different kinds,
options overridden by later ones, and `GlobalStore` do not. -/
theorem C72_depends (lib : GoLib) (opts opts' : List Opt) (bs : List UInt8) (h1 : entryOf opts = entryOf opts') (h2 : limitOf opts = limitOf opts')
    (h3 : recoverOf opts = recoverOf opts') (h4 : allowOf opts = allowOf opts') : parserParse lib opts bs = parserParse lib opts' bs := by
  rw [← config_entry, ← config_entry] at h1
  rw [← config_limit, ← config_limit] at h2
  rw [← config_recover, ← config_recover] at h3
  rw [← config_allow, ← config_allow] at h4
  unfold parserParse parseWith Config.symbols
  rw [h1, h2, h3, h4]

/-- C72.  Without options it is the parser of package `parse`. -/
theorem C72_no_options (lib : GoLib) (bs : List UInt8) :
    (∀ f, parseBytes lib bs = .ok f ↔ parserParse lib [] bs = .ret (.file f) []) ∧
    ((∃ e, parseBytes lib bs = .err e) ↔ ∃ v e es, parserParse lib [] bs = .ret v (e :: es)) := by
  obtain ⟨o, -, h2, h3⟩ := default_run lib bs
  have key : parserParse lib [] bs ≠ .panic ∧ ∀ f, parseBytes lib bs = .ok f ↔ parserParse lib [] bs = .ret (.file f) [] := by
    refine ⟨by rw [h3]; cases o <;> simp [resultOf], fun f => ?_⟩
    rw [parse_ok_iff, h2, h3]
    cases o with
    | ok v s =>
      simp only [popTo, resultOf, Option.some.injEq, POut.ok.injEq, OptOut.ret.injEq, List.map_eq_nil_iff]
      exact ⟨fun ⟨s', ⟨e1, e2⟩, e3⟩ => ⟨e1, by rw [← e2] at e3; exact e3⟩, fun ⟨e1, e2⟩ => ⟨_, ⟨e1, rfl⟩, e2⟩⟩
    | fail s => simp [popTo, resultOf]
    | panic s => simp [popTo, resultOf]
  refine ⟨key.2, ?_⟩
  constructor
  · rintro ⟨e, he⟩
    cases h : parserParse lib [] bs with
    | panic => exact absurd h key.1
    | ret v es =>
      cases es with
      | cons e' es => exact ⟨v, e', es, rfl⟩
      | nil =>
        exfalso
        obtain ⟨s, h4, hs⟩ : ∃ s : St, o = .ok v s ∧ s.errs = [] := by
          rw [h3] at h
          cases o with
          | ok w s => simp only [resultOf, OptOut.ret.injEq, List.map_eq_nil_iff] at h; obtain ⟨rfl, h⟩ := h; exact ⟨s, rfl, h⟩
          | fail s => simp only [resultOf, OptOut.ret.injEq, List.map_eq_nil_iff] at h; have := h.2; split at this <;> simp_all
          | panic s => simp [resultOf] at h
        subst h4
        rw [parseBytes, parseDepth, parseSyms, h2] at he
        simp only [popTo, Option.map_some, Option.getD_some, hs] at he
        unfold castFile at he
        split at he <;> simp_all
  · rintro ⟨v, e, es, h⟩
    rcases C22_total lib bs with ⟨f, hf⟩ | he
    · rw [key.2 f, h] at hf; simp at hf
    · exact he

/-- C72.  Options that say what holds anyway change nothing: the entry point `File`, a limit that is not reached, `AllowInvalidUTF8` on valid UTF-8, and
`Recover(false)` if nothing panics. -/
theorem C72_unused (lib : GoLib) (opts : List Opt) (bs : List UInt8) (he : entryOf opts = "File".toList) (hm : ∀ n, limitOf opts = some n → exprCnt lib bs ≤ n)
    (ha : allowOf opts = true → ∃ cs, bs = utf8 cs) (hr : recoverOf opts = false → ∀ v es, parserParse lib [] bs = .ret v es → .base .panicked ∉ es) :
    parserParse lib opts bs = parserParse lib [] bs := by
  have hn : ruleNamed (configOf opts).entrypoint = some .File := by rw [config_entry, he]; decide
  have hsym : (configOf opts).symbols (decode bs) = decode bs := by
    unfold Config.symbols
    rw [config_allow]
    split
    · rename_i h; obtain ⟨cs, rfl⟩ := ha h; rw [decode_utf8]; simp [Function.comp_def, Sym.rune]
    · rfl
  obtain ⟨o, h1, h2, -⟩ := parser_cases lib opts bs hn
  obtain ⟨o', h1', -, h3⟩ := default_run lib bs
  rw [hsym] at h1
  have h1 : runN (ruleGrammar lib) (depthBound bs.length) gFile (push (initSt (decode bs))) = some (o, exprCntWith lib opts bs) := h1
  rw [h1'] at h1
  simp only [Option.some.injEq, Prod.mk.injEq] at h1
  obtain ⟨rfl, hk⟩ := h1
  rw [h2 ?_, h3, config_recover]
  · cases hrec : recoverOf opts with
    | true => rfl
    | false =>
      cases o' with
      | ok v s => rfl
      | fail s => rfl
      | panic s => exact absurd (List.mem_append_right _ (List.mem_singleton.2 rfl)) (hr hrec .nil (s.errs.map .base ++ [.base .panicked]) (by rw [h3]; rfl))
  · rw [← hk, config_limit]
    cases hl : limitOf opts with
    | none => rfl
    | some n => have := hm n hl; simp only [over, decide_eq_false_iff_not]; omega

theorem limitOf_zero (opts : List Opt) : limitOf (opts ++ [.maxExpressions 0]) = none := by
  simp [limitOf, lastOf, List.filterMap_append]

theorem config_append (opts : List Opt) (o : Opt) : configOf (opts ++ [o]) = (o.apply (configOf opts)).1 := by
  simp [configOf, List.foldl_append]

/-- C72.  `MaxExpressions(n)` stops exactly the parses that would evaluate more than `n` expressions; the others are as without limit.  A stopped parse returns nil, the first
of the errors that the parse without limit reports (none, some or all) and the error for the limit (or panics, if `Recover` is off). -/
theorem C72_limit (lib : GoLib) (opts : List Opt) (bs : List UInt8) (n : Nat) (h : limitOf opts = some n) :
    (exprCntWith lib opts bs ≤ n → parserParse lib opts bs = parserParse lib (opts ++ [.maxExpressions 0]) bs) ∧
    (n < exprCntWith lib opts bs → ∃ errs, parserParse lib opts bs = (if recoverOf opts then .ret .nil (errs ++ [.maxExprCnt]) else .panic) ∧
      ∀ v es, parserParse lib (opts ++ [.maxExpressions 0]) bs = .ret v es → errs <+: es) := by
  have e0 : (configOf (opts ++ [.maxExpressions 0])).entrypoint = (configOf opts).entrypoint := by rw [config_append]; rfl
  have e1 : (configOf (opts ++ [.maxExpressions 0])).recover = (configOf opts).recover := by rw [config_append]; rfl
  have e2 : (configOf (opts ++ [.maxExpressions 0])).symbols = (configOf opts).symbols := by
    funext d; rw [config_append]; rfl
  have e3 : exprCntWith lib (opts ++ [.maxExpressions 0]) bs = exprCntWith lib opts bs := by unfold exprCntWith; rw [e0, e2]
  cases hr : ruleNamed (configOf opts).entrypoint with
  | none =>
    refine ⟨fun _ => by simp [parserParse, parseWith, hr, e0], fun hlt => ?_⟩
    simp [exprCntWith, hr] at hlt
  | some r =>
    obtain ⟨o, h1, h2, h3⟩ := parser_cases lib opts bs hr
    obtain ⟨o', h1', h2', -⟩ := parser_cases lib (opts ++ [.maxExpressions 0]) bs (r := r) (by rw [e0, hr])
    rw [e2, h1, e3] at h1'
    simp only [Option.some.injEq, Prod.mk.injEq] at h1'
    obtain ⟨rfl, -⟩ := h1'
    rw [config_limit, limitOf_zero, e1] at h2'
    have h2' := h2' rfl
    rw [config_limit, h] at h2 h3
    refine ⟨fun hle => by rw [h2', h2 (by simp only [over, decide_eq_false_iff_not]; omega)], fun hlt => ?_⟩
    obtain ⟨s, hs, h4⟩ := h3 (by simp only [over, decide_eq_true_eq]; exact hlt)
    refine ⟨s.errs.map .base, by rw [h4, config_recover], fun v es hes => ?_⟩
    rw [h2'] at hes
    have hm : ∀ l : List PErr, s.errs <+: l → s.errs.map OErr.base <+: l.map OErr.base := fun l hl => by
      obtain ⟨t, rfl⟩ := hl; rw [List.map_append]; exact List.prefix_append _ _
    cases o with
    | ok w s' => simp only [resultOf, OptOut.ret.injEq] at hes; obtain ⟨-, rfl⟩ := hes; exact hm _ hs
    | fail s' =>
      simp only [resultOf, OptOut.ret.injEq] at hes; obtain ⟨-, rfl⟩ := hes
      refine hm _ ?_
      split
      · rename_i hemp
        have hs : s.errs <+: s'.errs := hs
        rw [List.isEmpty_iff.1 hemp, List.prefix_nil] at hs; rw [hs]; exact List.nil_prefix
      · exact hs
    | panic s' =>
      simp only [resultOf] at hes
      split at hes
      · simp only [OptOut.ret.injEq] at hes; obtain ⟨-, rfl⟩ := hes
        exact (hm _ hs).trans (List.prefix_append _ _)
      · simp at hes

/-- The number that the limit is compared with is `exprCnt` of C59 for the default entry point. -/
theorem C72_count (lib : GoLib) (opts : List Opt) (bs : List UInt8) (he : entryOf opts = "File".toList) (ha : allowOf opts = false) : exprCntWith lib opts bs = exprCnt lib bs := by
  rw [← config_entry] at he
  rw [← config_allow] at ha
  unfold exprCntWith Config.symbols
  rw [he, ha]; rfl

/-- C72.  A limit of 250 times the number of bytes and 710 stops no parse of a file. -/
theorem C72_limit_enough {lib : GoLib} (hl : RejectsComment lib) (opts : List Opt) (bs : List UInt8) (n : Nat) (h : limitOf opts = some n) (he : entryOf opts = "File".toList)
    (ha : allowOf opts = false) (hn : 250 * bs.length + 710 ≤ n) : parserParse lib opts bs = parserParse lib (opts ++ [.maxExpressions 0]) bs := by
  refine (C72_limit lib opts bs n h).1 ?_
  rw [C72_count lib opts bs he ha]
  exact Nat.le_trans (C59_linear hl bs) hn

/-- C72.  With the default `Recover` the parser never panics; with `Recover(false)` it panics exactly where it would have returned the error of a recovered panic
(of an action, or of the limit), and otherwise returns the same. -/
theorem C72_recover (lib : GoLib) (opts : List Opt) (bs : List UInt8) :
    ∃ v es, parserParse lib (opts ++ [.recover true]) bs = .ret v es ∧
      parserParse lib (opts ++ [.recover false]) bs = (if .base .panicked ∈ es ∨ .maxExprCnt ∈ es then .panic else .ret v es) := by
  have e0 : ∀ b, (configOf (opts ++ [.recover b])).entrypoint = (configOf opts).entrypoint := fun b => by rw [config_append]; rfl
  have e1 : ∀ b, (configOf (opts ++ [.recover b])).limit = (configOf opts).limit := fun b => by rw [config_append]; rfl
  have e2 : ∀ b, (configOf (opts ++ [.recover b])).symbols = (configOf opts).symbols := fun b => by funext d; rw [config_append]; rfl
  have e3 : ∀ b, exprCntWith lib (opts ++ [.recover b]) bs = exprCntWith lib opts bs := fun b => by unfold exprCntWith; rw [e0, e2]
  have e4 : ∀ b, (configOf (opts ++ [.recover b])).recover = b := fun b => by rw [config_append]; rfl
  have hbase : ∀ l : List PErr, PErr.panicked ∉ l → ¬ (OErr.base .panicked ∈ l.map OErr.base ∨ OErr.maxExprCnt ∈ l.map OErr.base) := by
    intro l hl hmem
    rcases hmem with hmem | hmem
    · obtain ⟨x, hx, e⟩ := List.mem_map.1 hmem; cases e; exact hl hx
    · obtain ⟨x, hx, e⟩ := List.mem_map.1 hmem; cases e
  cases hr : ruleNamed (configOf opts).entrypoint with
  | none =>
    refine ⟨.nil, [.invalidEntrypoint], by simp [parserParse, parseWith, e0, hr], ?_⟩
    rw [if_neg (by simp)]
    simp [parserParse, parseWith, e0, hr]
  | some r =>
    obtain ⟨o, h1, h2, h3⟩ := parser_cases lib (opts ++ [.recover true]) bs (r := r) (by rw [e0, hr])
    have hcl := run_clean h1
    -- the run is the same with `Recover(false)`
    have hL := fun b => (runL_all (ruleGrammar lib) (depthBound bs.length)).1 (configOf opts).limit ((ruleGrammar lib).rules r) (push (initSt ((configOf opts).symbols (decode bs)))) 0
      (by cases (configOf opts).limit <;> simp [over]) o b
    have hres : ∀ b, parserParse lib (opts ++ [.recover b]) bs =
        (match runL (configOf opts).limit (ruleGrammar lib) (depthBound bs.length) ((ruleGrammar lib).rules r) (push (initSt ((configOf opts).symbols (decode bs)))) 0 with
          | none => OptOut.panic
          | some (.done o _) => resultOf b o
          | some (.limit s) => if b then .ret .nil (s.errs.map .base ++ [.maxExprCnt]) else .panic) := by
      intro b
      unfold parserParse parseWith
      rw [e0, hr]
      simp only [e1, e2, e4]
      cases runL (configOf opts).limit (ruleGrammar lib) (depthBound bs.length) ((ruleGrammar lib).rules r) (push (initSt ((configOf opts).symbols (decode bs)))) 0 with
      | none => rfl
      | some x =>
        cases x with
        | limit s => rfl
        | done o k => cases o <;> rfl
    rw [e2, e3] at h1
    obtain ⟨-, g1, g2⟩ := hL _ h1
    rw [Nat.zero_add] at g1 g2
    cases ho : over (configOf opts).limit (exprCntWith lib opts bs) with
    | true =>
      obtain ⟨s, g3, -, -⟩ := g2 ho
      rw [hres true, hres false, g3]
      exact ⟨_, _, rfl, by rw [if_pos (by simp)]; rfl⟩
    | false =>
      rw [hres true, hres false, g1 ho]
      cases o with
      | ok v s => exact ⟨_, _, rfl, by rw [if_neg (hbase _ (hcl.1 v s rfl))]; rfl⟩
      | fail s =>
        refine ⟨_, _, rfl, ?_⟩
        rw [if_neg (hbase _ ?_)]; · rfl
        split
        · simp
        · exact hcl.2 s rfl
      | panic s => exact ⟨_, _, rfl, by rw [if_pos (by simp)]; rfl⟩

/-- C72.  An entry point that is not a rule of the grammar gives an error, whatever the text and the other options; nothing is parsed. -/
theorem C72_entry_unknown (lib : GoLib) (opts : List Opt) (bs : List UInt8)
    (h : entryOf opts ∉ ["File", "Rule", "Value", "SExpr", "Operand", "Expr", "Call"].map String.toList) :
    parserParse lib opts bs = .ret .nil [.invalidEntrypoint] ∧ exprCntWith lib opts bs = 0 := by
  have hn : ruleNamed (configOf opts).entrypoint = none := by
    rw [ruleNamed_none, config_entry]
    intro r e
    apply h; rw [e]; cases r <;> decide
  constructor
  · simp [parserParse, parseWith, hn]
  · simp [exprCntWith, hn]

/-- C72.  Another entry point parses a prefix: what is accepted begins with a text of the rule, and the value is that of this text.  The rest is ignored, except for `File`. -/
theorem C72_entry_sound (lib : GoLib) (opts : List Opt) (cs : Str) (v : Dyn) (h : parserParse lib opts (utf8 cs) = .ret v []) :
    ∃ r t rest, entryOf opts = r.str ∧ cs = t ++ rest ∧ EntryText (goText lib) r t v ∧ (r = .File → rest = []) := by
  cases hr : ruleNamed (configOf opts).entrypoint with
  | none => simp [parserParse, parseWith, hr] at h
  | some r =>
    obtain ⟨o, h1, h2, h3⟩ := parser_cases lib opts (utf8 cs) hr
    cases ho : over (configOf opts).limit (exprCntWith lib opts (utf8 cs)) with
    | true =>
      obtain ⟨s, -, h4⟩ := h3 ho
      rw [h4] at h
      split at h
      · simp at h
      · simp at h
    | false =>
      rw [h2 ho] at h
      cases o with
      | ok w s =>
        simp only [resultOf, OptOut.ret.injEq, List.map_eq_nil_iff] at h
        obtain ⟨rfl, hs⟩ := h
        have hf := (Count.runN_fst (ruleGrammar lib) (depthBound (utf8 cs).length)).1 ((ruleGrammar lib).rules r) (push (initSt ((configOf opts).symbols (decode (utf8 cs)))))
        rw [h1, decode_utf8, symbols_ok] at hf
        obtain ⟨cs', fr', he⟩ := run_exec hf.symm hs
        obtain ⟨t, e, ht, hfile⟩ := entry_sound he
        exact ⟨r, t, cs', by rw [← config_entry]; exact ruleNamed_some hr, e, ht, hfile⟩
      | fail s => simp only [resultOf, OptOut.ret.injEq, List.map_eq_nil_iff] at h; have := h.2; split at this <;> simp_all
      | panic s => simp only [resultOf] at h; split at h <;> simp at h

/-- C72.  Conversely every text of a rule is accepted from that rule, with its value, whatever follows that cannot continue it. -/
theorem C72_entry_complete (lib : GoLib) (hl : RejectsComment lib) (opts : List Opt) (r : RuleName) (he : entryOf opts = r.str) (hm : limitOf opts = none) (t rest : Str) (v : Dyn)
    (ht : EntryText (goText lib) r t v) (hrest : Ended rest) (hf : r = .File → rest = []) : parserParse lib opts (utf8 (t ++ rest)) = .ret v [] := by
  have hr : ruleNamed (configOf opts).entrypoint = some r := by rw [config_entry, he]; exact ruleNamed_str r
  obtain ⟨o, h1, h2, -⟩ := parser_cases lib opts (utf8 (t ++ rest)) hr
  rw [h2 (by rw [config_limit, hm]; rfl)]
  have hf' := (Count.runN_fst (ruleGrammar lib) (depthBound (utf8 (t ++ rest)).length)).1 ((ruleGrammar lib).rules r) (push (initSt ((configOf opts).symbols (decode (utf8 (t ++ rest))))))
  rw [h1, decode_utf8, symbols_ok] at hf'
  obtain ⟨s, rfl, hs⟩ := exec_run (entry_fwd hl ht hrest hf) hf'.symm
  simp [resultOf, hs]

/-- C72.  The option that an option returns sets everything back. -/
theorem C72_undo (opts : List Opt) (o : Opt) : ((o.apply (configOf opts)).2.apply (o.apply (configOf opts)).1).1 = configOf opts := by
  have hne : (configOf opts).entrypoint ≠ [] := by
    rw [config_entry, entryOf]
    split
    · simp
    · split
      · simp
      · assumption
  cases o with
  | entrypoint n => simp only [Opt.apply, if_neg hne]
  | globalStore k v =>
    simp only [Opt.apply]
    have : (fun k' => if k' = k then (configOf opts).globalStore k else if k' = k then v else (configOf opts).globalStore k') = (configOf opts).globalStore := by
      funext k'; by_cases e : k' = k
      · rw [if_pos e, e]
      · rw [if_neg e, if_neg e]
    rw [this]
  | _ => rfl

/-! The hypotheses are met, and the cases occur: -/

example : limitOf [.maxExpressions 542, .recover true] = some 542 ∧ exprCnt demoLib (utf8 demoText) = 543 := by decide +kernel
example : entryOf [.entrypoint "Rule".toList, .entrypoint []] = "File".toList := by decide +kernel
example : entryOf [.entrypoint "Rules".toList] ∉ ["File", "Rule", "Value", "SExpr", "Operand", "Expr", "Call"].map String.toList := by decide +kernel
/-- from `Value`, the text after the value is ignored -/
example : parserParse demoLib [.entrypoint "Value".toList] (utf8 "x y z".toList) = .ret (.variable ['x']) [] := by
  have hx : EntryText (goText demoLib) .Value ['x'] (parsedValue (.var ['x'])) := .value (.expr (.var ⟨'x', [], rfl, by decide, by simp⟩))
  exact C72_entry_complete demoLib demoLib_rejects [.entrypoint "Value".toList] .Value rfl rfl ['x'] " y z".toList _ hx (by intro c hc; simp at hc; subst hc; decide) (by simp)
/-- with `Recover(false)` the recovered panic of C22 is a panic -/
example : (match parserParse demoLib [.recover false] (utf8 "(A g(y) z) => z".toList) with | .panic => true | _ => false) = true := by decide +kernel
example : (match parserParse demoLib [] (utf8 "(A g(y) z) => z".toList) with | .ret _ es => es.contains (.base .panicked) | _ => false) = true := by decide +kernel
/-- one expression too many -/
example : (match parserParse demoLib [.maxExpressions 542] (utf8 demoText) with | .ret .nil es => es == [.maxExprCnt] | _ => false) = true := by decide +kernel
example : (match parserParse demoLib [.maxExpressions 543] (utf8 demoText) with | .ret (.file _) [] => true | _ => false) = true := by decide +kernel

end Verif.Props

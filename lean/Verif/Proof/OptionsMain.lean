import Verif.Proof.Options
import Verif.Proof.CountRun
import Verif.Proof.ParseMain
import Verif.Spec.Options
/-!
# `parser.Parse` with options
-/
namespace Verif.Proof.Opts
open Verif Verif.Spec

/-! ## The options -/

theorem lastOf_nil {α} (f : Opt → Option α) : lastOf f [] = none := rfl

theorem lastOf_cons {α} (f : Opt → Option α) (o : Opt) (l : List Opt) : lastOf f (o :: l) = (lastOf f l).or (f o) := by
  unfold lastOf
  rw [List.filterMap_cons]
  cases h : f o with
  | none => simp
  | some a =>
    simp only [List.getLast?_cons]
    cases (l.filterMap f).getLast? <;> rfl

theorem fold_entry (opts : List Opt) : ∀ p : Config, (opts.foldl (fun p o => (o.apply p).1) p).entrypoint =
    match lastOf (fun | .entrypoint n => some n | _ => none) opts with | none => p.entrypoint | some n => if n = [] then RuleName.File.str else n := by
  induction opts with
  | nil => intro p; rfl
  | cons o l ih =>
    intro p
    rw [List.foldl_cons, ih, lastOf_cons]
    cases lastOf (fun | .entrypoint n => some n | _ => none) l with
    | some n => rfl
    | none => cases o <;> rfl

theorem fold_max (opts : List Opt) : ∀ p : Config, (opts.foldl (fun p o => (o.apply p).1) p).maxExprCnt.toNat =
    (lastOf (fun | .maxExpressions n => some n.toNat | _ => none) opts).getD p.maxExprCnt.toNat := by
  induction opts with
  | nil => intro p; rfl
  | cons o l ih =>
    intro p
    rw [List.foldl_cons, ih, lastOf_cons]
    cases lastOf (fun | .maxExpressions n => some n.toNat | _ => none) l with
    | some n => rfl
    | none => cases o <;> rfl

theorem fold_recover (opts : List Opt) : ∀ p : Config, (opts.foldl (fun p o => (o.apply p).1) p).recover =
    (lastOf (fun | .recover b => some b | _ => none) opts).getD p.recover := by
  induction opts with
  | nil => intro p; rfl
  | cons o l ih =>
    intro p
    rw [List.foldl_cons, ih, lastOf_cons]
    cases lastOf (fun | .recover b => some b | _ => none) l with
    | some n => rfl
    | none => cases o <;> rfl

theorem fold_allow (opts : List Opt) : ∀ p : Config, (opts.foldl (fun p o => (o.apply p).1) p).allowInvalidUTF8 =
    (lastOf (fun | .allowInvalidUTF8 b => some b | _ => none) opts).getD p.allowInvalidUTF8 := by
  induction opts with
  | nil => intro p; rfl
  | cons o l ih =>
    intro p
    rw [List.foldl_cons, ih, lastOf_cons]
    cases lastOf (fun | .allowInvalidUTF8 b => some b | _ => none) l with
    | some n => rfl
    | none => cases o <;> rfl

theorem config_entry (opts : List Opt) : (configOf opts).entrypoint = entryOf opts := by
  rw [configOf, fold_entry, entryOf]; rfl

theorem config_recover (opts : List Opt) : (configOf opts).recover = recoverOf opts := fold_recover opts _

theorem config_allow (opts : List Opt) : (configOf opts).allowInvalidUTF8 = allowOf opts := fold_allow opts _

theorem config_limit (opts : List Opt) : (configOf opts).limit = limitOf opts := by
  have h := fold_max opts Config.default
  have e : ∀ m : UInt64, m = 0 ↔ m.toNat = 0 := fun m => ⟨fun h => by rw [h]; rfl, fun h => UInt64.toNat_inj.1 h⟩
  rw [Config.limit, limitOf, configOf]
  simp only [e]
  rw [h]
  cases lastOf (fun | .maxExpressions n => some n.toNat | _ => none) opts <;> rfl

/-! ## The names -/

theorem ruleNamed_str (r : RuleName) : ruleNamed r.str = some r := by cases r <;> decide

theorem ruleNamed_some {name r} (h : ruleNamed name = some r) : name = r.str := by
  have := List.find?_some h
  exact (eq_of_beq this).symm

theorem ruleNamed_none {name} : ruleNamed name = none ↔ ∀ r : RuleName, name ≠ r.str := by
  constructor
  · rintro h r rfl; rw [ruleNamed_str] at h; simp at h
  · intro h
    cases e : ruleNamed name with
    | none => rfl
    | some r => exact absurd (ruleNamed_some e) (h r)

/-! ## The machine -/

theorem symbols_length (p : Config) (d : List Sym) : (p.symbols d).length = d.length := by unfold Config.symbols; split <;> simp

theorem symbols_ok (p : Config) (cs : Str) : p.symbols (cs.map Sym.ok) = cs.map Sym.ok := by
  unfold Config.symbols; split
  · simp [Function.comp_def, Sym.rune]
  · rfl

/-- From any rule the machine returns. -/
theorem entry_run (lib : GoLib) (r : RuleName) (p : Config) (bs : List UInt8) (n : Nat) (hn : depthBound bs.length ≤ n) :
    ∃ o k, runN (ruleGrammar lib) n ((ruleGrammar lib).rules r) (push (initSt (p.symbols (decode bs)))) = some (o, k) := by
  have h1 := (Count.runN_fst (ruleGrammar lib) n).1 ((ruleGrammar lib).rules r) (push (initSt (p.symbols (decode bs))))
  have h2 : run (ruleGrammar lib) n ((ruleGrammar lib).rules r) (push (initSt (p.symbols (decode bs)))) ≠ none := by
    refine (terminates (rule_checked lib) (K := 200) (by decide) n).1 _ _ (ruleStatic.rank r) ((rule_checked lib).wf r) ?_
    show (initSt (p.symbols (decode bs))).pos.length * 200 + ruleStatic.rank r * 40 + psize (gRules r) ≤ n
    rw [initSt_pos, symbols_length]
    have := decode_length bs
    have : psize (gRules r) < 40 := by cases r <;> decide
    have : ruleStatic.rank r ≤ 4 := by cases r <;> decide
    unfold depthBound at hn
    omega
  cases h3 : runN (ruleGrammar lib) n ((ruleGrammar lib).rules r) (push (initSt (p.symbols (decode bs)))) with
  | none => rw [h3] at h1; exact absurd h1.symm h2
  | some x => exact ⟨x.1, x.2, rfl⟩

/-- The result of a parse that ended with `o`. -/
def resultOf (rec : Bool) : POut → OptOut
  | .ok v s => .ret v (s.errs.map .base)
  | .fail s => .ret .nil ((if s.errs.isEmpty then [.noMatch] else s.errs).map .base)
  | .panic s => if rec then .ret .nil (s.errs.map .base ++ [.base .panicked]) else .panic

theorem parseWith_cases (lib : GoLib) (p : Config) (bs : List UInt8) (n : Nat) {r o k} (hr : ruleNamed p.entrypoint = some r)
    (h : runN (ruleGrammar lib) n ((ruleGrammar lib).rules r) (push (initSt (p.symbols (decode bs)))) = some (o, k)) :
    (over p.limit k = false → parseWith lib n p bs = some (resultOf p.recover o)) ∧
    (over p.limit k = true → ∃ s : St, s.errs <+: (outSt o).errs ∧ parseWith lib n p bs =
      some (if p.recover then .ret .nil (s.errs.map .base ++ [.maxExprCnt]) else .panic)) := by
  have hL := (runL_all (ruleGrammar lib) n).1 p.limit ((ruleGrammar lib).rules r) (push (initSt (p.symbols (decode bs)))) 0
    (by cases p.limit <;> simp [over])
  obtain ⟨-, h2, h3⟩ := hL o k h
  rw [Nat.zero_add] at h2 h3
  unfold parseWith
  rw [hr]
  refine ⟨fun ho => ?_, fun ho => ?_⟩
  · simp only []; rw [h2 ho]; cases o <;> rfl
  · obtain ⟨s, h4, -, h5⟩ := h3 ho
    refine ⟨s, h5, ?_⟩
    simp only []; rw [h4]

theorem exprCntWith_eq {lib opts bs r o k} (hr : ruleNamed (configOf opts).entrypoint = some r)
    (h : runN (ruleGrammar lib) (depthBound bs.length) ((ruleGrammar lib).rules r) (push (initSt ((configOf opts).symbols (decode bs)))) = some (o, k)) :
    exprCntWith lib opts bs = k := by
  unfold exprCntWith; rw [hr]; simp only []; rw [h]

/-- All about a parse. -/
theorem parser_cases (lib : GoLib) (opts : List Opt) (bs : List UInt8) {r} (hr : ruleNamed (configOf opts).entrypoint = some r) :
    ∃ o, runN (ruleGrammar lib) (depthBound bs.length) ((ruleGrammar lib).rules r) (push (initSt ((configOf opts).symbols (decode bs)))) = some (o, exprCntWith lib opts bs) ∧
      (over (configOf opts).limit (exprCntWith lib opts bs) = false → parserParse lib opts bs = resultOf (configOf opts).recover o) ∧
      (over (configOf opts).limit (exprCntWith lib opts bs) = true → ∃ s : St, s.errs <+: (outSt o).errs ∧ parserParse lib opts bs =
        (if (configOf opts).recover then .ret .nil (s.errs.map .base ++ [.maxExprCnt]) else .panic)) := by
  obtain ⟨o, k, h⟩ := entry_run lib r (configOf opts) bs (depthBound bs.length) (Nat.le_refl _)
  have hk := exprCntWith_eq hr h
  obtain ⟨h1, h2⟩ := parseWith_cases lib (configOf opts) bs _ hr h
  subst hk
  refine ⟨o, h, fun ho => by rw [parserParse, h1 ho]; rfl, fun ho => ?_⟩
  obtain ⟨s, h3, h4⟩ := h2 ho
  exact ⟨s, h3, by rw [parserParse, h4]; rfl⟩

/-- Accepted from a rule, seen as a recognizer of characters. -/
theorem run_exec {lib r cs n v s} (h : run (ruleGrammar lib) n ((ruleGrammar lib).rules r) (push (initSt (cs.map Sym.ok))) = some (.ok v s)) (hs : s.errs = []) :
    ∃ cs' fr', exec (ruleGrammar lib) (.ruleRef r) cs Frame.empty = .ok v cs' fr' := by
  have hrun : run (ruleGrammar lib) (n + 1) (.ruleRef r) (st cs Frame.empty []) = some (.ok v { s with frame := Frame.empty }) := by
    rw [initSt_ok] at h
    rw [run, h]; rfl
  have := (sim (ruleGrammar lib) (n + 1)).1 (.ruleRef r) cs Frame.empty []
  rw [hrun] at this
  cases hc : runC (ruleGrammar lib) (n + 1) (.ruleRef r) cs Frame.empty with
  | none => rw [hc] at this; simp [Sim] at this
  | some o =>
    rw [hc] at this
    cases o with
    | fail => obtain ⟨_, _, h⟩ := this; simp at h
    | abort =>
      rcases this with h | ⟨o, ho, hd⟩
      · simp at h
      · simp at ho; subst ho; exact absurd hs hd
    | ok v cs' fr' =>
      obtain ⟨asked, ho⟩ := this
      simp at ho
      obtain ⟨rfl, -⟩ := ho
      exact ⟨cs', fr', lim_eq (runF_mono _ _ _ _) hc⟩

theorem exec_run {lib r cs n o v cs' fr'} (h : exec (ruleGrammar lib) (.ruleRef r) cs Frame.empty = .ok v cs' fr')
    (ho : run (ruleGrammar lib) n ((ruleGrammar lib).rules r) (push (initSt (cs.map Sym.ok))) = some o) : ∃ s, o = .ok v s ∧ s.errs = [] := by
  obtain ⟨m, hm⟩ := lim_spec h (by simp)
  have h1 := (sim (ruleGrammar lib) m).1 (.ruleRef r) cs Frame.empty []
  have hm : runC (ruleGrammar lib) m (.ruleRef r) cs Frame.empty = _ := hm
  rw [hm] at h1
  obtain ⟨asked, h2⟩ := h1
  have hrun : run (ruleGrammar lib) (n + 1) (.ruleRef r) (st cs Frame.empty []) = some (popTo Frame.empty o) := by
    rw [initSt_ok] at ho
    rw [run, ho]; rfl
  have := run_det _ hrun h2
  cases o with
  | ok w s => simp only [popTo, POut.ok.injEq] at this; obtain ⟨rfl, h3⟩ := this; exact ⟨s, rfl, by have := congrArg St.errs h3; exact this⟩
  | fail s => simp [popTo] at this
  | panic s => simp [popTo] at this

/-! ## The texts of the rules -/

theorem parsedValue_eq (v : Value) : parsedValue v = valDyn v := by cases v <;> rfl
theorem parsedOperand_eq (o : Operand) : parsedOperand o = operandDyn o := by cases o <;> first | rfl | exact parsedValue_eq _

theorem entry_sound {lib r cs v cs' fr'} (h : exec (ruleGrammar lib) (.ruleRef r) cs Frame.empty = .ok v cs' fr') :
    ∃ t, cs = t ++ cs' ∧ EntryText (goText lib) r t v ∧ (r = .File → cs' = []) := by
  cases r with
  | File =>
    obtain ⟨rfl, rs, rfl, hf⟩ := file_sound h
    exact ⟨cs, by simp, .file hf, fun _ => rfl⟩
  | Rule =>
    obtain ⟨t, r, e, hr, rfl, -⟩ := rule_sound h
    exact ⟨t, e, .rule hr, fun k => by simp at k⟩
  | Value =>
    obtain ⟨t, w, e, hr, rfl, -⟩ := value_sound cs.length _ _ _ _ _ (Nat.le_refl _) h
    exact ⟨t, e, parsedValue_eq w ▸ .value hr, fun k => by simp at k⟩
  | SExpr =>
    obtain ⟨t, hd, args, e, hr, rfl, -⟩ := sexpr_sound (n := cs.length) (fun m _ => value_sound m) (Nat.le_refl _) h
    exact ⟨t, e, .sexpr hr, fun k => by simp at k⟩
  | Operand =>
    obtain ⟨t, o, e, hr, rfl, -⟩ := operand_sound (value_sound cs.length) (Nat.le_refl _) h
    exact ⟨t, e, parsedOperand_eq o ▸ .operand hr, fun k => by simp at k⟩
  | Expr =>
    obtain ⟨t, w, e, hr, rfl, -⟩ := expr_sound cs.length _ _ _ _ _ (Nat.le_refl _) h
    exact ⟨t, e, parsedValue_eq w ▸ .expr hr, fun k => by simp at k⟩
  | Call =>
    obtain ⟨t, w, e, hr, rfl, -⟩ := call_sound (n := cs.length) (fun m _ => expr_sound m) (Nat.le_refl _) h
    exact ⟨t, e, .call hr, fun k => by simp at k⟩

theorem entry_fwd {lib r t v rest} (hl : RejectsComment lib) (h : EntryText (goText lib) r t v) (hr : Ended rest) (hf : r = .File → rest = []) :
    exec (ruleGrammar lib) (.ruleRef r) (t ++ rest) Frame.empty = .ok v rest Frame.empty := by
  have hr : Cont rest := hr
  cases h with
  | file h => rw [hf rfl, List.append_nil]; exact file_fwd hl h _
  | rule h =>
    refine rule_fwd hl h ?_ _
    cases h with
    | mk _ _ _ hv => exact okay_cont hv hr
  | value h => rw [parsedValue_eq]; exact value_fwd h rest (okay_cont h hr) _
  | sexpr h =>
    cases h with
    | expr h => cases h
    | @sexpr bt b s0 op ot ops et ell tt tr s1 hb h0 ho hops he ht h1 =>
      obtain ⟨hstop, -, -, -⟩ := closing_fwd (lib := lib) he ht h1 rest
      obtain ⟨ds, hds, hi⟩ := operands_fwd hops (et ++ tt ++ s1 ++ ')' :: rest) (closing_cont he ht h1 rest) hstop
      exact sexpr_ok hb h0 ho hops hds hi he ht h1 Frame.empty
  | operand h => rw [parsedOperand_eq]; exact operand_fwd h rest hr _
  | expr h => rw [parsedValue_eq]; exact expr_fwd h rest (fun _ => hr) _
  | call h =>
    cases h with
    | @call f s0 a v s1 more e hf h0 ha h1 hm hgo =>
      obtain ⟨c, cs, hc, hc'⟩ := moreArgs_head hm rest
      have hcont : Cont (s1 ++ more ++ ')' :: rest) := by
        rw [List.append_assoc, hc]; exact cont_skip h1 (cont_close hc')
      have hea := expr_fwd ha (s1 ++ more ++ ')' :: rest) (fun _ => hcont)
      obtain ⟨vs, s', hs', hi⟩ := moreArgs_fwd hm s1 h1 rest
      exact call_ok (tail := rest) hf h0 (exprText_noSkip ha) hea hs' hi hgo Frame.empty

/-! ## Errors the machine records itself -/

theorem step_clean (G : Grammar) : Step G (fun s s' => PErr.panicked ∉ s.errs → PErr.panicked ∉ s'.errs) where
  refl s h := h
  trans a b c h1 h2 h := h2 (h1 h)
  frameL s s' fr h := h
  frameR s s' fr h := h
  read s x l hp h := by
    unfold Verif.read noteBad; split
    · simpa using h
    · exact h
  restore s s' h := h
  action a st s v s' hr h := by
    unfold runAction at hr; simp only [] at hr
    split at hr
    · simp only [POut.ok.injEq] at hr; obtain ⟨-, rfl⟩ := hr; exact h
    · simp only [POut.ok.injEq] at hr; obtain ⟨-, rfl⟩ := hr; simpa using h
    · simp at hr

theorem initSt_clean (d : List Sym) : PErr.panicked ∉ (initSt d).errs := by
  unfold initSt noteBad; split <;> simp

theorem run_clean {lib r d n o k} (h : runN (ruleGrammar lib) n ((ruleGrammar lib).rules r) (push (initSt d)) = some (o, k)) :
    (∀ v s, o = .ok v s → PErr.panicked ∉ s.errs) ∧ (∀ s, o = .fail s → PErr.panicked ∉ s.errs) := by
  have h1 := (Count.runN_fst (ruleGrammar lib) n).1 ((ruleGrammar lib).rules r) (push (initSt d))
  rw [h] at h1
  have h2 := ((step_clean (ruleGrammar lib)).run n).1 _ _ _ h1.symm
  constructor
  · rintro v s rfl; exact h2 (initSt_clean d)
  · rintro s rfl; exact h2 (initSt_clean d)

/-- Without options. -/
theorem default_run (lib : GoLib) (bs : List UInt8) : ∃ o, runN (ruleGrammar lib) (depthBound bs.length) gFile (push (initSt (decode bs))) = some (o, exprCnt lib bs) ∧
    run (ruleGrammar lib) (depthBound bs.length) (.ruleRef .File) (initSt (decode bs)) = some (popTo (initSt (decode bs)).frame o) ∧
    parserParse lib [] bs = resultOf true o := by
  obtain ⟨o, h1, h2, -⟩ := parser_cases lib [] bs (r := .File) (by decide)
  refine ⟨o, h1, ?_, h2 rfl⟩
  have hf := (Count.runN_fst (ruleGrammar lib) (depthBound bs.length)).1 gFile (push (initSt (decode bs)))
  have h1' : runN (ruleGrammar lib) (depthBound bs.length) gFile (push (initSt (decode bs))) = some (o, exprCnt lib bs) := h1
  rw [h1'] at hf
  obtain ⟨o', ho'⟩ := file_run lib bs
  have hn : run (ruleGrammar lib) (depthBound bs.length + 1) (.ruleRef .File) (initSt (decode bs)) = some (popTo (initSt (decode bs)).frame o) := by
    rw [run]
    show (run (ruleGrammar lib) (depthBound bs.length) gFile (push (initSt (decode bs)))).map _ = _
    rw [← hf]; rfl
  rw [ho', run_det _ hn ho']

end Verif.Proof.Opts

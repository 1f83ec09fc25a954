import Verif.Spec.Log
import Verif.Proof.Reparse
import Verif.Proof.Message
import Verif.Proof.GenError
import Verif.Proof.Decimal
/-! # The log -/
namespace Verif.Proof
open Verif Verif.Spec

/-! ## Simple rules are read back -/

/-- Neither token is one that fuses. -/
def calm : Piece → Bool
  | .tok (.ident _) => true
  | .tok .lparen => true
  | .tok .rparen => true
  | .tok .comma => true
  | .blank => true
  | _ => false

theorem calm_noFuse {ps : List Piece} (h : ∀ p ∈ ps, calm p = true) : NoFuse ps := by
  intro pre a b post e hf
  have ha := h (.tok a) (by rw [e]; simp)
  cases a <;> first | exact hf | simp [calm] at ha

theorem arg_calm : (∀ e, ArgShape e → ∀ p ∈ pieces e, calm p = true) := by
  intro e
  refine GoExpr.rec (motive_1 := fun e => ArgShape e → ∀ p ∈ pieces e, calm p = true)
    (motive_2 := fun es => ArgShapes es → (∀ p ∈ argPieces es, calm p = true) ∧ ∀ p ∈ argPiecesTail es, calm p = true)
    ?_ ?_ ?_ ?_ ?_ ?_ ?_ ?_ ?_ ?_ ?_ ?_ e
  · intro h; simp [ArgShape] at h
  · intro p n _ q hq; simp [pieces] at hq; subst hq; rfl
  · intro _ _ _ h; simp [ArgShape] at h
  · intro _ _ _ _ h; simp [ArgShape] at h
  · intro _ _ _ _ h; simp [ArgShape] at h
  · intro _ _ _ _ _ _ h; simp [ArgShape] at h
  · intro fn p args q r _ ih h
    cases fn <;> simp only [ArgShape] at h
    intro x hx
    simp only [pieces, List.cons_append, List.nil_append, List.mem_cons, List.mem_append, List.not_mem_nil, or_false] at hx
    rcases hx with rfl | rfl | hx | rfl
    · rfl
    · rfl
    · exact (ih h.2.2).1 x hx
    · rfl
  · intro _ _ _ h; simp [ArgShape] at h
  · intro _ _ _ _ h; simp [ArgShape] at h
  · intro _ h; simp [ArgShape] at h
  · intro _; simp [argPieces, argPiecesTail]
  · intro e es h1 h2 h
    rw [ArgShapes] at h
    have k1 := h1 h.1
    have k2 := (h2 h.2).2
    refine ⟨?_, ?_⟩
    · intro x hx
      simp only [argPieces, List.mem_append] at hx
      exact hx.elim (k1 x) (k2 x)
    · intro x hx
      simp only [argPiecesTail, List.cons_append, List.mem_cons, List.mem_append] at hx
      rcases hx with rfl | rfl | hx | hx
      · rfl
      · rfl
      · exact k1 x hx
      · exact k2 x hx

section
variable {u : GoVersion} {go : Str → GoExpr → Prop}

/-- No AuxInt or Aux at any depth. -/
def NoAux (v : Value) : Prop := ∀ h args, SubValue v (.sexpr h args) → HdrSimple h

theorem noAux_arg {h args a} (hn : NoAux (.sexpr h args)) (ha : a ∈ args) : NoAux a := fun h' args' hs => hn h' args' (.arg ha hs)

theorem valueText_calls (hgo : ∀ t e, go t e → goSyntax u t = some e) {t v} (h : ValueText go t v) :
    NoAux v → ∀ e ∈ exprsOf v, NoFuse (pieces e) := by
  refine ValueText.rec (go := go) (motive_1 := fun _ v _ => NoAux v → ∀ e ∈ exprsOf v, NoFuse (pieces e))
    (motive_2 := fun _ ops _ => ∀ v, .arg v ∈ ops → NoAux v → ∀ e ∈ exprsOf v, NoFuse (pieces e))
    (motive_3 := fun _ o _ => ∀ v, o = .arg v → NoAux v → ∀ e ∈ exprsOf v, NoFuse (pieces e)) ?_ ?_ ?_ ?_ ?_ ?_ ?_ ?_ h
  · intro t v h _ e he
    have h' := h
    cases h with
    | var h => simp [exprsOf] at he
    | placeholder => simp [exprsOf] at he
    | call _ _ _ _ _ hg =>
      simp only [exprsOf, List.mem_singleton] at he
      subst he
      exact calm_noFuse (arg_calm _ (callShape_of_text hgo h').1)
  · intro bt b s0 op ot ops et ell tt tr s1 _ _ _ _ _ _ _ ih hn e he
    obtain ⟨_, _, h1, h2, _⟩ := hn _ _ (.self _)
    replace h1 : lastAuxInt ops = none := h1
    replace h2 : lastAux ops = none := h2
    simp only [exprsOf, h1, h2, Option.toList, List.nil_append] at he
    have : ∀ vs : List Value, (∀ v ∈ vs, .arg v ∈ ops) → (∀ v ∈ vs, NoAux v) → e ∈ exprsOfs vs → NoFuse (pieces e) := by
      intro vs
      induction vs with
      | nil => intro _ _ he; simp [exprsOfs] at he
      | cons v vs ihv =>
        intro h1 h2 he
        simp only [exprsOfs, List.mem_append] at he
        rcases he with he | he
        · exact ih v (h1 v (by simp)) (h2 v (by simp)) e he
        · exact ihv (fun v hv => h1 v (by simp [hv])) (fun v hv => h2 v (by simp [hv])) he
    refine this (argsOf ops) ?_ (fun v hv => noAux_arg hn hv) he
    intro v hv
    unfold argsOf at hv
    rw [List.mem_filterMap] at hv
    obtain ⟨o, ho, hv⟩ := hv
    cases o <;> simp at hv
    subst hv; exact ho
  · simp
  · intro s t o rest os _ _ _ h1 h2 v hv
    rcases List.mem_cons.1 hv with hv | hv
    · exact h1 v hv.symm
    · exact h2 v hv
  · intro t _ _ v hv; cases hv
  · intro t e _ _ _ v hv; cases hv
  · intro t e _ _ _ v hv; cases hv
  · intro t v _ h w hw; cases hw; exact h

theorem simple_noAux {r : Rule} (h : Simple r) : NoAux r.match ∧ NoAux r.result := by
  have key : ∀ hd, (∃ args, SubValue r.match (.sexpr hd args) ∨ SubValue r.result (.sexpr hd args)) → HdrSimple hd := by
    intro hd ⟨args, hs⟩
    exact Classical.byContradiction fun hn => h.2.2 ⟨hd, args, hn, hs⟩
  exact ⟨fun hd args hs => key hd ⟨args, .inl hs⟩, fun hd args hs => key hd ⟨args, .inr hs⟩⟩

theorem simple_stable (hgo : ∀ t e, go t e → goSyntax u t = some e) {t r} (h : RuleText go t r) (hs : Simple r) : RuleStable u r := by
  refine ruleText_stable hgo h ?_ (by rw [hs.1]; trivial)
  intro e he
  cases h with
  | mk hm hc hb hr =>
    have hx := simple_noAux hs
    simp only [ruleExprs, List.mem_append] at he
    rcases he with (he | he) | he
    · exact valueText_calls hgo hm hx.1 e he
    · have : e ∈ Option.toList none := by rw [← (hs.1 : _ = none)]; exact he
      simp at this
    · exact valueText_calls hgo hr hx.2 e he
end

theorem loads_ruleText {u : GoVersion} {lib inputs files} (hl : FollowsGo u lib) (h : Loads lib inputs files) :
    ∀ r ∈ allRules files, ∃ t, RuleText (GoText lib) t r := by
  induction h with
  | nil => simp [allRules]
  | cons _ _ _ h4 _ ih =>
    intro r hr
    simp only [allRules, List.flatMap_cons, List.mem_append] at hr
    rcases hr with hr | hr
    · obtain ⟨cs, -, ht⟩ := parse_bytes_sound h4
      rw [goText_eq] at ht
      obtain ⟨a, b, c, -, hb⟩ := fileText_mem ht r hr
      exact ⟨b, hb⟩
    · exact ih r hr

/-! ## Picking alternatives -/

theorem agree_count {l : List Nat} (h : Agree l) {n : Nat} (hn : n ∈ l) : count l = n := by
  cases l with
  | nil => simp at hn
  | cons m l => exact h _ (by simp [count]) _ hn

theorem pickOp_wf {i op} (h : OpWF op) (hi : ∀ n ∈ opSizes op, i < n) : OpWF (pickOp i op) := by
  cases op with
  | nil => exact absurd h (by simp [OpWF])
  | opcode s => exact h
  | parts ps =>
    obtain ⟨h1, h2, -, -⟩ := h
    have hw : ∀ p ∈ ps, Word (pickPart i p) := by
      intro p hp
      have := h2 p hp
      cases p with
      | nil => exact absurd this (by simp [PartWF])
      | opcode s => exact this
      | alt cs =>
        have hlt : i < cs.length := hi _ (by rw [opSizes, List.mem_flatMap]; exact ⟨_, hp, by simp [partSizes]⟩)
        simp only [pickPart, List.getD_eq_getElem?_getD, List.getElem?_eq_getElem hlt, Option.getD_some]
        exact this.2 _ (List.getElem_mem _)
    refine ⟨?_, ?_⟩
    · cases ps with
      | nil => exact absurd rfl h1
      | cons p ps =>
        have := (hw p (by simp)).1
        simp [this]
    · intro c hc
      rw [List.mem_flatMap] at hc
      obtain ⟨p, hp, hc⟩ := hc
      exact (hw p hp).2 c hc

theorem pick_value {u : GoVersion} {i : Nat} : ∀ v, ValueStable u v → (∀ n ∈ sizes v, i < n) → ValueStable u (mapOps (pickOp i) v) := by
  intro v
  refine Value.rec (motive_1 := fun v => ValueStable u v → (∀ n ∈ sizes v, i < n) → ValueStable u (mapOps (pickOp i) v))
    (motive_2 := fun vs => ValuesStable u vs → (∀ n ∈ (opsOfs vs).flatMap opSizes, i < n) → ValuesStable u (mapOpss (pickOp i) vs)) ?_ ?_ ?_ ?_ ?_ ?_ v
  · intro h; exact absurd h (by simp [ValueStable])
  · intro hd args ih ⟨h1, h2, h3, h4, h5, h6⟩ hi
    simp only [sizes, opsOf, List.flatMap_cons, List.mem_append] at hi
    exact ⟨h1, pickOp_wf h2 (fun n hn => hi n (.inl hn)), h3, h4, h5, ih h6 (fun n hn => hi n (.inr hn))⟩
  · intro e h _; exact h
  · intro n h _; exact h
  · intro _ _; trivial
  · intro v vs h1 h2 ⟨a, b⟩ hi
    simp only [opsOfs, List.flatMap_append, List.mem_append] at hi
    exact ⟨h1 a (fun n hn => hi n (.inl hn)), h2 b (fun n hn => hi n (.inr hn))⟩

theorem pick_stable {u : GoVersion} {i r} (h : RuleStable u r) (ha : Agree (ruleSizes r)) (hi : i < count (ruleSizes r)) : RuleStable u (pickRule i r) := by
  have hlt : ∀ n ∈ ruleSizes r, i < n := fun n hn => by rw [← agree_count ha hn]; exact hi
  simp only [ruleSizes, List.mem_append] at hlt
  exact ⟨pick_value _ h.1 (fun n hn => hlt n (.inl hn)), h.2.1, h.2.2.1, pick_value _ h.2.2.2 (fun n hn => hlt n (.inr hn))⟩

theorem noAux_mapOps {f : Op → Op} {v : Value} (h : NoAux v) : NoAux (mapOps f v) := by
  intro hd args hs
  obtain ⟨w, e, hw⟩ := subValue_of_mapOps f v _ hs
  cases w with
  | sexpr h' args' =>
    simp only [mapOps, Value.sexpr.injEq] at e
    rw [e.1]
    exact h h' args' hw
  | _ => simp [mapOps] at e

/-! ## Lines -/

theorem word_nl {c : Char} (h : isWordChar c = true) : c ≠ '\n' := by rintro rfl; revert h; decide

theorem ident_nl {x : Str} (h : Ident x ∨ x = ['_']) : '\n' ∉ x := by
  intro hm
  have := (var_sym h).2 _ hm
  revert this; decide

theorem arg_nl : ∀ e, ArgShape e → '\n' ∉ showGo e := by
  intro e
  refine GoExpr.rec (motive_1 := fun e => ArgShape e → '\n' ∉ showGo e)
    (motive_2 := fun es => ArgShapes es → '\n' ∉ showGoArgs es ∧ '\n' ∉ showGoArgsTail es)
    ?_ ?_ ?_ ?_ ?_ ?_ ?_ ?_ ?_ ?_ ?_ ?_ e
  · intro h; simp [ArgShape] at h
  · intro p n h; simpa [showGo] using ident_nl h
  · intro _ _ _ h; simp [ArgShape] at h
  · intro _ _ _ _ h; simp [ArgShape] at h
  · intro _ _ _ _ h; simp [ArgShape] at h
  · intro _ _ _ _ _ _ h; simp [ArgShape] at h
  · intro fn p args q r _ ih h
    cases fn <;> simp only [ArgShape] at h
    have h1 := ident_nl (.inl h.1)
    have h2 := (ih h.2.2).1
    simp [showGo, h1, h2]
  · intro _ _ _ h; simp [ArgShape] at h
  · intro _ _ _ _ h; simp [ArgShape] at h
  · intro _ h; simp [ArgShape] at h
  · intro _; simp [showGoArgs, showGoArgsTail]
  · intro e es h1 h2 h
    rw [ArgShapes] at h
    have k1 := h1 h.1
    have k2 := (h2 h.2).2
    simp [showGoArgs, showGoArgsTail, k1, k2]

theorem op_nl {op} (h : OpWF op) : '\n' ∉ showOp op := by
  have hw : ∀ s, Word s → '\n' ∉ s := fun s hs hm => word_nl (hs.2 _ hm) rfl
  cases op with
  | nil => simp [showOp]
  | opcode s => exact hw s h
  | parts ps =>
    intro hm
    rw [showOp, List.mem_flatMap] at hm
    obtain ⟨p, hp, hm⟩ := hm
    have := h.2.1 p hp
    cases p with
    | nil => simp [showPart] at hm
    | opcode s => exact hw s this hm
    | alt cs =>
      cases cs with
      | nil => simp [showPart, showAlt] at hm
      | cons c cs =>
        simp only [showPart, showAlt, List.cons_append, List.mem_cons, List.mem_append, List.mem_flatMap, List.not_mem_nil, or_false] at hm
        rcases hm with hm | (hm | ⟨d, hd, hm | hm⟩) | hm
        · revert hm; decide
        · exact hw c (this.2 c (by simp)) hm
        · revert hm; decide
        · exact hw d (this.2 d (by simp [hd])) hm
        · revert hm; decide

theorem value_nl {u : GoVersion} : ∀ v, ValueStable u v → NoAux v → '\n' ∉ showValue v := by
  intro v
  refine Value.rec (motive_1 := fun v => ValueStable u v → NoAux v → '\n' ∉ showValue v)
    (motive_2 := fun vs => ValuesStable u vs → (∀ v ∈ vs, NoAux v) → '\n' ∉ showArgs vs) ?_ ?_ ?_ ?_ ?_ ?_ v
  · intro h; exact absurd h (by simp [ValueStable])
  · intro hd args ih ⟨h1, h2, h3, h4, h5, h6⟩ hn
    obtain ⟨k1, k2, k3, k4, k5, k6⟩ := hn _ _ (.self _)
    have ho := op_nl h2
    have ha := ih h6 (fun v hv => noAux_arg hn hv)
    simp [showValue, k1, k2, k3, k4, k5, k6, showBinding, showType, showAuxInt, showAux, ho, ha]
  · intro e h _; exact arg_nl _ h.1.1
  · intro n h _; exact ident_nl h
  · intro _ _; simp [showArgs]
  · intro v vs h1 h2 ⟨a, b⟩ hn
    have k1 := h1 a (hn v (by simp))
    have k2 := h2 b (fun v hv => hn v (by simp [hv]))
    simp [showArgs, k1, k2]

/-- A rule the command works on: it is read back from its printed form, which is one line. -/
theorem verified_line {u : GoVersion} {lib inputs files} (hl : FollowsGo u lib) (h : Loads lib inputs files)
    (ha : ∀ r ∈ simpleRules files, Agree (ruleSizes r)) : ∀ r ∈ verified files, RuleStable u r ∧ '\n' ∉ showRule r := by
  intro r hr
  obtain ⟨r0, h0, i, hi, rfl⟩ := mem_verified hr
  obtain ⟨hm, hs⟩ := simpleRules_sub h0
  obtain ⟨t, ht⟩ := loads_ruleText hl h r0 hm
  have hst := pick_stable (simple_stable (fun t e => (hl t e).1) ht hs) (ha r0 h0) hi
  refine ⟨hst, ?_⟩
  have hx := simple_noAux hs
  have k1 := value_nl _ hst.1 (noAux_mapOps hx.1)
  have k2 := value_nl _ hst.2.2.2 (noAux_mapOps hx.2)
  have k3 : (pickRule i r0).condition = none := hs.1
  have k4 : (pickRule i r0).block = [] := hs.2.1
  simp [showRule, k1, k2, k3, k4, showCond, showBlock]

/-! ## Error messages of the generator -/

theorem nl_append {a b : Str} (ha : '\n' ∉ a) (hb : '\n' ∉ b) : '\n' ∉ a ++ b := by simp [ha, hb]

theorem natStr_nl (n : Nat) : '\n' ∉ natStr n := fun k => by have := natStr_digit k; revert this; decide

theorem numeral_nl (n : Nat) : '\n' ∉ numeral n := by rw [decimal_eq]; exact natStr_nl n

theorem showArgs_nl {vs : List Value} (h : '\n' ∉ showArgs vs) : ∀ v ∈ vs, '\n' ∉ showValue v := by
  induction vs with
  | nil => simp
  | cons v vs ih =>
    simp only [showArgs, List.cons_append, List.mem_cons, List.mem_append, not_or] at h
    intro w hw
    rcases List.mem_cons.1 hw with rfl | hw
    · exact h.2.1
    · exact ih h.2.2 w hw

theorem sexpr_nl {h args o} (ho : h.op = .opcode o) (hv : '\n' ∉ showValue (.sexpr h args)) : '\n' ∉ o ∧ '\n' ∉ showArgs args := by
  simp only [showValue, ho, showOp, List.mem_append, List.mem_cons, not_or] at hv
  grind

theorem sort_nl (s : Smt.Srt) : '\n' ∉ Ssa.sortName s := by
  cases s with
  | bool => exact (by decide +kernel : '\n' ∉ "bool".toList)
  | bv n => exact nl_append (by decide +kernel) (numeral_nl n)

theorem wrong_nl {s v c} (h : Ssa.Wrong s v c) (hv : '\n' ∉ showValue v) : '\n' ∉ c.say := by
  cases h with
  | opcode _ ho _ => exact nl_append (by decide +kernel) (sexpr_nl ho hv).1
  | sort _ ho _ _ => exact nl_append (nl_append (sexpr_nl ho hv).1 (by decide +kernel)) (sort_nl s)
  | count _ ho _ _ _ =>
    exact nl_append (nl_append (nl_append (nl_append (sexpr_nl ho hv).1 (by decide +kernel)) (numeral_nl _)) (by decide +kernel)) (numeral_nl _)
  | _ => decide +kernel

theorem trouble_nl {s v p c} (h : Ssa.Trouble s v p c) (hv : '\n' ∉ showValue v) : '\n' ∉ Ssa.say p c := by
  induction h with
  | here h => exact wrong_nl h hv
  | inside _ ho _ _ _ _ _ ih =>
    have := sexpr_nl ho hv
    exact nl_append (nl_append (nl_append (nl_append this.1 (by decide +kernel)) (numeral_nl _)) (by decide +kernel)) (ih (showArgs_nl this.2 _ (by simp)))

theorem noScript_nl {r msg} (h : Ssa.NoScript r msg) (hp : badRule r = []) (hr : '\n' ∉ showRule r) : '\n' ∉ msg := by
  simp only [showRule, List.mem_append, List.mem_cons, not_or] at hr
  have hm : '\n' ∉ showValue r.match := by grind
  have hres : '\n' ∉ showValue r.result := by grind
  cases h with
  | unprintable hb => rw [hp] at hb; cases hb
  | bareVariable _ hv =>
    rw [hv] at hm
    exact nl_append (nl_append (by decide +kernel) hm) (by decide +kernel)
  | inMatch _ _ ht => exact trouble_nl ht hm
  | condition => decide +kernel
  | block => decide +kernel
  | inResult _ _ _ _ _ ht => exact trouble_nl ht hres

theorem genError_nl {r e} (hg : generate r = .err e) (hp : rulePrintable r = true) (hr : '\n' ∉ showRule r) : '\n' ∉ e.text := by
  refine noScript_nl ((generate_err_iff r e.text).1 ⟨e, hg, rfl⟩) ?_ hr
  have h1 : printBytes (.rule r) = .ok (showRule r) := by rw [printBytes_eq]; exact if_pos hp
  rw [badRule_printBytes] at h1
  cases hb : badRule r with
  | nil => rfl
  | cons ty l => rw [hb] at h1; cases h1

/-! ## Reading the log -/

def entryOf : Event → Option Entry
  | .parsed n file => some (.parsed n file)
  | .total n => some (.total n)
  | .simple n => some (.simple n)
  | .expanded n => some (.expanded n)
  | .rule text => some (.rule text)
  | .genError e => some (.error e.text)
  | .write _ _ => none
  | .written name => some (.written name)

theorem natStr_cut {n c} (h : c ∈ natStr n) : c ≠ ' ' := by
  have := natStr_digit h
  rintro rfl
  revert this; decide

theorem readRules_natStr (n : Nat) : readRules (natStr n ++ " rules".toList) = some n := by
  have h := cut_plain ' ' ['r', 'u', 'l', 'e', 's'] (natStr n) [] (fun c hc => natStr_cut hc)
  rw [List.append_nil] at h
  have e : " rules".toList = ' ' :: ['r', 'u', 'l', 'e', 's'] := by decide +kernel
  rw [readRules, e, h]
  simp [readNumber_natStr]

theorem readEntry_message {ev : Event} {m : Str} (h : ev.message = some m) : ∃ e, entryOf ev = some e ∧ readEntry ("ssarules: ".toList ++ m) = some e := by
  have hcut : ∀ (n : Nat) b, cut " rules ".toList (natStr n ++ " rules ".toList ++ b) = some (natStr n, b) := by
    intro n b
    have e : " rules ".toList = ' ' :: ['r', 'u', 'l', 'e', 's', ' '] := by decide +kernel
    rw [e]
    exact cut_plain ' ' ['r', 'u', 'l', 'e', 's', ' '] (natStr n) b (fun c hc => natStr_cut hc)
  cases ev with
  | write => cases h
  | rule t => cases h; exact ⟨_, rfl, rfl⟩
  | genError e => cases h; exact ⟨_, rfl, rfl⟩
  | written n => cases h; exact ⟨_, rfl, rfl⟩
  | simple n =>
    cases h
    refine ⟨_, rfl, ?_⟩
    show (readRules (natStr n ++ " rules".toList)).bind (fun k => some (Entry.simple k)) = _
    rw [readRules_natStr]; rfl
  | expanded n =>
    cases h
    refine ⟨_, rfl, ?_⟩
    show (readRules (natStr n ++ " rules".toList)).bind (fun k => some (Entry.expanded k)) = _
    rw [readRules_natStr]; rfl
  | total n =>
    cases h
    refine ⟨_, rfl, ?_⟩
    show readParsed (natStr n ++ " rules total".toList) = _
    have e : natStr n ++ " rules total".toList = natStr n ++ " rules ".toList ++ "total".toList := by rw [List.append_assoc]; rfl
    rw [e, readParsed, hcut]
    simp [readNumber_natStr]
  | parsed n file =>
    cases h
    refine ⟨_, rfl, ?_⟩
    show readParsed (natStr n ++ " rules from ".toList ++ file) = _
    have e3 : " rules from ".toList = " rules ".toList ++ "from ".toList := by decide +kernel
    have e : natStr n ++ " rules from ".toList ++ file = natStr n ++ " rules ".toList ++ ("from ".toList ++ file) := by
      rw [e3]; simp only [List.append_assoc]
    have e1 : "from ".toList = 'f' :: ['r', 'o', 'm', ' '] := by decide +kernel
    have e2 : "total".toList = 't' :: ['o', 't', 'a', 'l'] := by decide +kernel
    have hne : ¬ "from ".toList ++ file = "total".toList := by rw [e1, e2]; simp
    have ha := after_append "from ".toList file
    rw [e, readParsed, hcut]
    revert hne ha
    generalize "from ".toList = w
    generalize "total".toList = w'
    intro hne ha
    simp [hne, readNumber_natStr, ha]

theorem log_lines (ms : List Str) (h : ∀ m ∈ ms, '\n' ∉ m) (hne : ms ≠ []) :
    ms.flatMap logLine = strJoin ['\n'] (ms.map fun m => "ssarules: ".toList ++ m) ++ ['\n'] := by
  have hl : ∀ m, '\n' ∉ m → logLine m = "ssarules: ".toList ++ m ++ ['\n'] := by
    intro m hm
    have hg : ¬ m.getLast? = some '\n' := fun hg => hm (List.mem_of_getLast? hg)
    unfold logLine
    generalize "ssarules: ".toList = w
    rw [if_neg hg]
  revert hl
  generalize "ssarules: ".toList = w
  intro hl
  induction ms with
  | nil => exact absurd rfl hne
  | cons m ms ih =>
    rw [List.flatMap_cons, hl m (h m (by simp))]
    cases ms with
    | nil => simp [strJoin]
    | cons k ms =>
      rw [ih (fun m hm => h m (by simp [hm])) (by simp)]
      simp [strJoin]

theorem readEntries_map (tr : List Event) : readEntries ((tr.filterMap Event.message).map fun m => "ssarules: ".toList ++ m) = some (tr.filterMap entryOf) := by
  induction tr with
  | nil => rfl
  | cons ev tr ih =>
    cases hm : ev.message with
    | none =>
      have : entryOf ev = none := by cases ev <;> first | rfl | cases hm
      rw [List.filterMap_cons, hm, List.filterMap_cons, this]
      exact ih
    | some m =>
      obtain ⟨e, h1, h2⟩ := readEntry_message hm
      rw [List.filterMap_cons, hm, List.filterMap_cons, h1]
      simp only [List.map_cons, readEntries, h2, ih]
      rfl

theorem readLog_events (tr : List Event) (h : ∀ ev ∈ tr, ∀ m, ev.message = some m → '\n' ∉ m) :
    readLog ((tr.filterMap Event.message).flatMap logLine) = some (tr.filterMap entryOf) := by
  have hn : ∀ m ∈ tr.filterMap Event.message, '\n' ∉ m := by
    intro m hm
    obtain ⟨ev, he, hm⟩ := List.mem_filterMap.1 hm
    exact h ev he m hm
  have hr := readEntries_map tr
  revert hr hn
  generalize tr.filterMap Event.message = ms
  intro hn hr
  by_cases hne : ms = []
  · subst hne; simpa [readLog, readEntries] using hr
  · rw [log_lines ms hn hne, readLog, if_neg (by simp), if_pos (by simp), List.dropLast_concat, messageLines_join, hr]
    · simp [hne]
    · intro a ha
      obtain ⟨m, hm, rfl⟩ := List.mem_map.1 ha
      exact nl_append (by decide +kernel) (hn m hm)

/-! ## What is logged -/

theorem splitSlash_nl {p : Str} (h : '\n' ∉ p) : ∀ w ∈ splitSlash p, '\n' ∉ w := by
  induction p with
  | nil => intro w hw; simp [splitSlash] at hw; subst hw; simp
  | cons c p ih =>
    simp only [List.mem_cons, not_or] at h
    have ih := ih h.2
    intro w hw
    rw [splitSlash] at hw
    split at hw
    · rcases List.mem_cons.1 hw with rfl | hw
      · simp
      · exact ih w hw
    · split at hw
      · rename_i w0 ws e
        rw [e] at ih
        rcases List.mem_cons.1 hw with rfl | hw
        · simp only [List.mem_cons, not_or]; exact ⟨h.1, ih w0 (by simp)⟩
        · exact ih w (by simp [hw])
      · simp only [List.mem_singleton] at hw; subst hw; simpa using h.1

theorem cleanStep_nl {rooted stack w} (hs : ∀ x ∈ stack, '\n' ∉ x) (hw : '\n' ∉ w) : ∀ x ∈ cleanStep rooted stack w, '\n' ∉ x := by
  intro x hx
  unfold cleanStep at hx
  split at hx
  · exact hs x hx
  · split at hx
    · split at hx
      · split at hx
        · simp at hx
        · simp at hx; subst hx; exact hw
      · rename_i top rest
        split at hx
        · rcases List.mem_cons.1 hx with rfl | hx
          · exact hw
          · exact hs x hx
        · exact hs x (by simp [hx])
    · rcases List.mem_cons.1 hx with rfl | hx
      · exact hw
      · exact hs x hx

theorem cleanFold_nl {rooted} (ws : List Str) : ∀ stack, (∀ x ∈ stack, '\n' ∉ x) → (∀ w ∈ ws, '\n' ∉ w) → ∀ x ∈ ws.foldl (cleanStep rooted) stack, '\n' ∉ x := by
  induction ws with
  | nil => intro stack h _; exact h
  | cons w ws ih =>
    intro stack h hw
    exact ih _ (cleanStep_nl h (hw w (by simp))) (fun w hw' => hw w (by simp [hw']))

theorem joinSlash_nl (ws : List Str) : (∀ w ∈ ws, '\n' ∉ w) → '\n' ∉ joinSlash ws := by
  induction ws with
  | nil => intro _; simp [joinSlash]
  | cons w ws ih =>
    intro h
    cases ws with
    | nil => simpa [joinSlash] using h w
    | cons v ws =>
      have h1 := h w (by simp)
      have h2 := ih (fun x hx => h x (by simp [hx]))
      simp [joinSlash, h1, h2]

theorem path_nl {outdir : Str} (h : '\n' ∉ outdir) (i : Nat) : '\n' ∉ joinPath outdir (scriptName i) := by
  have hs : '\n' ∉ scriptName i := by
    have := natStr_nl i
    unfold natStr at this
    simp [scriptName, this]
  have hp : '\n' ∉ (if outdir = [] then scriptName i else outdir ++ '/' :: scriptName i) := by
    split
    · exact hs
    · simp [h, hs]
  unfold joinPath cleanPath
  generalize (if outdir = [] then scriptName i else outdir ++ '/' :: scriptName i) = p at hp ⊢
  have hj := joinSlash_nl ((splitSlash p).foldl (cleanStep (p.head? == some '/')) []).reverse
    (by intro w hw; exact cleanFold_nl _ [] (by simp) (splitSlash_nl hp) w (by simpa using hw))
  simp only []
  split
  · simp [hj]
  · split
    · decide
    · exact hj

/-- The events have messages of one line. -/
def OneLiners (tr : List Event) : Prop := ∀ ev ∈ tr, ∀ m, ev.message = some m → '\n' ∉ m

theorem oneLiners_append {a b} (ha : OneLiners a) (hb : OneLiners b) : OneLiners (a ++ b) := by
  intro ev h
  rcases List.mem_append.1 h with h | h
  · exact ha ev h
  · exact hb ev h

theorem oneLiners_prefix {a b} (h : OneLiners (a ++ b)) : OneLiners a := fun ev he => h ev (by simp [he])

theorem parsed_nl {inputs : List Input} : ∀ {files}, (∀ inp ∈ inputs, '\n' ∉ inp.name) → OneLiners (parsedEvents inputs files) := by
  induction inputs with
  | nil => intro files _ ev he; simp [parsedEvents] at he
  | cons inp inputs ih =>
    intro files h
    cases files with
    | nil => intro ev he; simp [parsedEvents] at he
    | cons f files =>
      intro ev he m hm
      rw [parsedEvents] at he
      rcases List.mem_cons.1 he with rfl | he
      · cases hm
        exact nl_append (nl_append (nl_append (by decide +kernel) (natStr_nl _)) (by decide +kernel)) (h inp (by simp))
      · exact ih (fun inp hi => h inp (by simp [hi])) ev he m hm

theorem counts_nl (a b c : Nat) : OneLiners [.total a, .simple b, .expanded c] := by
  intro ev he m hm
  simp only [List.mem_cons, List.not_mem_nil, or_false] at he
  rcases he with rfl | rfl | rfl <;> cases hm <;> exact nl_append (nl_append (by decide +kernel) (natStr_nl _)) (by decide +kernel)

theorem rules_nl {outdir : Str} (ho : '\n' ∉ outdir) (rs : List Rule) :
    ∀ i, (∀ r ∈ rs, rulePrintable r = true ∧ '\n' ∉ showRule r) → OneLiners (rulesEvents outdir i rs) := by
  induction rs with
  | nil => intro i _ ev he; simp [rulesEvents] at he
  | cons r rs ih =>
    intro i h
    rw [rulesEvents]
    refine oneLiners_append ?_ (ih _ (fun r hr => h r (by simp [hr])))
    obtain ⟨h1, h2⟩ := h r (by simp)
    intro ev he m hm
    rw [ruleEvents] at he
    rcases List.mem_cons.1 he with rfl | he
    · cases hm; exact nl_append (by decide +kernel) h2
    · cases hg : generate r with
      | panic => rw [hg] at he; simp at he
      | err e =>
        rw [hg] at he
        simp only [List.mem_singleton] at he
        subst he
        cases hm
        exact nl_append (by decide +kernel) (genError_nl hg h1 h2)
      | ok b =>
        rw [hg] at he
        simp only [List.mem_cons, List.not_mem_nil, or_false] at he
        rcases he with rfl | rfl
        · cases hm
        · cases hm; exact nl_append (by decide +kernel) (path_nl ho i)

theorem parsed_entries {inputs : List Input} : ∀ {files}, (parsedEvents inputs files).filterMap entryOf = parsedEntries inputs files := by
  induction inputs with
  | nil => intro files; cases files <;> rfl
  | cons inp inputs ih =>
    intro files
    cases files with
    | nil => rfl
    | cons f files => simp only [parsedEvents, parsedEntries, List.filterMap_cons, entryOf, ih]

theorem rules_entries {outdir : Str} (rs : List Rule) : ∀ i, (rulesEvents outdir i rs).filterMap entryOf = rulesEntries outdir i rs := by
  induction rs with
  | nil => intro i; rfl
  | cons r rs ih =>
    intro i
    rw [rulesEvents, rulesEntries, List.filterMap_append, ih, ruleEvents, ruleEntries]
    cases hg : generate r with
    | panic => exact absurd hg (generate_ne_panic r)
    | err e => rfl
    | ok b => rfl

theorem rulesEvents_split {outdir : Str} {n s rest} (rs : List Rule) : ∀ i p, rulesEvents outdir i rs = p ++ .write n s :: rest →
    ∃ k r, rs[k]? = some r ∧ generate r = .ok s ∧ n = joinPath outdir (scriptName (i + k)) ∧ p = rulesEvents outdir i (rs.take k) ++ [.rule (showRule r)] := by
  induction rs with
  | nil => intro i p h; simp [rulesEvents] at h
  | cons r rs ih =>
    intro i p h
    rw [rulesEvents] at h
    rcases append_cons_split h with ⟨q, h1, -⟩ | ⟨q, rfl, h2⟩
    · rw [ruleEvents] at h1
      cases hg : generate r with
      | panic => exact absurd hg (generate_ne_panic r)
      | err e =>
        rw [hg] at h1
        have : Event.write n s ∈ [Event.rule (showRule r), .genError e] := by rw [h1]; simp
        simp at this
      | ok b =>
        rw [hg] at h1
        match p, h1 with
        | [x], h1 =>
          simp only [List.cons_append, List.nil_append, List.cons.injEq, Event.write.injEq] at h1
          obtain ⟨rfl, ⟨rfl, rfl⟩, -⟩ := h1
          exact ⟨0, r, rfl, hg, rfl, rfl⟩
        | [], h1 => simp at h1
        | [x, y], h1 => simp at h1
        | x :: y :: z :: p, h1 => simp at h1
    · obtain ⟨k, r', e1, e2, e3, e4⟩ := ih _ _ h2
      refine ⟨k + 1, r', by simpa using e1, e2, by rw [e3]; congr 2; omega, ?_⟩
      rw [e4, List.take_succ_cons, rulesEvents, List.append_assoc]

end Verif.Proof

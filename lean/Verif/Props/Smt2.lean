import Verif.Proof.Smt2Sem
import Verif.Spec.Expand
/-!
# Properties of the SMT generator (C32–C39)
-/
namespace Verif.Props

open Verif Verif.Spec Verif.Spec.Smt Verif.Spec.Ssa

/-! Example rules. -/

private def op (o : String) (args : List Value) : Value := .sexpr { op := .opcode o.toList } args
private def x : Value := .var ['x']
private def y : Value := .var ['y']

/-- `(Sub8 (Add8 x y) y) => x` -/
def subAdd : Rule := { «match» := op "Sub8" [op "Add8" [x, y], y], result := x }
/-- `(Add8 x y) => (Or8 x y)`: wrong. -/
def wrongRule : Rule := { «match» := op "Add8" [x, y], result := op "Or8" [x, y] }
/-- `(Not (NeqB x y)) => (EqB x y)` -/
def notNeq : Rule := { «match» := op "Not" [op "NeqB" [x, y]], result := op "EqB" [x, y] }
/-- `(And8 _ _) => _` -/
def wildRule : Rule := { «match» := op "And8" [.var ['_'], .var ['_']], result := .var ['_'] }
/-- `(And8 let let) => let` -/
def letRule : Rule := { «match» := op "And8" [.var "let".toList, .var "let".toList], result := .var "let".toList }

theorem mSub8 : meaning "Sub8".toList = some (.bin 8 fun x y => x - y) := rfl
theorem mAdd8 : meaning "Add8".toList = some (.bin 8 fun x y => x + y) := rfl
theorem mOr8 : meaning "Or8".toList = some (.bin 8 fun x y => x ||| y) := rfl
theorem mAnd8 : meaning "And8".toList = some (.bin 8 fun x y => x &&& y) := rfl
theorem bare (o : Op) : bareHdr { op := o } := ⟨rfl, rfl, rfl, rfl, rfl, rfl⟩

theorem subAdd_fragment : RuleFragment (.bv 8) subAdd :=
  ⟨rfl, rfl, ⟨_, _, rfl⟩, .sexpr (bare _) rfl mSub8 rfl rfl
    (.cons (.sexpr (bare _) rfl mAdd8 rfl rfl (.cons (.var _) (.cons (.var _) .nil))) (.cons (.var _) .nil)), .var _⟩
theorem wrongRule_fragment : RuleFragment (.bv 8) wrongRule :=
  ⟨rfl, rfl, ⟨_, _, rfl⟩, .sexpr (bare _) rfl mAdd8 rfl rfl (.cons (.var _) (.cons (.var _) .nil)),
    .sexpr (bare _) rfl mOr8 rfl rfl (.cons (.var _) (.cons (.var _) .nil))⟩

/-- The call succeeded. -/
def isOk {α : Type} : Res α → Bool
  | .ok _ => true
  | _ => false
theorem isOk_iff {α : Type} {r : Res α} : isOk r = true ↔ ∃ a, r = .ok a := by cases r <;> simp [isOk]

/-! ## C34 -/

/-- C34.  The generator succeeds exactly on the supported fragment: no condition, no block, an S-expression as match, and only
supported opcodes of one sort with the right number of arguments (`RuleFragment`, in the specification). -/
theorem C34_accepts_iff (r : Rule) : (∃ s, generate r = .ok s) ↔ ∃ so, RuleFragment so r := by
  constructor
  · rintro ⟨s, h⟩
    obtain ⟨t, _, h, _⟩ := generate_ok_iff.1 h
    exact ⟨_, h⟩
  · rintro ⟨so, h⟩
    obtain ⟨t, ht, rfl⟩ := fragment_signed h
    exact ⟨_, generate_ok ht h⟩

/-- C34.  On all other rules it returns an error; it never panics. -/
theorem C34_rejects (r : Rule) : (∃ e, generate r = .err e) ↔ ¬ ∃ so, RuleFragment so r := by
  constructor
  · rintro ⟨e, h⟩ hf
    obtain ⟨s, hs⟩ := (C34_accepts_iff r).2 hf
    rw [h] at hs; simp at hs
  · intro h
    obtain ⟨e, he, _⟩ := generate_err (fun s hs => h ⟨s, hs⟩)
    exact ⟨e, he⟩

/-- A supported rule, and one mixing widths. -/
example : RuleFragment (.bv 8) subAdd ∧ ¬ ∃ so, RuleFragment so { subAdd with «match» := op "Sub16" [op "Add8" [x, y], y] } := by
  refine ⟨subAdd_fragment, ?_⟩
  rw [← C34_accepts_iff, ← isOk_iff]
  decide +kernel

/-! ## C32 -/

/-- C32.  If the generator returns a script for a rule whose variables are legal SMT-LIB names, the script is legal, it makes exactly one
satisfiability query, and the query is unsatisfiable iff the rule is valid. -/
theorem C32_script_decides_rule (r : Rule) (s : Str) (hg : generate r = .ok s) (hl : ∀ x ∈ ruleVars r, legalName x = true) :
    ∃ σ q, execute s = some σ ∧ σ.queries = [q] ∧ (¬ Sat q ↔ Valid r) := by
  obtain ⟨t, _, hF, rfl⟩ := generate_ok_iff.1 hg
  have hp : ∀ x ∈ ruleVars r, plainName x := fun x hx => ⟨(legalName_good (hl x hx)).1.1, (legalName_good (hl x hx)).2⟩
  refine ⟨finalSession t r, ⟨declsOf t (declNames r), [claim r]⟩, ?_, rfl, sat_iff hF⟩
  rw [execute_script hF hp, if_pos hl]

/-- C32, meaning of validity.  For an accepted rule there is one sort such that for every assignment of values of that sort to the
variables both sides of the rule have a value of that sort; so `Valid` quantifies over all those assignments. -/
theorem C32_values_defined (r : Rule) (s : Str) (hg : generate r = .ok s) :
    ∃ so, RuleFragment so r ∧ ∀ env, (∀ x ∈ ruleVars r, (env x).sort = so) →
      ∃ a b, eval env r.match = some a ∧ eval env r.result = some b ∧ a.sort = so ∧ b.sort = so := by
  obtain ⟨t, _, hF, rfl⟩ := generate_ok_iff.1 hg
  have hm := hF.2.2.2.1
  have hr := hF.2.2.2.2
  refine ⟨srt t, hF, fun env hv => ?_⟩
  obtain ⟨a, h1, _, h2⟩ := eval_term env hm (fun x hx => hv x (by simp [ruleVars, hx]))
  obtain ⟨b, g1, _, g2⟩ := eval_term env hr (fun x hx => hv x (by simp [ruleVars, hx]))
  exact ⟨a, b, h1, g1, h2, g2⟩

/-- C32.  Validity spelled out for accepted rules. -/
theorem C32_valid_iff (r : Rule) (s : Str) (hg : generate r = .ok s) :
    ∃ so, RuleFragment so r ∧ (Valid r ↔ ∀ env, (∀ x ∈ ruleVars r, (env x).sort = so) → eval env r.match = eval env r.result) := by
  obtain ⟨t, _, hF, rfl⟩ := generate_ok_iff.1 hg
  refine ⟨srt t, hF, ?_⟩
  obtain ⟨_, _, ⟨hd, args, hmm⟩, hm, hr⟩ := hF
  constructor
  · intro hv env henv
    obtain ⟨a, h1, _, h2⟩ := eval_term env hm (fun x hx => henv x (by simp [ruleVars, hx]))
    obtain ⟨b, g1, _, g2⟩ := eval_term env hr (fun x hx => henv x (by simp [ruleVars, hx]))
    rw [h1, g1, hv env a b h1 g1 (by rw [h2, g2])]
  · intro h env a b ha hb hab
    have has : a.sort = srt t := by
      rw [hmm] at ha hm
      cases hm with
      | sexpr h1 ho hme hs har hargs =>
        simp only [eval, ho, hme, Option.bind_some] at ha
        cases hes : evals env args with
        | none => rw [hes] at ha; simp at ha
        | some as =>
          rw [hes, Option.bind_some] at ha
          rw [(apply_sorts ha).1, hs]
    have h1 := eval_sorted env hm ha has
    have h2 := eval_sorted env hr hb (by rw [← hab, has])
    have := h env (fun x hx => by
      simp only [ruleVars, List.mem_append] at hx
      exact hx.elim (h1 x) (h2 x))
    rw [ha, hb] at this
    simpa using this

theorem subAdd_valid : Valid subAdd := by
  intro env a b ha hb hab
  simp only [subAdd, op, x, y, eval, evals, mSub8, mAdd8, Option.bind_some, Option.map_some] at ha hb
  simp only [Option.some.injEq] at hb
  subst hb
  generalize env ['x'] = vx at *
  generalize env ['y'] = vy at *
  cases vx with
  | bool => simp [Meaning.apply] at ha
  | bits w1 x =>
    cases vy with
    | bool => simp [Meaning.apply] at ha
    | bits w2 y =>
      by_cases h1 : w1 = 8
      · by_cases h2 : w2 = 8
        · subst h1 h2
          simp [Meaning.apply] at ha
          rw [← ha, BitVec.add_sub_cancel]
        · simp [Meaning.apply, h2] at ha
      · simp [Meaning.apply, h1] at ha

/-- The hypotheses are met by a valid and by an invalid rule. -/
example : (∃ s, generate subAdd = .ok s) ∧ (∀ x ∈ ruleVars subAdd, legalName x = true) ∧ Valid subAdd :=
  ⟨(C34_accepts_iff _).2 ⟨_, subAdd_fragment⟩, by decide, subAdd_valid⟩

example : (∃ s, generate wrongRule = .ok s) ∧ (∀ x ∈ ruleVars wrongRule, legalName x = true) ∧ ¬ Valid wrongRule := by
  refine ⟨(C34_accepts_iff _).2 ⟨_, wrongRule_fragment⟩, by decide, ?_⟩
  intro h
  have := h (fun _ => .bits 8 1) (.bits 8 2) (.bits 8 1) (by decide +kernel) (by decide +kernel) rfl
  revert this; decide

/-! ## C33, C39 -/

/-- C33.  The script of a rule with legal variable names is, read as SMT-LIB: set-info, set-logic, one declare-const per variable in order of
first occurrence, one assertion `(not (= m r))`, check-sat, exit. -/
theorem C33_commands (r : Rule) (s : Str) (hg : generate r = .ok s) (hl : ∀ x ∈ ruleVars r, legalName x = true) :
    ∃ (names : List Str) (sort m res : SExp), names = firsts (ruleVars r) ∧ names.Nodup ∧ (∀ x, x ∈ names ↔ x ∈ ruleVars r) ∧
      readAll s = some (
        [.list [.atom "set-info".toList, .atom ":smt-lib-version".toList, .atom "2.6".toList],
         .list [.atom "set-logic".toList, .atom "QF_BV".toList]] ++
        names.map (fun x => .list [.atom "declare-const".toList, .atom x, sort]) ++
        [.list [.atom "assert".toList, .list [.atom "not".toList, .list [.atom "=".toList, m, res]]],
         .list [.atom "check-sat".toList], .list [.atom "exit".toList]]) := by
  obtain ⟨t, _, hF, rfl⟩ := generate_ok_iff.1 hg
  have hn := showRule_nolines hF (fun x hx c hc => symChar_noline ((legalName_good (hl x hx)).2 c hc))
  refine ⟨declNames r, sortExp t, termOf r.match, termOf r.result, declNames_firsts r, declNames_nodup r, fun x => mem_declNames, ?_⟩
  rw [readAll_script hF (fun hc => (hn _ hc).1 rfl) (fun x hx => (legalName_good (hl x hx)).1)]
  rw [List.append_assoc]
  rfl

/-- C33.  It is a legal script (every command succeeds: each constant is declared once, with a legal name, before it is used; the assertion is
well sorted), ending with exit, and its one query has one assertion and declares exactly the variables of the rule, all of the sort of the fragment. -/
theorem C33_legal (r : Rule) (s : Str) (hg : generate r = .ok s) (hl : ∀ x ∈ ruleVars r, legalName x = true) :
    ∃ so σ q t, RuleFragment so r ∧ execute s = some σ ∧ σ.exited = true ∧ σ.queries = [q] ∧ q.asserts = [t] ∧
      sortOf q.decls t = some .bool ∧ (q.decls.map (·.1)).Nodup ∧ (∀ x, x ∈ q.decls.map (·.1) ↔ x ∈ ruleVars r) ∧ ∀ d ∈ q.decls, d.2 = so := by
  obtain ⟨t, _, hF, rfl⟩ := generate_ok_iff.1 hg
  have hp : ∀ x ∈ ruleVars r, plainName x := fun x hx => ⟨(legalName_good (hl x hx)).1.1, (legalName_good (hl x hx)).2⟩
  have hd : (declsOf t (declNames r)).map (·.1) = declNames r := by simp [declsOf, Function.comp_def]
  refine ⟨srt t, finalSession t r, ⟨declsOf t (declNames r), [claim r]⟩, claim r, hF, ?_, rfl, rfl, rfl, sortOf_claim hF, ?_, ?_, ?_⟩
  · rw [execute_script hF hp, if_pos hl]
  · simp only [hd]; exact declNames_nodup r
  · intro x; simp only [hd]; exact mem_declNames
  · intro d hd
    simp only [declsOf, List.mem_map] at hd
    obtain ⟨_, _, rfl⟩ := hd
    rfl

/-- A script that is executed successfully. -/
example : (match generate notNeq with | .ok s => (execute s).isSome | _ => false) = true := by decide +kernel

/-- C39.  All constants declared by a script have the sort of the match's opcode. -/
theorem C39_sort_of_match (r : Rule) (s : Str) (hg : generate r = .ok s) (hl : ∀ x ∈ ruleVars r, legalName x = true)
    (h : Hdr) (args : List Value) (o : Str) (m : Meaning) (hm : r.match = .sexpr h args) (ho : h.op = .opcode o) (hmo : meaning o = some m) :
    ∃ σ q, execute s = some σ ∧ σ.queries = [q] ∧ ∀ d ∈ q.decls, d.2 = m.sort := by
  obtain ⟨so, σ, q, t, hF, h1, _, h2, _, _, _, _, h3⟩ := C33_legal r s hg hl
  refine ⟨σ, q, h1, h2, fun d hd => ?_⟩
  rw [h3 d hd]
  have hfm := hF.2.2.2.1
  rw [hm] at hfm
  cases hfm with
  | sexpr hb ho' hm' hs ha has =>
    rw [ho] at ho'
    simp only [Op.opcode.injEq] at ho'
    subst ho'
    rw [hmo] at hm'
    simp at hm'
    rw [← hs, hm']

/-- C39.  Whatever is being evaluated, under the types that occur in a run (unknown, or the default signed type of a sort) every
value computed, and every variable declared, has a default (signed or Boolean) type: the unsigned signatures are never selected. -/
theorem C39_never_unsigned (v : Value) (t : GoType) (ht : t ∈ [GoType.bool, .int8, .int16, .int32, .int64]) (pre : Str)
    (val : SmtValue) (st : GState) (h : geval v (some t) ⟨pre, []⟩ = .ok (val, st) ∨ geval v none ⟨pre, []⟩ = .ok (val, st)) :
    val.type ∈ [GoType.bool, .int8, .int16, .int32, .int64] ∧ ∀ e ∈ st.vars, e.2.type = val.type := by
  have key : ∀ t : GoType, signed t = true → geval v (some t) ⟨pre, []⟩ = .ok (val, st) →
      val.type ∈ [GoType.bool, .int8, .int16, .int32, .int64] ∧ ∀ e ∈ st.vars, e.2.type = val.type := by
    intro t hs h
    have e : (⟨pre, []⟩ : GState) = stOf pre t [] := by simp [stOf]
    rw [e] at h
    have hg := geval_eq pre t hs v []
    by_cases hF : Fragment (srt t) v
    · rw [hg.1 hF] at h
      simp only [Res.ok.injEq, Prod.mk.injEq] at h
      obtain ⟨rfl, rfl⟩ := h
      refine ⟨?_, ?_⟩
      · revert hs; cases t <;> simp [signed]
      · intro e he
        simp only [stOf, List.mem_map] at he
        obtain ⟨_, _, rfl⟩ := he
        rfl
    · obtain ⟨e, _, _, he, _⟩ := hg.2 hF
      rw [he] at h; simp at h
  rcases h with h | h
  · exact key t (by revert ht; cases t <;> simp [signed]) h
  · cases v with
    | nil => simp [geval] at h
    | expr e => simp [geval] at h
    | var x => simp [geval, gvariable] at h
    | sexpr hd args =>
      rcases geval_none hd args ⟨pre, []⟩ with ⟨e, _, he, _⟩ | ⟨t', ht', he, _⟩
      · rw [he] at h; simp at h
      · rw [he] at h
        exact key t' ht' h

/-! ## C35 -/

theorem fragments_mem {so : Srt} : ∀ {vs : List Value}, Fragments so vs → ∀ a ∈ vs, Fragment so a
  | _, .nil, _, ha => by simp at ha
  | _, .cons h hs, a, ha => by
    rcases List.mem_cons.1 ha with rfl | ha
    · exact h
    · exact fragments_mem hs a ha

theorem fragment_sub {so : Srt} {v w : Value} (hf : Fragment so v) (hw : SubValue v w) : Fragment so w := by
  induction hw with
  | self => exact hf
  | arg ha _ ih =>
    cases hf with
    | sexpr _ _ _ _ _ has => exact ih (fragments_mem has _ ha)

/-- C35.  Whenever the generator returns a script, the rule has no condition and no block, and at every depth of match and result there is
no binding, type, AuxInt, Aux, ellipsis, trailing, alternative or multi-part opcode and no Go expression.  (When it returns an
error it returns no bytes: its result is either a text or an error, see `Res`.) -/
theorem C35_nothing_ignored (r : Rule) (s : Str) (hg : generate r = .ok s) :
    r.condition = none ∧ r.block = [] ∧
    ∀ w, SubValue r.match w ∨ SubValue r.result w →
      (∃ x, w = .var x) ∨ ∃ h args o, w = .sexpr h args ∧ h.op = .opcode o ∧ HdrSimple h := by
  obtain ⟨t, _, ⟨hc, hb, _, hm, hr⟩, rfl⟩ := generate_ok_iff.1 hg
  refine ⟨hc, hb, fun w hw => ?_⟩
  have hF : Fragment (srt t) w := hw.elim (fragment_sub hm) (fragment_sub hr)
  cases hF with
  | var x => exact .inl ⟨x, rfl⟩
  | sexpr hb ho _ _ _ _ => exact .inr ⟨_, _, _, rfl, ho, hb⟩

/-- C35, as a statement about errors: a rule with any unsupported feature anywhere is rejected. -/
theorem C35_features_rejected (r : Rule)
    (h : r.condition ≠ none ∨ r.block ≠ [] ∨ (∃ e, SubValue r.match (.expr e) ∨ SubValue r.result (.expr e)) ∨
      RuleHas (fun h => ¬ HdrSimple h ∨ ∀ o, h.op ≠ .opcode o) r) : ∃ e, generate r = .err e := by
  rw [C34_rejects, ← C34_accepts_iff]
  rintro ⟨s, hs⟩
  obtain ⟨h1, h2, h3⟩ := C35_nothing_ignored r s hs
  rcases h with h | h | ⟨e, h⟩ | ⟨hd, args, hp, hw⟩
  · exact h h1
  · exact h h2
  · rcases h3 _ h with ⟨x, hx⟩ | ⟨_, _, _, hx, _⟩ <;> simp at hx
  · rcases h3 _ hw with ⟨x, hx⟩ | ⟨h', a', o, hx, ho, hsm⟩
    · simp at hx
    · simp only [Value.sexpr.injEq] at hx
      obtain ⟨rfl, rfl⟩ := hx
      exact hp.elim (fun hh => hh hsm) (fun hh => hh o ho)

example : isOk (generate subAdd) = true ∧
    isOk (generate { subAdd with result := .sexpr { op := .opcode "Neg8".toList, auxInt := some (.ident 0 ['c']) } [x] }) = false := by
  decide +kernel

/-! ## C36 -/

/-- C36.  If no variable name contains a line break, the printed rule has none, so in the script it is one comment line after the
two header commands; and the script reads as the same commands as with this line removed. -/
theorem C36_comment_confined (r : Rule) (s : Str) (hg : generate r = .ok s) (hn : ∀ x ∈ ruleVars r, '\n' ∉ x ∧ '\r' ∉ x) :
    ∃ pre text post, printBytes (.rule r) = .ok text ∧ '\n' ∉ text ∧ '\r' ∉ text ∧
      s = pre ++ "; ".toList ++ text ++ "\n".toList ++ post ∧
      readAll pre = some [.list [.atom "set-info".toList, .atom ":smt-lib-version".toList, .atom "2.6".toList],
        .list [.atom "set-logic".toList, .atom "QF_BV".toList]] ∧
      readAll s = readAll (pre ++ post) := by
  obtain ⟨t, _, hF, rfl⟩ := generate_ok_iff.1 hg
  have hnl := showRule_nolines hF (fun x hx c hc => ⟨fun e => (hn x hx).2 (e ▸ hc), fun e => (hn x hx).1 (e ▸ hc)⟩)
  have hrep : replaceNewlines (showRule r) = showRule r := by
    have : ∀ l : Str, (∀ c ∈ l, c ≠ '\n') → replaceNewlines l = l := by
      intro l
      induction l with
      | nil => intro _; rfl
      | cons c l ih =>
        intro h
        have := ih (fun c hc => h c (by simp [hc]))
        unfold replaceNewlines at this ⊢
        rw [List.flatMap_cons, this, if_neg (h c (by simp))]
        rfl
    exact this _ (fun c hc => (hnl c hc).2)
  refine ⟨textLines header, showRule r, textLines (body t r), ?_, fun h => (hnl _ h).2 rfl, fun h => (hnl _ h).1 rfl, ?_, ?_, ?_⟩
  · have e : printBytes (.rule r) = if rulePrintable r = true then .ok (showRule r) else .err (.unexpectedType (firstBad (.rule r))) := printBytes_eq _
    rw [e, if_pos]
    obtain ⟨hc, _, _, hm, hr⟩ := hF
    simp [rulePrintable, fragment_printable hm, fragment_printable hr, hc, goSupportedOpt]
  · rw [scriptText_eq, commentText, hrep]
    simp only [List.append_assoc]
  · exact readAll_lines header header_good
  · have := lex_script (t := t) (r := r) (fun h => (hnl _ h).1 rfl) []
    rw [List.append_nil, List.append_nil, textLines_append] at this
    unfold readAll
    rw [this]

/-- C36, for any names without CR (line feeds allowed): in the script the printed rule is broken into lines, each of which is a comment, and the
script reads as the same commands as without them. -/
theorem C36_any_names (r : Rule) (s : Str) (hg : generate r = .ok s) (hn : ∀ x ∈ ruleVars r, '\r' ∉ x) :
    ∃ pre text lines post, printBytes (.rule r) = .ok text ∧ (∀ l ∈ lines, '\n' ∉ l) ∧ text = ['\n'].intercalate lines ∧
      s = pre ++ lines.flatMap (fun l => "; ".toList ++ l ++ "\n".toList) ++ post ∧ readAll s = readAll (pre ++ post) := by
  obtain ⟨t, _, hF, rfl⟩ := generate_ok_iff.1 hg
  have hcr := showRule_nocr hF hn
  obtain ⟨lines, h1, h2, h3⟩ := comment_lines (showRule r)
  refine ⟨textLines header, showRule r, lines, textLines (body t r), ?_, h1, h2, ?_, ?_⟩
  · have e : printBytes (.rule r) = if rulePrintable r = true then .ok (showRule r) else .err (.unexpectedType (firstBad (.rule r))) := printBytes_eq _
    rw [e, if_pos]
    obtain ⟨hc, _, _, hm, hr⟩ := hF
    simp [rulePrintable, fragment_printable hm, fragment_printable hr, hc, goSupportedOpt]
  · rw [scriptText_eq, commentText, h3]
  · have := lex_script (t := t) (r := r) hcr []
    rw [List.append_nil, List.append_nil, textLines_append] at this
    unfold readAll
    rw [this]

/-- such a rule (it cannot come from the parser): the name `x⏎y` -/
example : ∃ s, generate { «match» := op "Neg8" [.var ['x', '\n', 'y']], result := .var ['x', '\n', 'y'] } = .ok s :=
  ⟨_, show _ = Res.ok "(set-info :smt-lib-version 2.6)\n(set-logic QF_BV)\n; (Neg8 x\n; y) => x\n; y\n(declare-const x\ny (_ BitVec 8))\n(assert (not (= (bvneg x\ny) x\ny)))\n(check-sat)\n(exit)\n".toList by decide +kernel⟩

/-! ## C37 -/

/-- The natural claim is false: with the placeholder `_` as a variable the generator produces a script that is not legal SMT-LIB. -/
theorem C37_false_placeholder : ∃ s, generate wildRule = .ok s ∧ execute s = none :=
  ⟨"(set-info :smt-lib-version 2.6)\n(set-logic QF_BV)\n; (And8 _ _) => _\n(declare-const _ (_ BitVec 8))\n(assert (not (= (bvand _ _) _)))\n(check-sat)\n(exit)\n".toList,
    by decide +kernel, Option.isNone_iff_eq_none.1 (by decide +kernel)⟩

/-- The natural claim is false: so it does for a variable called `let`. -/
theorem C37_false_reserved : ∃ s, generate letRule = .ok s ∧ execute s = none :=
  ⟨"(set-info :smt-lib-version 2.6)\n(set-logic QF_BV)\n; (And8 let let) => let\n(declare-const let (_ BitVec 8))\n(assert (not (= (bvand let let) let)))\n(check-sat)\n(exit)\n".toList,
    by decide +kernel, Option.isNone_iff_eq_none.1 (by decide +kernel)⟩

/-- C37.  For variables made of symbol characters (in particular for all variables of parsed rules, which match
`[_a-zA-Z][_a-zA-Z0-9]*`) the script is legal exactly when every variable is a legal, non-reserved name. -/
theorem C37_legal_iff (r : Rule) (s : Str) (hg : generate r = .ok s)
    (hn : ∀ x ∈ ruleVars r, x ≠ [] ∧ ∀ c ∈ x, isSymChar c = true) :
    (∃ σ, execute s = some σ) ↔ ∀ x ∈ ruleVars r, legalName x = true := by
  obtain ⟨t, _, hF, rfl⟩ := generate_ok_iff.1 hg
  rw [execute_script hF hn]
  split
  · next h => exact ⟨fun _ => h, fun _ => ⟨_, rfl⟩⟩
  · next h => exact ⟨fun ⟨σ, hσ⟩ => by simp at hσ, fun hh => absurd hh h⟩

/-! ## C38 -/

/-- C38.  However often a name (such as the placeholder `_`) occurs in an accepted rule, the script text declares it once: it
contains the same declarations as for the list of different names. -/
theorem C38_declared_once (r : Rule) (s : Str) (hg : generate r = .ok s) :
    ∃ (pre post : Str) (names : List Str) (sort : Str), names = firsts (ruleVars r) ∧ names.Nodup ∧ (∀ y, y ∈ names ↔ y ∈ ruleVars r) ∧
      s = pre ++ names.flatMap (fun y => "(declare-const ".toList ++ y ++ [' '] ++ sort ++ ")\n".toList) ++ post := by
  obtain ⟨t, _, hF, rfl⟩ := generate_ok_iff.1 hg
  refine ⟨preamble ++ commentText r, assertLine r ++ "(check-sat)\n".toList ++ "(exit)\n".toList, declNames r, typesort t, declNames_firsts r, declNames_nodup r,
    fun y => mem_declNames, ?_⟩
  have : (fun y => "(declare-const ".toList ++ y ++ [' '] ++ typesort t ++ ")\n".toList) = declLine t := rfl
  rw [this, scriptText]
  simp only [List.append_assoc]

/-- C38, an instance: the script for `(And8 _ _) => _`, with three placeholders, has one constant for all three. -/
theorem C38_instance : generate wildRule = .ok
    "(set-info :smt-lib-version 2.6)\n(set-logic QF_BV)\n; (And8 _ _) => _\n(declare-const _ (_ BitVec 8))\n(assert (not (= (bvand _ _) _)))\n(check-sat)\n(exit)\n".toList := by
  decide +kernel

/-- C38.  If every name occurs at most once in the rule, there is one constant per occurrence. -/
theorem C38_distinct (r : Rule) (s : Str) (hg : generate r = .ok s) (hl : ∀ x ∈ ruleVars r, legalName x = true)
    (hnd : (ruleVars r).Nodup) : ∃ σ q, execute s = some σ ∧ σ.queries = [q] ∧ q.decls.map (·.1) = ruleVars r := by
  obtain ⟨t, _, hF, rfl⟩ := generate_ok_iff.1 hg
  have hp : ∀ x ∈ ruleVars r, plainName x := fun x hx => ⟨(legalName_good (hl x hx)).1.1, (legalName_good (hl x hx)).2⟩
  refine ⟨finalSession t r, ⟨declsOf t (declNames r), [claim r]⟩, ?_, rfl, ?_⟩
  · rw [execute_script hF hp, if_pos hl]
  · have hd : (declsOf t (declNames r)).map (·.1) = declNames r := by simp [declsOf, Function.comp_def]
    rw [hd]
    have : ∀ (xs names : List Str), (names ++ xs).Nodup → addNames names xs = names ++ xs := by
      intro xs
      induction xs with
      | nil => intro names _; simp [addNames]
      | cons a xs ih =>
        intro names h
        have e : addNames names (a :: xs) = addNames (if a ∈ names then names else names ++ [a]) xs := rfl
        have ha : a ∉ names := by
          rw [List.nodup_append] at h
          intro hm
          exact h.2.2 a hm a (by simp) rfl
        rw [e, if_neg ha, ih _ (by simpa using h)]
        simp
    have h0 := this (ruleVars r) [] (by simpa using hnd)
    simpa [declNames] using h0

end Verif.Props

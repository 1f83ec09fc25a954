import Verif.Proof.Smt2
/-!
# Proofs about the SMT generator: the whole script
-/
namespace Verif

open Verif.Spec Verif.Spec.Smt Verif.Spec.Ssa

mutual
theorem fragment_printable {s : Srt} : ∀ {v : Value}, Fragment s v → valuePrintable v = true
  | _, .var _ => rfl
  | _, .sexpr hb ho _ _ _ has => by
    unfold bareHdr at hb
    simp [valuePrintable, ho, opPrintable, hb.2.2.1, hb.2.2.2.1, goSupportedOpt, fragments_printable has]
theorem fragments_printable {s : Srt} : ∀ {vs : List Value}, Fragments s vs → valuesPrintable vs = true
  | _, .nil => rfl
  | _, .cons h hs => by simp [valuesPrintable, fragment_printable h, fragments_printable hs]
end

/-- The two commands before the comment. -/
def preamble : Str := "(set-info :smt-lib-version 2.6)\n".toList ++ "(set-logic QF_BV)\n".toList

def commentText (r : Rule) : Str := "; ".toList ++ replaceNewlines (showRule r) ++ "\n".toList

def assertLine (r : Rule) : Str :=
  "(assert (not (= ".toList ++ render (termOf r.match) ++ [' '] ++ render (termOf r.result) ++ ")))\n".toList

def declNames (r : Rule) : List Str := addNames [] (ruleVars r)

def scriptText (t : GoType) (r : Rule) : Str :=
  preamble ++ commentText r ++ (declNames r).flatMap (declLine t) ++ assertLine r ++ "(check-sat)\n".toList ++ "(exit)\n".toList

theorem wrong_not_fragment {s : Srt} {v : Value} {c : Cause} (h : Wrong s v c) : ¬ Fragment s v := by
  intro hf
  cases h with
  | binding h => cases hf with | sexpr hb => exact h hb.1
  | typeField _ h => cases hf with | sexpr hb => exact h hb.2.1
  | auxInt _ _ h => cases hf with | sexpr hb => exact h hb.2.2.1
  | aux _ _ _ h => cases hf with | sexpr hb => exact h hb.2.2.2.1
  | ellipsis _ _ _ _ h => cases hf with | sexpr hb => rw [hb.2.2.2.2.1] at h; cases h
  | trailing _ _ _ _ _ h => cases hf with | sexpr hb => rw [hb.2.2.2.2.2] at h; cases h
  | unexpanded _ h => cases hf with | sexpr _ ho => exact h _ ho
  | opcode _ ho hm => cases hf with | sexpr _ ho' hm' => rw [ho] at ho'; cases ho'; rw [hm] at hm'; cases hm'
  | sort _ ho hm hs => cases hf with | sexpr _ ho' hm' hs' => rw [ho] at ho'; cases ho'; rw [hm] at hm'; cases hm'; exact hs hs'
  | count _ ho hm _ ha => cases hf with | sexpr _ ho' hm' _ ha' => rw [ho] at ho'; cases ho'; rw [hm] at hm'; cases hm'; exact ha ha'
  | expression => cases hf
  | absent => cases hf

/-- Without an expected type an S-expression is evaluated as with the (signed) type of its opcode. -/
theorem geval_none (h : Hdr) (args : List Value) (st : GState) :
    (∃ e c, geval (.sexpr h args) none st = .err e ∧ (∀ s, Wrong s (.sexpr h args) c) ∧ e.text = c.say) ∨
    ∃ t, signed t = true ∧ geval (.sexpr h args) none st = geval (.sexpr h args) (some t) st ∧
      ∃ o m, h.op = .opcode o ∧ meaning o = some m ∧ m.sort = srt t := by
  simp only [geval]
  cases hu : unsupported h with
  | some e =>
    obtain ⟨c, hc, htx⟩ := unsupported_some (s := .bool) (args := args) hu
    refine .inl ⟨e, c, rfl, fun s => ?_, ?_⟩
    · obtain ⟨c', hc', _⟩ := unsupported_some (s := s) (args := args) hu
      cases hc with
      | binding h1 => exact .binding h1
      | typeField h1 h2 => exact .typeField h1 h2
      | auxInt h1 h2 h3 => exact .auxInt h1 h2 h3
      | aux h1 h2 h3 h4 => exact .aux h1 h2 h3 h4
      | ellipsis h1 h2 h3 h4 h5 => exact .ellipsis h1 h2 h3 h4 h5
      | trailing h1 h2 h3 h4 h5 h6 => exact .trailing h1 h2 h3 h4 h5 h6
      | unexpanded hb _ => rw [(unsupported_none h).2 hb] at hu; cases hu
      | opcode hb _ _ => rw [(unsupported_none h).2 hb] at hu; cases hu
      | sort hb _ _ _ => rw [(unsupported_none h).2 hb] at hu; cases hu
      | count hb _ _ _ _ => rw [(unsupported_none h).2 hb] at hu; cases hu
    · assumption
  | none =>
    have hb := (unsupported_none h).1 hu
    cases ho : h.op with
    | nil => exact .inl ⟨_, _, rfl, fun s => .unexpanded hb (by simp [ho]), rfl⟩
    | parts ps => exact .inl ⟨_, _, rfl, fun s => .unexpanded hb (by simp [ho]), rfl⟩
    | opcode o =>
      simp only [operations_rows]
      cases hr : rowOf o with
      | none => exact .inl ⟨_, _, rfl, fun s => .opcode hb ho (meaning_none hr), rfl⟩
      | some r =>
        have hmem := (rowOf_mem hr).1
        have hg := rows_good1 r hmem
        refine .inr ⟨r.t, hg.1, ?_, o, r.m, rfl, meaning_some hr, hg.2.1⟩
        simp only [Option.map_some]
        rw [params_some hg.1 hg.1, params_none hg.1, if_pos rfl]

theorem fragment_sort {s : Srt} {h : Hdr} {args : List Value} {o : Str} {m : Meaning} (hf : Fragment s (.sexpr h args)) (ho : h.op = .opcode o)
    (hm : meaning o = some m) : s = m.sort := by
  cases hf with
  | sexpr _ ho' hm' hs _ _ =>
    rw [ho] at ho'; cases ho'
    rw [hm] at hm'; cases hm'
    exact hs.symm

/-- `generate` after the comment. -/
def genTail (pre : Str) (r : Rule) : Res Str := do
  let (m, st) ← geval r.match none { out := pre, vars := [] }
  if r.condition.isSome then .err (.notSupported "rule conditions".toList)
  else if r.block ≠ [] then .err (.notSupported "rule blocks".toList)
  else do
    let (res, st) ← geval r.result (some m.type) st
    .ok (st.out ++ "(assert (not (= ".toList ++ m.expr ++ [' '] ++ res.expr ++ ")))\n".toList ++ "(check-sat)\n".toList ++ "(exit)\n".toList)

theorem generate_def (r : Rule) : generate r = (printBytes (.rule r)).bind fun text =>
    genTail (preamble ++ "; ".toList ++ replaceNewlines text ++ "\n".toList) r := rfl

theorem generate_ok {r : Rule} {t : GoType} (ht : signed t = true) (h : RuleFragment (srt t) r) :
    generate r = .ok (scriptText t r) := by
  obtain ⟨hc, hb, ⟨hd, args, hm⟩, hfm, hfr⟩ := h
  have hp : printBytes (.rule r) = .ok (showRule r) := by
    have e : printBytes (.rule r) = if rulePrintable r = true then .ok (showRule r) else .err (.unexpectedType (firstBad (.rule r))) := printBytes_eq _
    rw [e, if_pos]
    simp [rulePrintable, fragment_printable hfm, fragment_printable hfr, hc, goSupportedOpt]
  rw [generate_def, hp]
  show genTail (preamble ++ "; ".toList ++ replaceNewlines (showRule r) ++ "\n".toList) r = _
  have e : preamble ++ "; ".toList ++ replaceNewlines (showRule r) ++ "\n".toList = preamble ++ commentText r := by
    simp only [commentText, List.append_assoc]
  rw [e]
  have hM : geval r.match none ⟨preamble ++ commentText r, []⟩ = geval r.match (some t) (stOf (preamble ++ commentText r) t []) := by
    have hst : ∀ p : Str, (⟨p, []⟩ : GState) = stOf p t [] := fun p => by simp [stOf]
    rw [hst]
    have hg := geval_none hd args (stOf (preamble ++ commentText r) t [])
    rw [← hm] at hg
    rcases hg with ⟨e, c, _, hw, _⟩ | ⟨t', h1, h2, o, m, ho, hmo, hso⟩
    · rw [hm] at hfm
      rw [hm] at hw
      exact absurd hfm (wrong_not_fragment (hw _))
    · rw [hm] at hfm
      have := srt_inj ht h1 (by rw [fragment_sort hfm ho hmo, hso])
      rw [this] at h2 ⊢
      exact h2
  unfold genTail
  rw [hM, (geval_eq _ t ht r.match []).1 hfm, Res.bind_ok]
  simp only
  rw [if_neg (by simp [hc]), if_neg (by simp [hb]), (geval_eq _ t ht r.result _).1 hfr, Res.bind_ok, ← addNames_append]
  unfold scriptText assertLine stOf declNames ruleVars
  simp only [List.append_assoc]

theorem badRule_printBytes (r : Rule) : printBytes (.rule r) =
    match badRule r with
    | [] => .ok (showRule r)
    | ty :: _ => .err (.unexpectedType ty) := by
  have e : printBytes (.rule r) = if printable (.rule r) = true then .ok (showRule r) else .err (.unexpectedType (firstBad (.rule r))) := printBytes_eq _
  rw [e]
  have h1 : badNode (.rule r) = badRule r := rfl
  cases hb : badRule r with
  | nil => rw [if_pos ((printable_iff _).2 (by rw [h1, hb]))]
  | cons ty l =>
    rw [if_neg]
    · rw [firstBad, h1, hb]; rfl
    · rw [printable_iff, h1, hb]; simp

theorem unexpected_text (ty : Str) : (Err.unexpectedType ty).text = "assertion failure: unexpected type ".toList ++ ty := rfl

theorem sortOfMatch {r : Rule} {hd : Hdr} {args : List Value} {o : Str} {m : Meaning} {s : Srt} (hm : r.match = .sexpr hd args)
    (ho : hd.op = .opcode o) (hmo : meaning o = some m) (hs : m.sort = s) : SortOfMatch r s := by
  intro h' args' o' m' e1 e2 e3
  rw [hm] at e1; cases e1
  rw [ho] at e2; cases e2
  rw [hmo] at e3; cases e3
  exact hs

theorem generate_err {r : Rule} (h : ∀ s, ¬ RuleFragment s r) : ∃ e, generate r = .err e ∧ NoScript r e.text := by
  rw [generate_def, badRule_printBytes]
  cases hbad : badRule r with
  | cons ty rest => exact ⟨_, rfl, unexpected_text ty ▸ .unprintable hbad⟩
  | nil =>
    show ∃ e, genTail (preamble ++ "; ".toList ++ replaceNewlines (showRule r) ++ "\n".toList) r = _ ∧ _
    generalize preamble ++ "; ".toList ++ replaceNewlines (showRule r) ++ "\n".toList = pre
    unfold genTail
    have hst : ∀ t, (⟨pre, []⟩ : GState) = stOf pre t [] := fun t => by simp [stOf]
    cases hm : r.match with
    | nil => rw [badRule, hm] at hbad; simp [badValue] at hbad
    | expr e => exact ⟨_, rfl, .inMatch (s := .bool) (p := []) (c := .expression) hbad (by intro _ _ _ _ e1; rw [hm] at e1; cases e1) (by rw [hm]; exact .here .expression)⟩
    | var x => exact ⟨_, rfl, .bareVariable hbad hm⟩
    | sexpr hd args =>
      rcases geval_none hd args ⟨pre, []⟩ with ⟨e, c, h1, h2, h3⟩ | ⟨t, ht, h2, o, m, ho, hmo, hso⟩
      · rw [h1]
        refine ⟨e, rfl, ?_⟩
        rw [h3]
        show NoScript r (say [] c)
        by_cases hx : ∃ o m, hd.op = .opcode o ∧ meaning o = some m
        · obtain ⟨o, m, ho, hmo⟩ := hx
          exact .inMatch hbad (sortOfMatch hm ho hmo rfl) (by rw [hm]; exact .here (h2 _))
        · refine .inMatch (s := .bool) hbad ?_ (by rw [hm]; exact .here (h2 _))
          intro h' args' o' m' e1 e2 e3
          rw [hm] at e1; cases e1
          exact absurd ⟨o', m', e2, e3⟩ hx
      · rw [h2, hst t]
        have hg := geval_eq pre t ht (.sexpr hd args) []
        by_cases hF : Fragment (srt t) (.sexpr hd args)
        · rw [hg.1 hF, Res.bind_ok]
          simp only
          cases hc : r.condition with
          | some x =>
            rw [if_pos (by simp)]
            exact ⟨_, rfl, .condition hbad hm (by rw [hm]; exact hF) (by simp [hc])⟩
          | none =>
            rw [if_neg (by simp)]
            by_cases hb : r.block = []
            · rw [if_neg (by simp [hb])]
              have hres := geval_eq pre t ht r.result (addNames [] (vars (.sexpr hd args)))
              by_cases hR : Fragment (srt t) r.result
              · exact absurd ⟨hc, hb, ⟨hd, args, hm⟩, hm ▸ hF, hR⟩ (h (srt t))
              · obtain ⟨e, p, c, he, htr, htx⟩ := hres.2 hR
                refine ⟨e, by rw [he]; rfl, ?_⟩
                rw [htx]
                exact .inResult hbad hm (by rw [hm]; exact hF) hc hb htr
            · rw [if_pos hb]
              exact ⟨_, rfl, .block hbad hm (by rw [hm]; exact hF) hc hb⟩
        · obtain ⟨e, p, c, he, htr, htx⟩ := hg.2 hF
          refine ⟨e, by rw [he]; rfl, ?_⟩
          rw [htx]
          exact .inMatch hbad (sortOfMatch hm ho hmo hso) (by rw [hm]; exact htr)

/-- A rule fragment has the sort of a signed Go type. -/
theorem fragment_signed {s : Srt} {r : Rule} (h : RuleFragment s r) : ∃ t, signed t = true ∧ s = srt t := by
  obtain ⟨_, _, ⟨hd, args, hm⟩, hf, _⟩ := h
  rw [hm, fragment_sexpr_iff] at hf
  obtain ⟨_, o, row, _, hr, hs, _⟩ := hf
  exact ⟨row.t, (rows_good1 row (rowOf_mem hr).1).1, hs.symm⟩

theorem generate_ok_iff {r : Rule} {s : Str} :
    generate r = .ok s ↔ ∃ t, signed t = true ∧ RuleFragment (srt t) r ∧ s = scriptText t r := by
  constructor
  · intro h
    by_cases hF : ∃ s, RuleFragment s r
    · obtain ⟨so, hF⟩ := hF
      obtain ⟨t, ht, rfl⟩ := fragment_signed hF
      rw [generate_ok ht hF] at h
      simp only [Res.ok.injEq] at h
      exact ⟨t, ht, hF, h.symm⟩
    · obtain ⟨e, he, _⟩ := generate_err (fun s hs => hF ⟨s, hs⟩)
      rw [he] at h; simp at h
  · rintro ⟨t, ht, hF, rfl⟩
    exact generate_ok ht hF

/-! ## Reading the script -/

mutual
/-- Tokens of an S-expression. -/
def toks : SExp → List Token
  | .atom s => [.sym s]
  | .list l => .lp :: tokss l ++ [.rp]
def tokss : List SExp → List Token
  | [] => []
  | e :: es => toks e ++ tokss es
end

mutual
/-- All atoms are non-empty and made of atom characters. -/
def goodAtoms : SExp → Prop
  | .atom s => s ≠ [] ∧ ∀ c ∈ s, isAtomChar c = true
  | .list l => goodAtomss l
def goodAtomss : List SExp → Prop
  | [] => True
  | e :: es => goodAtoms e ∧ goodAtomss es
end

/-- Characters that end an atom. -/
def isDelim (c : Char) : Prop := c = '(' ∨ c = ')' ∨ c = ' ' ∨ c = '\n'

theorem lex_atom_end (acc : List Char) {d : Char} (hd : isDelim d) (rest : Str) :
    lex (.atom acc) (d :: rest) = (lex .between (d :: rest)).map (.sym acc.reverse :: ·) := by
  rcases hd with rfl | rfl | rfl | rfl
  · simp [lex, Option.map_map, Function.comp_def]
  · simp [lex, Option.map_map, Function.comp_def]
  · simp [lex, isSpace]
  · simp [lex, isSpace]

theorem atomChar_facts {c : Char} (h : isAtomChar c = true) : c ≠ '(' ∧ c ≠ ')' ∧ c ≠ ';' ∧ isSpace c = false := by
  refine ⟨?_, ?_, ?_, ?_⟩
  · rintro rfl; revert h; decide
  · rintro rfl; revert h; decide
  · rintro rfl; revert h; decide
  · cases hs : isSpace c with
    | false => rfl
    | true =>
      simp only [isSpace, Bool.or_eq_true, beq_iff_eq] at hs
      rcases hs with ((rfl | rfl) | rfl) | rfl <;> revert h <;> decide

theorem lex_atom_step (acc : List Char) {c : Char} (h : isAtomChar c = true) (s : Str) :
    lex (.atom acc) (c :: s) = lex (.atom (c :: acc)) s := by
  obtain ⟨h1, h2, h3, h4⟩ := atomChar_facts h
  simp [lex, h1, h2, h3, h4, h]

theorem lex_atom_run : ∀ (s : Str) (acc : List Char) {d : Char} (_ : isDelim d) (rest : Str), (∀ c ∈ s, isAtomChar c = true) →
    lex (.atom acc) (s ++ d :: rest) = (lex .between (d :: rest)).map (.sym (acc.reverse ++ s) :: ·)
  | [], acc, d, hd, rest, _ => by simpa using lex_atom_end acc hd rest
  | c :: s, acc, d, hd, rest, h => by
    rw [List.cons_append, lex_atom_step acc (h c (by simp)), lex_atom_run s (c :: acc) hd rest (fun x hx => h x (by simp [hx]))]
    simp

mutual
theorem lex_render : ∀ (e : SExp), goodAtoms e → ∀ {d : Char} (_ : isDelim d) (rest : Str),
    lex .between (render e ++ d :: rest) = (lex .between (d :: rest)).map (toks e ++ ·)
  | .atom [], h, _, _, _ => absurd rfl h.1
  | .atom (c :: s), h, d, hd, rest => by
    have hc := h.2 c (by simp)
    obtain ⟨h1, h2, h3, h4⟩ := atomChar_facts hc
    rw [render, List.cons_append]
    simp only [lex, h1, h2, h3, h4, hc, if_false, if_true]
    rw [lex_atom_run s [c] hd rest (fun x hx => h.2 x (by simp [hx]))]
    rfl
  | .list l, h, d, hd, rest => by
    rw [render, List.cons_append, List.cons_append, List.append_assoc]
    have : ∀ s, lex .between ('(' :: s) = (lex .between s).map (.lp :: ·) := fun s => by simp [lex]
    rw [this, List.cons_append, List.nil_append, lex_renders l h (d :: rest)]
    have : lex .between (')' :: d :: rest) = (lex .between (d :: rest)).map (.rp :: ·) := by simp [lex]
    rw [this]
    simp [toks, Option.map_map, Function.comp_def]
theorem lex_renders : ∀ (l : List SExp), goodAtomss l → ∀ (rest : Str),
    lex .between (renders l ++ ')' :: rest) = (lex .between (')' :: rest)).map (tokss l ++ ·)
  | [], _, rest => by simp [renders, tokss]
  | [e], h, rest => by
    rw [renders, lex_render e h.1 (.inr (.inl rfl))]
    simp [tokss]
  | e :: e' :: es, h, rest => by
    rw [renders, List.append_assoc, List.cons_append, lex_render e h.1 (.inr (.inr (.inl rfl)))]
    have : ∀ s, lex .between (' ' :: s) = lex .between s := fun s => by simp [lex, isSpace]
    rw [this, lex_renders (e' :: es) h.2 rest]
    simp [tokss, Option.map_map, Function.comp_def]
end

mutual
theorem read_toks : ∀ (e : SExp) (top : List SExp) (stk : List (List SExp)) (ts : List Token),
    readTokens (top :: stk) (toks e ++ ts) = readTokens ((e :: top) :: stk) ts
  | .atom s, top, stk, ts => by simp [toks, readTokens]
  | .list l, top, stk, ts => by
    have : readTokens (top :: stk) (toks (.list l) ++ ts) = readTokens ([] :: top :: stk) (tokss l ++ .rp :: ts) := by
      simp [toks, readTokens]
    rw [this, read_tokss l [] (top :: stk) (.rp :: ts)]
    simp [readTokens]
theorem read_tokss : ∀ (l : List SExp) (top : List SExp) (stk : List (List SExp)) (ts : List Token),
    readTokens (top :: stk) (tokss l ++ ts) = readTokens ((l.reverse ++ top) :: stk) ts
  | [], top, stk, ts => by simp [tokss]
  | e :: es, top, stk, ts => by
    rw [tokss, List.append_assoc, read_toks e, read_tokss es]
    simp
end

/-- One S-expression per line. -/
def textLines (es : List SExp) : Str := es.flatMap fun e => render e ++ ['\n']

theorem lex_lines : ∀ (es : List SExp), goodAtomss es → ∀ rest : Str,
    lex .between (textLines es ++ rest) = (lex .between rest).map (tokss es ++ ·)
  | [], _, rest => by simp [textLines, tokss]
  | e :: es, h, rest => by
    have e1 : textLines (e :: es) ++ rest = render e ++ '\n' :: (textLines es ++ rest) := by simp [textLines]
    rw [e1, lex_render e h.1 (.inr (.inr (.inr rfl)))]
    have : ∀ s, lex .between ('\n' :: s) = lex .between s := fun s => by simp [lex, isSpace]
    rw [this, lex_lines es h.2 rest]
    simp [tokss, Option.map_map, Function.comp_def]

theorem readAll_lines (es : List SExp) (h : goodAtomss es) : readAll (textLines es) = some es := by
  have := lex_lines es h []
  rw [List.append_nil] at this
  unfold readAll
  rw [this]
  have h2 := read_tokss es [] [] []
  simp only [List.append_nil] at h2
  simp [lex, h2, readTokens]

/-- A comment without CR is skipped, also when it has been broken into several comment lines. -/
theorem lex_comment_run : ∀ (s rest : Str), '\r' ∉ s →
    lex .comment (replaceNewlines s ++ '\n' :: rest) = lex .between rest
  | [], rest, _ => by simp [replaceNewlines, lex]
  | c :: s, rest, h => by
    simp only [List.mem_cons, not_or] at h
    have ih := lex_comment_run s rest h.2
    have e : replaceNewlines (c :: s) = (if c = '\n' then ['\n', ';', ' '] else [c]) ++ replaceNewlines s := by
      simp only [replaceNewlines, List.flatMap_cons]; rfl
    rw [e]
    by_cases hc : c = '\n'
    · subst hc
      simp [lex, ih]
    · have hr : c ≠ '\r' := fun e => h.1 e.symm
      simp [lex, hc, hr, ih]

theorem lex_comment (s rest : Str) (h : '\r' ∉ s) :
    lex .between ("; ".toList ++ replaceNewlines s ++ "\n".toList ++ rest) = lex .between rest := by
  have e : "; ".toList ++ replaceNewlines s ++ "\n".toList ++ rest = ';' :: ' ' :: (replaceNewlines s ++ '\n' :: rest) := by
    have h1 : "; ".toList = [';', ' '] := rfl
    have h2 : "\n".toList = ['\n'] := rfl
    rw [h1, h2]
    simp
  rw [e]
  simp [lex, lex_comment_run s rest h]

/-! ## The script as a list of S-expressions -/

def setInfo : SExp := .list [.atom "set-info".toList, .atom ":smt-lib-version".toList, .atom "2.6".toList]
def setLogic : SExp := .list [.atom "set-logic".toList, .atom "QF_BV".toList]
def sortExp : GoType → SExp
  | .bool => .atom "Bool".toList
  | .int8 | .uint8 => .list [.atom ['_'], .atom "BitVec".toList, .atom "8".toList]
  | .int16 | .uint16 => .list [.atom ['_'], .atom "BitVec".toList, .atom "16".toList]
  | .int32 | .uint32 => .list [.atom ['_'], .atom "BitVec".toList, .atom "32".toList]
  | .int64 | .uint64 => .list [.atom ['_'], .atom "BitVec".toList, .atom "64".toList]
def declCmd (t : GoType) (x : Str) : SExp := .list [.atom "declare-const".toList, .atom x, sortExp t]
def claim (r : Rule) : SExp := .list [.atom "not".toList, .list [.atom "=".toList, termOf r.match, termOf r.result]]
def assertCmd (r : Rule) : SExp := .list [.atom "assert".toList, claim r]
def checkSat : SExp := .list [.atom "check-sat".toList]
def exitCmd : SExp := .list [.atom "exit".toList]

def header : List SExp := [setInfo, setLogic]
def body (t : GoType) (r : Rule) : List SExp := (declNames r).map (declCmd t) ++ [assertCmd r, checkSat, exitCmd]

theorem preamble_eq : preamble = textLines header := by decide

theorem sortExp_render (t : GoType) : render (sortExp t) = typesort t := by cases t <;> decide

theorem render_decl (a x : Str) (e : SExp) : render (.list [.atom a, .atom x, e]) = '(' :: (a ++ ' ' :: (x ++ ' ' :: (render e ++ [')']))) := by
  simp [render, renders]

theorem render_assert (a b c : Str) (e f : SExp) : render (.list [.atom a, .list [.atom b, .list [.atom c, e, f]]]) =
    '(' :: (a ++ ' ' :: '(' :: (b ++ ' ' :: '(' :: (c ++ ' ' :: (render e ++ ' ' :: (render f ++ [')', ')', ')']))))) := by
  simp [render, renders]

theorem declLine_eq (t : GoType) (x : Str) : declLine t x = render (declCmd t x) ++ ['\n'] := by
  have h1 : "(declare-const ".toList = '(' :: ("declare-const".toList ++ [' ']) := by decide
  have h2 : ")\n".toList = [')', '\n'] := rfl
  unfold declLine declCmd
  rw [h1, h2, render_decl, sortExp_render]
  generalize "declare-const".toList = a
  simp

theorem assertLine_eq (r : Rule) : assertLine r = render (assertCmd r) ++ ['\n'] := by
  have h1 : "(assert (not (= ".toList = '(' :: ("assert".toList ++ ' ' :: '(' :: ("not".toList ++ ' ' :: '(' :: ("=".toList ++ [' ']))) := by decide
  have h2 : ")))\n".toList = [')', ')', ')', '\n'] := rfl
  unfold assertLine assertCmd claim
  rw [h1, h2, render_assert]
  generalize "assert".toList = a
  generalize "not".toList = b
  generalize "=".toList = c
  simp

theorem textLines_append (a b : List SExp) : textLines (a ++ b) = textLines a ++ textLines b := by simp [textLines]

theorem body_text (t : GoType) (r : Rule) : textLines (body t r) =
    (declNames r).flatMap (declLine t) ++ assertLine r ++ "(check-sat)\n".toList ++ "(exit)\n".toList := by
  have h1 : "(check-sat)\n".toList = render checkSat ++ ['\n'] := by decide
  have h2 : "(exit)\n".toList = render exitCmd ++ ['\n'] := by decide
  rw [h1, h2, body, textLines_append, assertLine_eq]
  have : textLines ((declNames r).map (declCmd t)) = (declNames r).flatMap (declLine t) := by
    simp only [textLines, List.flatMap_map]
    congr 1
    funext x
    exact (declLine_eq t x).symm
  rw [this]
  simp [textLines]

theorem scriptText_eq (t : GoType) (r : Rule) : scriptText t r = textLines header ++ commentText r ++ textLines (body t r) := by
  rw [scriptText, preamble_eq, body_text]
  simp only [List.append_assoc]

mutual
theorem showValue_chars (P : Char → Prop) (hP : P '(' ∧ P ')' ∧ P ' ') (hrow : ∀ r ∈ rows, ∀ c ∈ r.o.toList, P c) {s : Srt} :
    ∀ {v : Value}, Fragment s v → (∀ x ∈ vars v, ∀ c ∈ x, P c) → ∀ c ∈ showValue v, P c
  | _, .var x, hv => fun c hc => hv x (by simp [vars]) c (by simpa [showValue] using hc)
  | _, .sexpr (h := h) (o := o) hb ho hm _ _ has, hv => by
    have ih := showArgs_chars P hP hrow has (by simpa [vars] using hv)
    obtain ⟨h1, h2, h3, h4, h5, h6⟩ := hb
    rw [meaning_rows] at hm
    cases hr : rowOf o with
    | none => rw [hr] at hm; simp at hm
    | some r =>
      obtain ⟨hmem, hoo⟩ := rowOf_mem hr
      have hop := hrow r hmem
      rw [hoo] at hop
      intro c hc
      simp only [showValue, h1, h2, h3, h4, h5, h6, ho, showBinding, showType, showAuxInt, showAux, showOp, if_true, List.append_nil,
        List.nil_append, List.mem_append, List.mem_cons, List.not_mem_nil, or_false, Bool.false_eq_true, if_false] at hc
      grind
theorem showArgs_chars (P : Char → Prop) (hP : P '(' ∧ P ')' ∧ P ' ') (hrow : ∀ r ∈ rows, ∀ c ∈ r.o.toList, P c) {s : Srt} :
    ∀ {vs : List Value}, Fragments s vs → (∀ x ∈ varss vs, ∀ c ∈ x, P c) → ∀ c ∈ showArgs vs, P c
  | _, .nil, _ => by simp [showArgs]
  | _, .cons h hs, hv => by
    have i1 := showValue_chars P hP hrow h (fun x hx => hv x (by simp [varss, hx]))
    have i2 := showArgs_chars P hP hrow hs (fun x hx => hv x (by simp [varss, hx]))
    intro c hc
    simp only [showArgs, List.cons_append, List.mem_cons, List.mem_append] at hc
    grind
end

theorem showRule_nolines {s : Srt} {r : Rule} (h : RuleFragment s r) (hv : ∀ x ∈ ruleVars r, ∀ c ∈ x, c ≠ '\r' ∧ c ≠ '\n') :
    ∀ c ∈ showRule r, c ≠ '\r' ∧ c ≠ '\n' := by
  obtain ⟨hc, hb, _, hm, hr⟩ := h
  have i1 := showValue_chars (fun c => c ≠ '\r' ∧ c ≠ '\n') (by decide) rows_chars hm (fun x hx => hv x (by simp [ruleVars, hx]))
  have i2 := showValue_chars (fun c => c ≠ '\r' ∧ c ≠ '\n') (by decide) rows_chars hr (fun x hx => hv x (by simp [ruleVars, hx]))
  intro c hcc
  simp only [showRule, hc, hb, showCond, showBlock, if_true, List.append_nil, List.nil_append, List.mem_append, List.mem_cons, List.append_assoc,
    List.cons_append] at hcc
  rcases hcc with h | h | h | h | h | h
  · exact i1 c h
  · subst h; decide
  · subst h; decide
  · subst h; decide
  · subst h; decide
  · exact i2 c h

def goodName (x : Str) : Prop := x ≠ [] ∧ ∀ c ∈ x, isAtomChar c = true

theorem goodAtomss_append (a b : List SExp) : goodAtomss (a ++ b) ↔ goodAtomss a ∧ goodAtomss b := by
  induction a with
  | nil => simp [goodAtomss]
  | cons e es ih => simp [goodAtomss, ih, and_assoc]

mutual
theorem termOf_good {s : Srt} : ∀ {v : Value}, Fragment s v → (∀ x ∈ vars v, goodName x) → goodAtoms (termOf v)
  | _, .var x, hv => hv x (by simp [vars])
  | _, .sexpr (h := h) (o := o) hb ho hm _ _ has, hv => by
    have ih := termsOf_good has (by simpa [vars] using hv)
    rw [meaning_rows] at hm
    cases hr : rowOf o with
    | none => rw [hr] at hm; simp at hm
    | some r =>
      have hg := rows_atoms r (rowOf_mem hr).1
      simp only [termOf, ho, hr]
      cases hs : r.sh with
      | app f =>
        rw [hs] at hg
        simp only [Shape.goodAtom, Bool.and_eq_true, decide_eq_true_eq, List.all_eq_true] at hg
        exact ⟨hg, ih⟩
      | neq =>
        refine ⟨?_, ⟨⟨?_, ih⟩, trivial⟩⟩
        · unfold goodAtoms; decide
        · unfold goodAtoms; decide
theorem termsOf_good {s : Srt} : ∀ {vs : List Value}, Fragments s vs → (∀ x ∈ varss vs, goodName x) → goodAtomss (termsOf vs)
  | _, .nil, _ => trivial
  | _, .cons h hs, hv => ⟨termOf_good h (fun x hx => hv x (by simp [varss, hx])), termsOf_good hs (fun x hx => hv x (by simp [varss, hx]))⟩
end

theorem mem_addNames (xs : List Str) : ∀ names x, x ∈ addNames names xs ↔ x ∈ names ∨ x ∈ xs := by
  induction xs with
  | nil => simp [addNames]
  | cons a xs ih =>
    intro names x
    have : addNames names (a :: xs) = addNames (if a ∈ names then names else names ++ [a]) xs := rfl
    rw [this, ih]
    split <;> simp <;> grind

theorem addNames_nodup (xs : List Str) : ∀ names, names.Nodup → (addNames names xs).Nodup := by
  induction xs with
  | nil => simp [addNames]
  | cons a xs ih =>
    intro names h
    have : addNames names (a :: xs) = addNames (if a ∈ names then names else names ++ [a]) xs := rfl
    rw [this]
    apply ih
    split
    · exact h
    · next hn =>
      rw [List.nodup_append]
      refine ⟨h, by simp, ?_⟩
      rintro x hx y hy rfl
      simp at hy
      subst hy
      exact hn hx

theorem mem_declNames {r : Rule} {x : Str} : x ∈ declNames r ↔ x ∈ ruleVars r := by simp [declNames, mem_addNames]
theorem addNames_firsts : ∀ (xs names : List Str), addNames names xs = names ++ (firsts xs).filter (· ∉ names) := by
  intro xs
  induction xs with
  | nil => intro names; simp [addNames, firsts]
  | cons a xs ih =>
    intro names
    have e : addNames names (a :: xs) = addNames (if a ∈ names then names else names ++ [a]) xs := rfl
    rw [e, firsts]
    by_cases ha : a ∈ names
    · rw [if_pos ha, ih, List.filter_cons_of_neg (by simpa using ha), List.filter_filter]
      congr 1
      apply List.filter_congr
      intro x _
      by_cases hx : x ∈ names
      · simp [hx]
      · have : x ≠ a := fun e => hx (e ▸ ha)
        simp [hx, this]
    · rw [if_neg ha, ih, List.filter_cons_of_pos (by simpa using ha), List.filter_filter, List.append_assoc, List.singleton_append]
      congr 2
      apply List.filter_congr
      intro x _
      by_cases hx : x ∈ names <;> simp [hx]

theorem declNames_firsts (r : Rule) : declNames r = firsts (ruleVars r) := by
  have := addNames_firsts (ruleVars r) []
  rw [declNames, this]; simp

theorem declNames_nodup (r : Rule) : (declNames r).Nodup := addNames_nodup _ _ List.nodup_nil

theorem header_good : goodAtomss header := by
  simp only [header, setInfo, setLogic, goodAtomss, goodAtoms]
  decide

theorem body_good {s : Srt} {t : GoType} {r : Rule} (h : RuleFragment s r) (hv : ∀ x ∈ ruleVars r, goodName x) : goodAtomss (body t r) := by
  obtain ⟨_, _, _, hm, hr⟩ := h
  have i1 := termOf_good hm (fun x hx => hv x (by simp [ruleVars, hx]))
  have i2 := termOf_good hr (fun x hx => hv x (by simp [ruleVars, hx]))
  rw [body, goodAtomss_append]
  constructor
  · have : ∀ x ∈ declNames r, goodName x := fun x hx => hv x (mem_declNames.1 hx)
    revert this
    generalize declNames r = l
    intro hl
    induction l with
    | nil => trivial
    | cons a l ih =>
      refine ⟨?_, ih (fun x hx => hl x (by simp [hx]))⟩
      refine ⟨?_, hl a (by simp), ?_, trivial⟩
      · unfold goodAtoms; decide
      · cases t <;> simp only [sortExp, goodAtoms, goodAtomss] <;> decide
  · have h1 : goodAtoms checkSat := by simp only [checkSat, goodAtoms, goodAtomss]; decide
    have h2 : goodAtoms exitCmd := by simp only [exitCmd, goodAtoms, goodAtomss]; decide
    refine ⟨?_, h1, h2, trivial⟩
    refine ⟨?_, ⟨?_, ⟨?_, i1, i2, trivial⟩, trivial⟩, trivial⟩ <;> (unfold goodAtoms; decide)

theorem lex_script {t : GoType} {r : Rule} (hc : '\r' ∉ showRule r) (rest : Str) :
    lex .between (scriptText t r ++ rest) = lex .between (textLines (header ++ body t r) ++ rest) := by
  rw [scriptText_eq, textLines_append, List.append_assoc, List.append_assoc, List.append_assoc, lex_lines _ header_good, lex_lines _ header_good]
  unfold commentText
  rw [lex_comment _ _ hc]

theorem readAll_script {s : Srt} {t : GoType} {r : Rule} (h : RuleFragment s r) (hc : '\r' ∉ showRule r) (hv : ∀ x ∈ ruleVars r, goodName x) :
    readAll (scriptText t r) = some (header ++ body t r) := by
  have e := lex_script (t := t) hc []
  rw [List.append_nil, List.append_nil] at e
  have h2 := readAll_lines (header ++ body t r) ((goodAtomss_append _ _).2 ⟨header_good, body_good h hv⟩)
  unfold readAll at h2 ⊢
  rw [e, h2]

theorem showRule_nocr {s : Srt} {r : Rule} (h : RuleFragment s r) (hv : ∀ x ∈ ruleVars r, '\r' ∉ x) : '\r' ∉ showRule r := by
  obtain ⟨hc, hb, _, hm, hr⟩ := h
  have hrow : ∀ r ∈ rows, ∀ c ∈ r.o.toList, c ≠ '\r' := fun r hr c hc => (rows_chars r hr c hc).1
  have i1 := showValue_chars (fun c => c ≠ '\r') (by decide) hrow hm (fun x hx c hc e => hv x (by simp [ruleVars, hx]) (e ▸ hc))
  have i2 := showValue_chars (fun c => c ≠ '\r') (by decide) hrow hr (fun x hx c hc e => hv x (by simp [ruleVars, hx]) (e ▸ hc))
  intro hcc
  simp only [showRule, hc, hb, showCond, showBlock, if_true, List.append_nil, List.nil_append, List.mem_append, List.mem_cons, List.append_assoc,
    List.cons_append] at hcc
  rcases hcc with h | h | h | h | h | h
  · exact i1 _ h rfl
  · revert h; decide
  · revert h; decide
  · revert h; decide
  · revert h; decide
  · exact i2 _ h rfl

/-- A text as comment lines. -/
theorem comment_lines (s : Str) : ∃ lines : List Str, (∀ l ∈ lines, '\n' ∉ l) ∧ s = ['\n'].intercalate lines ∧
    "; ".toList ++ replaceNewlines s ++ "\n".toList = lines.flatMap fun l => "; ".toList ++ l ++ "\n".toList := by
  have h1 : "; ".toList = [';', ' '] := rfl
  have h2 : "\n".toList = ['\n'] := rfl
  have h3 : "\n; ".toList = ['\n', ';', ' '] := rfl
  suffices h : ∃ (l : Str) (lines : List Str), (∀ x ∈ l :: lines, '\n' ∉ x) ∧ s = ['\n'].intercalate (l :: lines) ∧
      "; ".toList ++ replaceNewlines s ++ "\n".toList = (l :: lines).flatMap fun l => "; ".toList ++ l ++ "\n".toList by
    obtain ⟨l, lines, h⟩ := h; exact ⟨_, h⟩
  induction s with
  | nil => exact ⟨[], [], by simp, by simp [List.intercalate], by simp [replaceNewlines]⟩
  | cons c s ih =>
    obtain ⟨l, lines, ih1, ih2, ih3⟩ := ih
    have hr : replaceNewlines (c :: s) = (if c = '\n' then ['\n', ';', ' '] else [c]) ++ replaceNewlines s := by
      simp only [replaceNewlines, List.flatMap_cons]; rw [h3]
    by_cases hc : c = '\n'
    · subst hc
      refine ⟨[], l :: lines, ?_, ?_, ?_⟩
      · intro x hx
        rcases List.mem_cons.1 hx with rfl | hx
        · simp
        · exact ih1 x hx
      · rw [ih2]; simp [List.intercalate, List.intersperse]
      · rw [hr, if_pos rfl, List.flatMap_cons, ← ih3, h1, h2]; simp
    · refine ⟨c :: l, lines, ?_, ?_, ?_⟩
      · intro x hx
        rcases List.mem_cons.1 hx with rfl | hx
        · have := ih1 l (by simp)
          simp only [List.mem_cons, not_or]
          exact ⟨fun e => hc e.symm, this⟩
        · exact ih1 x (by simp [hx])
      · rw [ih2]; cases lines <;> simp [List.intercalate, List.intersperse]
      · rw [hr, if_neg hc, List.flatMap_cons]
        rw [List.flatMap_cons, h1, h2] at ih3
        rw [h1, h2]
        simp only [List.cons_append, List.nil_append, List.cons.injEq, true_and] at ih3 ⊢
        exact ih3

end Verif

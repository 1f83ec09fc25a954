import Verif.Proof.ParseRule
/-!
# Files
-/
namespace Verif.Proof
open Verif Verif.Spec

section
variable {lib : GoLib}

theorem word_noSkip {c : Char} {cs : Str} (h : isWordChar c = true) : NoSkip (c :: cs) := by
  apply noSkip_cons
  · cases hb : isBlank c with
    | false => rfl
    | true => rw [blank_not_word hb] at h; simp at h
  · rintro rfl; revert h; decide

/-- A `(` after an identifier whose content is not an expression followed by `,` or `)` does not make a call. -/
theorem call_paren_none {x s0 A : Str} (hx : Ident x) (h0 : Skip s0) (hA : NoSkip A)
    (h : exec (ruleGrammar lib) (.ruleRef .Expr) A Frame.empty = .fail ∨
      ∃ v s r, exec (ruleGrammar lib) (.ruleRef .Expr) A Frame.empty = .ok v (s ++ r) Frame.empty ∧ Skip s ∧ NoSkip r ∧
        r.head? ≠ some ',' ∧ r.head? ≠ some ')') (fr) :
    exec (ruleGrammar lib) (.ruleRef .Call) (x ++ '(' :: (s0 ++ A)) fr = .fail := by
  apply ruleRef_fail
  show exec _ gCall _ _ = _
  rw [gCall]; apply action_fail; rw [exec_seq]
  obtain ⟨c, t, rfl, hc, ht⟩ := hx
  have htw := takeWhile_stop (rest := '(' :: (s0 ++ A)) ht (by intro d hd; simp at hd; subst hd; decide)
  rw [execSeq_cons, exec_lower]
  simp only [List.cons_append, hc, if_true]
  rw [seq_step (oneChar_zero word_one _ _), htw.2]
  rw [seq_step (show exec (ruleGrammar lib) (.lit ['(']) ('(' :: (s0 ++ A)) Frame.empty = .ok (.bytes ['(']) (s0 ++ A) Frame.empty from exec_lit_ok ['('] _ _)]
  obtain ⟨v0, e0⟩ := exec_skip (G := ruleGrammar lib) h0 hA
  rw [seq_step (e0 _)]
  rcases h with h | ⟨v, s, r, h, hs, hr, hc1, hc2⟩
  · exact seq_fail h
  · rw [seq_step h]
    have hi : Items (ruleGrammar lib) gArg (s ++ r) [] (s ++ r) := .nil (gArg_none hs hr hc1)
    have e1 : exec (ruleGrammar lib) (.zeroOrMore (.seq [g_, .lit [','], g_, .ruleRef .Expr, g_])) (s ++ r) Frame.empty =
        .ok (.list ([] ++ [])) (s ++ r) Frame.empty := by
      rw [exec_zeroOrMore]; exact loop_of_items hi (by simp)
    rw [seq_step e1]
    obtain ⟨v2, e2⟩ := exec_skip (G := ruleGrammar lib) hs hr
    rw [seq_step (e2 _)]
    exact seq_fail (exec_lit_head hc2)

/-- What `Expr` does at a word. -/
theorem word_expr {w R : Str} (hw : Word w) (hR : Stops isWordChar R)
    (hc : Ident w → exec (ruleGrammar lib) (.ruleRef .Call) (w ++ R) Frame.empty = .fail) :
    exec (ruleGrammar lib) (.ruleRef .Expr) (w ++ R) Frame.empty = .fail ∨
    ((Ident w ∨ w = ['_']) ∧ ∃ v, exec (ruleGrammar lib) (.ruleRef .Expr) (w ++ R) Frame.empty = .ok v R Frame.empty) ∨
    ∃ v c r, exec (ruleGrammar lib) (.ruleRef .Expr) (w ++ R) Frame.empty = .ok v (c :: r) Frame.empty ∧ isWordChar c = true := by
  obtain ⟨hne, hw⟩ := hw
  match w, hne with
  | c :: t, _ =>
    cases hl : isLower c with
    | true =>
      have hi : Ident (c :: t) := ⟨c, t, rfl, hl, fun d hd => hw d (by simp [hd])⟩
      exact .inr (.inl ⟨.inl hi, _, expr_var hi hR (hc hi) _⟩)
    | false =>
      by_cases hu : c = '_'
      · subst hu
        cases t with
        | nil =>
          refine .inr (.inl ⟨.inr rfl, _, expr_placeholder ?_ _⟩)
          intro h; have := hR _ h; revert this; decide
        | cons d t =>
          by_cases hd : d = '_'
          · subst hd
            exact .inl (expr_none (by intro c hc; simp at hc; subst hc; decide) (by intro rest h; simp at h; rw [← h]; rfl) _)
          · refine .inr (.inr ⟨_, d, t ++ R, expr_placeholder (rest := d :: (t ++ R)) (by simpa using hd) _, hw d (by simp)⟩)
      · exact .inl (expr_none (by intro d hd; simp at hd; subst hd; exact hl) (by intro rest h; simp at h; exact absurd h.1 hu) _)

theorem word_in_paren {x s0 w R : Str} (hx : Ident x) (h0 : Skip s0) (hw : Word w) (hR : Stops isWordChar R)
    (hc : Ident w → exec (ruleGrammar lib) (.ruleRef .Call) (w ++ R) Frame.empty = .fail)
    (hr : (Ident w ∨ w = ['_']) → ∃ s r, R = s ++ r ∧ Skip s ∧ NoSkip r ∧ r.head? ≠ some ',' ∧ r.head? ≠ some ')') (fr) :
    exec (ruleGrammar lib) (.ruleRef .Call) (x ++ '(' :: (s0 ++ (w ++ R))) fr = .fail := by
  have hA : NoSkip (w ++ R) := by
    obtain ⟨hne, hw⟩ := hw
    cases w with
    | nil => exact absurd rfl hne
    | cons c w => exact word_noSkip (hw c (by simp))
  apply call_paren_none hx h0 hA
  rcases word_expr hw hR hc with h | ⟨hi, v, h⟩ | ⟨v, c, r, h, hcw⟩
  · exact .inl h
  · obtain ⟨s, r, rfl, hs, hr, h1, h2⟩ := hr hi
    exact .inr ⟨v, s, r, h, hs, hr, h1, h2⟩
  · refine .inr ⟨v, [], c :: r, h, .nil, word_noSkip hcw, ?_, ?_⟩
    · simp; rintro rfl; revert hcw; decide
    · simp; rintro rfl; revert hcw; decide

/-- An opcode in parentheses after an identifier is not a call, unless it is a single identifier closed at once. -/
theorem op_in_paren {x s0 E : Str} {op} (hx : Ident x) (h0 : Skip s0) (ho : OpWF op) (hE : Cont E)
    (hr : ∀ w, showOp op = w → (Ident w ∨ w = ['_']) → ∃ s r, E = s ++ r ∧ Skip s ∧ NoSkip r ∧ r.head? ≠ some ',' ∧ r.head? ≠ some ')') (fr) :
    exec (ruleGrammar lib) (.ruleRef .Call) (x ++ '(' :: (s0 ++ (showOp op ++ E))) fr = .fail := by
  cases op with
  | nil => exact absurd ho (by simp [OpWF])
  | opcode w =>
    exact word_in_paren hx h0 ho (fun c hc => (hE c hc).1)
      (fun hi => call_none hi (fun c hc => (hE c hc).1) (fun hc => (hE _ hc).2.1 rfl) _) (hr w rfl) fr
  | parts ps =>
    obtain ⟨hne, hps, had, hone⟩ := ho
    match ps, hne, hps, had, hone with
    | .nil :: ps, _, hps, _, _ => exact absurd (hps .nil (by simp)) (by simp [PartWF])
    | .alt cs :: ps, _, hps, _, _ =>
      have hh : (showOp (.parts (.alt cs :: ps)) ++ E).head? = some '(' := by
        have := alt_head (rest := ps.flatMap showPart ++ E) (hps (.alt cs) (by simp))
        simpa [showOp, showPart] using this
      generalize showOp (.parts (.alt cs :: ps)) ++ E = A at hh
      cases A with
      | nil => simp at hh
      | cons c A =>
        simp at hh; subst hh
        apply call_paren_none hx h0 (noSkip_cons (by decide) (by decide))
        exact .inl (expr_none (by intro c hc; simp at hc; subst hc; decide) (by intro r h; simp at h) _)
    | [.opcode w], _, _, _, hone => exact absurd rfl (hone w)
    | .opcode w :: .nil :: ps, _, hps, _, _ => exact absurd (hps .nil (by simp)) (by simp [PartWF])
    | .opcode w :: .opcode w' :: ps, _, _, had, _ => exact absurd ⟨rfl, rfl⟩ had.1
    | .opcode w :: .alt cs :: ps, _, hps, _, _ =>
      have hw : Word w := hps (.opcode w) (by simp)
      obtain ⟨hlen, hcs⟩ := hps (.alt cs) (by simp)
      match cs, hlen, hcs with
      | c1 :: c2 :: cs, _, hcs =>
        obtain ⟨R, hR⟩ : ∃ R, showOp (.parts (.opcode w :: .alt (c1 :: c2 :: cs) :: ps)) ++ E = w ++ ('(' :: ([] ++ (c1 ++ ('|' :: R)))) := by
          refine ⟨?_, ?_⟩
          rotate_left
          · simp [showOp, showPart, showAlt]
            rfl
        rw [hR]
        have hst : Stops isWordChar ('|' :: R) := by intro d hd; simp at hd; subst hd; decide
        have hin : Ident w → exec (ruleGrammar lib) (.ruleRef .Call) (w ++ ('(' :: ([] ++ (c1 ++ ('|' :: R))))) Frame.empty = .fail := by
          intro hi
          apply word_in_paren hi .nil (hcs c1 (by simp)) hst
          · intro hi1; exact call_none hi1 hst (by simp) _
          · intro _; exact ⟨[], '|' :: R, rfl, .nil, noSkip_cons (by decide) (by decide), by simp, by simp⟩
        apply word_in_paren hx h0 hw _ hin
        · intro _; exact ⟨[], '(' :: ([] ++ (c1 ++ ('|' :: R))), rfl, .nil, noSkip_cons (by decide) (by decide), by simp, by simp⟩
        · intro d hd; simp at hd; subst hd; decide

/-- What comes after the opcode of an S-expression: skipped text and a character, whatever comes after the S-expression. -/
theorem after_op {go ot ops et ell tt tr s1} (hot : OperandsText go ot ops)
    (he : MarkText ['.', '.', '.'] et ell) (ht : MarkText ['_', '_', '_'] tt tr) (h1 : Skip s1) :
    ∃ s c r, (∀ tail, ot ++ (et ++ tt ++ s1 ++ ')' :: tail) = s ++ c :: (r ++ tail)) ∧ Skip s ∧ isBlank c = false ∧ c ≠ '/' ∧ c ≠ ',' := by
  cases hot with
  | nil =>
    cases he with
    | some hs => exact ⟨_, '.', '.' :: '.' :: (tt ++ s1 ++ [')']), fun tail => by simp, hs.1, by decide, by decide, by decide⟩
    | none =>
      cases ht with
      | some hs => exact ⟨_, '_', '_' :: '_' :: (s1 ++ [')']), fun tail => by simp, hs.1, by decide, by decide, by decide⟩
      | none => exact ⟨_, ')', [], fun tail => by simp, h1, by decide, by decide, by decide⟩
  | @cons s t o rest os hs ho hrest =>
    have : ∃ c u, t = c :: u ∧ isBlank c = false ∧ c ≠ '/' ∧ c ≠ ',' := by
      cases ho with
      | type => exact ⟨_, _, rfl, by decide, by decide, by decide⟩
      | auxInt => exact ⟨_, _, rfl, by decide, by decide, by decide⟩
      | aux => exact ⟨_, _, rfl, by decide, by decide, by decide⟩
      | arg hv =>
        obtain ⟨c, u, rfl, hc⟩ := valueText_head hv
        refine ⟨c, u, rfl, ?_⟩
        rcases hc with hc | rfl | rfl
        · have := lower_facts hc; exact ⟨this.2.2.2.1, this.2.2.1, this.2.2.2.2.2.2.2.2.2.2.1⟩
        · decide
        · decide
    obtain ⟨c, u, rfl, hc⟩ := this
    exact ⟨s, c, u ++ (rest ++ (et ++ tt ++ s1 ++ [')'])), fun tail => by simp, hs.1, hc⟩

theorem exprText_head {go t v} (h : ExprText go t v) : ∃ c u, t = c :: u ∧ (isLower c = true ∨ c = '_') := by
  cases h with
  | var h => obtain ⟨c, t, rfl, hl, -⟩ := h; exact ⟨c, t, rfl, .inl hl⟩
  | placeholder => exact ⟨_, _, rfl, .inr rfl⟩
  | call h => obtain ⟨c, t, rfl, hl, -⟩ := h; exact ⟨c, _, by simp; rfl, .inl hl⟩

/-- An identifier in front of a file text that may follow it, with any text after the file, is not a call. -/
theorem okay_of_follow {s1 rest u : Str} {x : Str} {rs} (hx : Ident x) (h1 : Skip s1) (hf : FileText (goText lib) rest rs)
    (hu : rest = [] → Cont u)
    (hw : ∀ c, (s1 ++ rest).head? = some c → isWordChar c = false) (hcl : ¬ CallLike (s1 ++ rest)) :
    Stops isWordChar (s1 ++ rest ++ u) ∧ (s1 ++ rest ++ u).head? ≠ some ':' ∧
      exec (ruleGrammar lib) (.ruleRef .Call) (x ++ (s1 ++ rest ++ u)) Frame.empty = .fail := by
  have key : ∀ {s r : Str}, Skip s → s ++ r = s1 ++ rest ++ u → (s ≠ [] ∨ Cont r) →
      Stops isWordChar (s1 ++ rest ++ u) ∧ (s1 ++ rest ++ u).head? ≠ some ':' ∧
      exec (ruleGrammar lib) (.ruleRef .Call) (x ++ (s1 ++ rest ++ u)) Frame.empty = .fail := by
    intro s r hs he hc
    rw [← he]
    have : Cont (s ++ r) := by
      rcases skip_cases hs with rfl | ⟨d, t, rfl, hd⟩
      · rcases hc with hc | hc
        · exact absurd rfl hc
        · exact hc
      · refine cont_cons ?_
        rcases hd with hd | rfl
        · exact ⟨blank_not_word hd, (blank_facts hd).1, (blank_facts hd).2.1⟩
        · decide
    exact ⟨fun c hc => (this c hc).1, fun h => (this _ h).2.2 rfl, call_none hx (fun c hc => (this c hc).1) (fun h => (this _ h).2.1 rfl) _⟩
  by_cases hs1 : s1 = []
  · subst hs1
    cases hf with
    | nil => exact key (s := []) (r := u) .nil rfl (.inr (hu rfl))
    | @cons s0 t r s2 rest2 rs h0 hr h2 hfo hfi =>
      by_cases hs0 : s0 = []
      · subst hs0
        cases hr with
        | @mk mt m ct c bt b rt r hm hc hb hr =>
          cases hm with
          | expr hv =>
            exfalso
            obtain ⟨d, v, rfl, hd⟩ := exprText_head hv
            have := hw d (by simp)
            rcases hd with hd | rfl
            · rw [lower_word hd] at this; simp at this
            · revert this; decide
          | @sexpr bt' b' s0 op ot ops et ell tt tr s1 hb' hk0 ho hot he ht hk1 =>
            cases hb' with
            | some hi =>
              exfalso
              obtain ⟨d, t, rfl, hd, -⟩ := hi
              have := hw d (by simp)
              rw [lower_word hd] at this; simp at this
            | none =>
              generalize htl : ct ++ '=' :: '>' :: bt ++ rt ++ s2 ++ rest2 = tail
              have htxt : ([] ++ ([] ++ ([] ++ '(' :: s0 ++ showOp op ++ ot ++ et ++ tt ++ s1 ++ [')'] ++ ct ++ '=' :: '>' :: bt ++ rt) ++ s2 ++ rest2) : Str) =
                  '(' :: (s0 ++ (showOp op ++ (ot ++ (et ++ tt ++ s1 ++ ')' :: tail)))) := by rw [← htl]; simp
              rw [htxt] at hw hcl ⊢
              have htxt2 : '(' :: (s0 ++ (showOp op ++ (ot ++ (et ++ tt ++ s1 ++ ')' :: tail)))) ++ u =
                  '(' :: (s0 ++ (showOp op ++ (ot ++ (et ++ tt ++ s1 ++ ')' :: (tail ++ u))))) := by simp
              rw [htxt2]
              refine ⟨by intro c hc; simp at hc; subst hc; decide, by simp, ?_⟩
              apply op_in_paren hx hk0 ho (operands_cont hot (closing_cont he ht hk1 (tail ++ u)))
              intro w hsw hwi
              obtain ⟨s, c, r, hsr, hs, hcb, hcs, hcc⟩ := after_op hot he ht hk1
              refine ⟨s, c :: (r ++ (tail ++ u)), hsr _, hs, noSkip_cons hcb hcs, by simpa using hcc, ?_⟩
              intro hcp
              apply hcl
              simp at hcp; subst hcp
              exact ⟨s0, w, s, r ++ tail, by rw [hsr, hsw]; simp, hk0, hwi, hs⟩
      · exact key (s := s0) (r := t ++ s2 ++ rest2 ++ u) h0 (by simp) (.inl hs0)
  · exact key (r := rest ++ u) h1 (by simp) (.inl hs1)

theorem valueText_var {go t v} (h : ValueText go t v) : ∀ x, v = .var x → Ident x ∨ x = ['_'] := by
  intro x hx
  cases h with
  | expr h =>
    cases h with
    | var h => simp at hx; subst hx; exact .inl h
    | placeholder => simp at hx; exact .inr hx.symm
    | call => simp at hx
  | sexpr => simp at hx

theorem okay_result {s1 rest rs rt r} (hr : ValueText (goText lib) rt r) (h1 : Skip s1) (hf : FileText (goText lib) rest rs)
    (hfo : Follow r (s1 ++ rest)) : Okay lib r (s1 ++ rest) := by
  cases r with
  | var x =>
    rw [Follow] at hfo; rw [Okay]
    by_cases hx : x = ['_']
    · rw [if_pos hx] at hfo ⊢; exact hfo
    · rw [if_neg hx] at hfo ⊢
      rcases valueText_var hr x rfl with h | h
      · have := okay_of_follow (u := []) h h1 hf (fun _ c hc => by simp at hc) hfo.1 hfo.2
        simpa using this
      · exact absurd h hx
  | _ => trivial

/-! ## The file -/

def gFileItem : PExpr := .seq [g_, .ruleRef .Rule, g_]

inductive RuleDyns : List Dyn → List Rule → Prop where
  | nil : RuleDyns [] []
  | cons {a b r ds rs} : RuleDyns ds rs → RuleDyns (.list [a, .rule r, b] :: ds) (r :: rs)

theorem ruleDyns_mapM {ds rs} (h : RuleDyns ds rs) :
    (ds.mapM fun i => do (← i.index 1).asRule : Option (List Rule)) = some rs := by
  induction h with
  | nil => rfl
  | cons _ ih => rw [List.mapM_cons, ih]; rfl

theorem onFile1_eq {ds rs} (h : RuleDyns ds rs) : onFile1 (.list ds) = .ok (.file { rules := rs }) := by
  rw [onFile1]
  show orPanic ((ds.mapM _ : Option (List Rule)).bind _) = _
  rw [ruleDyns_mapM h]; rfl

theorem rule_nil (fr) : exec (ruleGrammar lib) (.ruleRef .Rule) [] fr = .fail := by
  cases h : exec (ruleGrammar lib) (.ruleRef .Rule) [] fr with
  | fail => rfl
  | ok v cs' fr' =>
    obtain ⟨t, r, ht, hr, -⟩ := rule_sound h
    cases hr with
    | mk hm _ _ _ => obtain ⟨c, u, rfl, -⟩ := valueText_head hm; simp at ht
  | abort =>
    exfalso
    have h1 : exec (ruleGrammar lib) (.ruleRef .Value) [] Frame.empty = .fail :=
      value_none (sexpr_none (by simp) (by intro x rest h hx; simp at h; obtain ⟨c, t, hc, -⟩ := hx; rw [h.1] at hc; simp at hc) _)
        (expr_none (by intro c hc; simp at hc) (by intro r hr; simp at hr) _) _
    have : exec (ruleGrammar lib) (.ruleRef .Rule) [] fr = .fail := by
      apply ruleRef_fail
      show exec _ gRule _ _ = _
      rw [gRule]; apply action_fail; rw [exec_seq]; exact seq_fail (labeled_fail h1)
    rw [this] at h; simp at h

theorem fileItem_nil : exec (ruleGrammar lib) gFileItem [] Frame.empty = .fail := by
  obtain ⟨v, e⟩ := exec_skip (G := ruleGrammar lib) (rest := []) .nil noSkip_nil
  have e : ∀ fr, exec (ruleGrammar lib) g_ [] fr = .ok (.list v) [] fr := e
  rw [gFileItem, exec_seq, seq_step (e _)]
  exact seq_fail (rule_nil _)

theorem ruleText_noSkip {go t r rest} (h : RuleText go t r) : NoSkip (t ++ rest) := by
  cases h with
  | mk hm _ _ _ => simp only [List.append_assoc]; exact valueText_noSkip hm

theorem file_items (hl : RejectsComment lib) {cs rs} (h : FileText (goText lib) cs rs) :
    ∃ s rest, cs = s ++ rest ∧ Skip s ∧ NoSkip rest ∧ ∀ s', Skip s' → (rs ≠ [] ∨ s' = []) →
      ∃ ds, RuleDyns ds rs ∧ Items (ruleGrammar lib) gFileItem (s' ++ rest) ds [] := by
  induction h with
  | nil => exact ⟨[], [], rfl, .nil, noSkip_nil, fun s' _ h => by
      rcases h with h | rfl
      · exact absurd rfl h
      · exact ⟨[], .nil, .nil fileItem_nil⟩⟩
  | @cons s0 t r s1 rest rs h0 hr h1 hfo hfi ih =>
    obtain ⟨s, rest', rfl, hs, hns, hit⟩ := ih
    refine ⟨s0, t ++ (s1 ++ (s ++ rest')), by simp, h0, ruleText_noSkip hr, fun s' hs' _ => ?_⟩
    obtain ⟨ds, hds, hi⟩ := hit [] .nil (.inr rfl)
    obtain ⟨v1, e1⟩ := exec_skip (G := ruleGrammar lib) hs' (ruleText_noSkip (rest := s1 ++ (s ++ rest')) hr)
    have hok : Okay lib r.result (s1 ++ (s ++ rest')) := by
      cases hr with
      | mk _ _ _ hrt => exact okay_result hrt h1 hfi hfo
    have e2 := rule_fwd hl hr hok
    obtain ⟨v3, e3⟩ := exec_skip (G := ruleGrammar lib) (skip_append h1 hs) hns
    have e3 : ∀ fr, exec (ruleGrammar lib) g_ (s1 ++ (s ++ rest')) fr = .ok (.list v3) rest' fr := by
      intro fr; rw [← List.append_assoc]; exact e3 fr
    refine ⟨.list [.list v1, .rule r, .list v3] :: ds, .cons hds, .cons (cs1 := rest') (fr := Frame.empty) ?_ hi⟩
    rw [gFileItem, exec_seq, seq_step (e1 _), seq_step (e2 _), seq_step (e3 _), execSeq_nil]
    rfl

theorem file_items_inv {cs ds cs'} (h : Items (ruleGrammar lib) gFileItem cs ds cs') (he : cs' = []) :
    ∃ rs, RuleDyns ds rs ∧ FileText (goText lib) cs rs := by
  induction h with
  | nil _ => subst he; exact ⟨[], .nil, .nil⟩
  | cons h1 _ ih =>
    obtain ⟨rs, hds, hf⟩ := ih he
    rw [gFileItem, exec_seq] at h1
    obtain ⟨v1, cs1, fr1, g1, h2⟩ := seq_inv h1
    obtain ⟨s0, rfl, k0, -, rfl⟩ := skip_inv g1
    obtain ⟨v2, cs2, fr2, g2, h3⟩ := seq_inv h2
    obtain ⟨t, r, rfl, hr, rfl, hfo, rfl⟩ := rule_sound g2
    obtain ⟨v3, cs3, fr3, g3, h4⟩ := seq_inv h3
    obtain ⟨s1, rfl, k1, -, rfl⟩ := skip_inv g3
    obtain ⟨rfl, rfl, rfl⟩ := seq_nil_inv h4
    exact ⟨r :: rs, .cons hds, by simpa using FileText.cons k0 hr k1 hfo hf⟩

theorem file_fwd (hl : RejectsComment lib) {cs rs} (h : FileText (goText lib) cs rs) (fr) :
    exec (ruleGrammar lib) (.ruleRef .File) cs fr = .ok (.file { rules := rs }) [] fr := by
  have hit : ∃ ds, RuleDyns ds rs ∧ Items (ruleGrammar lib) gFileItem cs ds [] := by
    obtain ⟨s, rest, rfl, hs, hns, hit⟩ := file_items hl h
    by_cases hrs : rs = []
    · subst hrs
      generalize hcs : s ++ rest = cs at h
      cases h
      exact ⟨[], .nil, .nil fileItem_nil⟩
    · exact hit s hs (.inl hrs)
  obtain ⟨ds, hds, hi⟩ := hit
  have e1 : exec (ruleGrammar lib) (.zeroOrMore (.seq [g_, .ruleRef .Rule, g_])) cs Frame.empty = .ok (.list ([] ++ ds)) [] Frame.empty := by
    rw [exec_zeroOrMore]; exact loop_of_items hi (by simp)
  have e2 : ∀ fr, exec (ruleGrammar lib) (.not .any) [] fr = .ok .nil [] fr := by
    intro fr; rw [exec_not, exec_any, anyC]
  have e3 : ∃ v, exec (ruleGrammar lib) (.seq [.labeled .rs (.zeroOrMore (.seq [g_, .ruleRef .Rule, g_])), .not .any]) cs Frame.empty =
      .ok v [] (Frame.empty.set .rs (.list ds)) := by
    rw [exec_seq, seq_step (labeled_ok e1), seq_step (e2 _), execSeq_nil]; exact ⟨_, rfl⟩
  obtain ⟨v, e3⟩ := e3
  have hact := action_eq (a := .onFile1) e3
  have hr : (ruleGrammar lib).act .onFile1 (Frame.empty.set .rs (.list ds)) (sliceC cs []) = _ := onFile1_eq hds
  rw [actC, hr] at hact
  exact ruleRef_ok (r := .File) hact fr

theorem file_sound {cs v cs' fr fr'} (h : exec (ruleGrammar lib) (.ruleRef .File) cs fr = .ok v cs' fr') :
    cs' = [] ∧ ∃ rs, v = .file { rules := rs } ∧ FileText (goText lib) cs rs := by
  obtain ⟨rfl, fr1, h⟩ := ruleRef_inv h
  have h : exec (ruleGrammar lib) gFile cs Frame.empty = .ok v cs' fr1 := h
  rw [gFile] at h
  obtain ⟨v0, h0, hact⟩ := action_inv h
  clear h
  rw [exec_seq] at h0
  obtain ⟨v1, cs1, fr1, g1, h1⟩ := seq_inv h0
  obtain ⟨⟨_, p1⟩, rfl⟩ := labeled_inv g1
  rw [exec_zeroOrMore] at p1
  obtain ⟨ds, hi, rfl, -, -⟩ := items_of_loop p1
  obtain ⟨v2, cs2, fr2, g2, h2⟩ := seq_inv h1
  obtain ⟨rfl, rfl, rfl⟩ := seq_nil_inv h2
  rw [exec_not, exec_any] at g2
  cases cs1 with
  | cons c cs1 => simp [anyC] at g2
  | nil =>
    simp only [anyC, COut.ok.injEq] at g2
    obtain ⟨-, rfl, rfl⟩ := g2
    obtain ⟨rs, hds, hf⟩ := file_items_inv hi rfl
    have hact : onFile1 (.list ds) = .ok v := hact
    rw [onFile1_eq hds] at hact
    simp only [ActOut.ok.injEq] at hact
    exact ⟨rfl, rs, hact.symm, hf⟩

end
end Verif.Proof

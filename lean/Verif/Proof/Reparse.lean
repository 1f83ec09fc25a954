import Verif.Proof.CallShape
/-!
# Parsed rules are stable, unless printing fuses tokens
-/
namespace Verif.Proof
open Verif Verif.Spec

section
variable {u : GoVersion}

/-! ## Characters of the printed form -/

theorem mem_gText {d : Char} : ∀ {ps : List Piece}, d ∈ gText ps → d = ' ' ∨ ∃ k, .tok k ∈ ps ∧ d ∈ tokText k
  | [], h => by simp at h
  | .blank :: ps, h => by
    simp only [gText_blank, List.mem_cons] at h
    rcases h with h | h
    · exact .inl h
    · rcases mem_gText h with h | ⟨k, hk, h⟩
      · exact .inl h
      · exact .inr ⟨k, by simp [hk], h⟩
  | .tok k :: ps, h => by
    simp only [gText_tok, List.mem_append] at h
    rcases h with h | h
    · exact .inr ⟨k, by simp, h⟩
    · rcases mem_gText h with h | ⟨k, hk, h⟩
      · exact .inl h
      · exact .inr ⟨k, by simp [hk], h⟩

theorem show_chars {t e} (hg : goSyntax u t = some e) {d : Char} (hd : d ∈ [']', '}', '\n']) (ht : d ∉ t) : d ∉ showGo e := by
  obtain ⟨hw, hin⟩ := goSyntax_sound hg
  have hp := printed u e hw
  rw [show_eq]
  intro hm
  rcases mem_gText hm with rfl | ⟨k, hk, hdk⟩
  · simp at hd
  · by_cases hwk : isWord k = true
    · obtain ⟨-, pre, w, post, e1, e2⟩ := hin k hk hwk
      apply ht
      have : d ∈ w := by
        rcases e2 with e2 | e2
        · rwa [e2] at hdk
        · rw [e2] at hdk; exact (List.mem_filter.1 hdk).1
      rw [e1]; simp [this]
    · have hok := hp.ok k hk
      clear hm hin hp ht
      simp only [List.mem_cons, List.not_mem_nil, or_false] at hd
      cases k with
      | ident => simp [isWord] at hwk
      | lit => simp [isWord] at hwk
      | op o =>
        cases o with
        | other s =>
          have : d ∈ s := hdk
          rw [hok.1] at this
          simp at this; subst this
          revert hd; decide
        | _ =>
          simp only [tokText, Tok.str, List.mem_cons, List.not_mem_nil, or_false] at hdk
          rcases hd with rfl | rfl | rfl <;> revert hdk <;> decide
      | semi => exact hok.elim
      | other => exact hok.elim
      | _ =>
        simp only [tokText, List.mem_cons, List.not_mem_nil, or_false] at hdk
        rcases hd with rfl | rfl | rfl <;> revert hdk <;> decide

/-! ## No arrow -/

theorem noArrow_append {a b : Str} (ha : NoArrow a) (hb : NoArrow b) (h : ∀ x y, a.getLast? = some x → b.head? = some y → ¬ (x = '=' ∧ y = '>')) :
    NoArrow (a ++ b) := by
  induction a with
  | nil => exact hb
  | cons c a ih =>
    have ha' : NoArrow a := noArrow_tail (s := c :: a) ha
    have hi : NoArrow (a ++ b) := ih ha' (by
      intro x y hx hy
      refine h x y ?_ hy
      rw [List.getLast?_cons, hx]; rfl)
    rintro ⟨p, q, e⟩
    cases p with
    | nil =>
      simp only [List.cons_append, List.nil_append, List.cons.injEq] at e
      obtain ⟨rfl, e⟩ := e
      cases a with
      | nil =>
        simp only [List.nil_append] at e
        exact h '=' '>' rfl (by rw [e]; rfl) ⟨rfl, rfl⟩
      | cons d a =>
        simp only [List.cons_append, List.cons.injEq] at e
        obtain ⟨rfl, -⟩ := e
        exact ha ⟨[], a, rfl⟩
    | cons d p =>
      simp only [List.cons_append, List.cons.injEq] at e
      exact hi ⟨p, q, e.2⟩

theorem noArrow_gText : ∀ {ps : List Piece}, (∀ p ∈ ps, NoArrow (pieceText p)) →
    Chain (fun a b => ∀ x y, (pieceText a).getLast? = some x → (pieceText b).head? = some y → ¬ (x = '=' ∧ y = '>')) ps → (∀ p ∈ ps, pieceText p ≠ []) →
    NoArrow (gText ps)
  | [], _, _, _ => by rintro ⟨a, b, e⟩; simp at e
  | [p], h, _, _ => by
    have := h p (by simp)
    simpa [gText] using this
  | p :: q :: ps, h, hc, hne => by
    have ih := noArrow_gText (ps := q :: ps) (fun p hp => h p (by simp at hp ⊢; exact .inr hp)) hc.2 (fun p hp => hne p (by simp at hp ⊢; exact .inr hp))
    have e : gText (p :: q :: ps) = pieceText p ++ gText (q :: ps) := rfl
    rw [e]
    refine noArrow_append (h p (by simp)) ih fun x y hx hy => hc.1 x y hx ?_
    have e2 : gText (q :: ps) = pieceText q ++ gText ps := rfl
    rw [e2] at hy
    cases hq : pieceText q with
    | nil => exact absurd hq (hne q (by simp))
    | cons c s => rw [hq] at hy; exact hy

theorem noArrow_of_no_eq {s : Str} (h : '=' ∉ s) : NoArrow s := by
  rintro ⟨a, b, rfl⟩; simp at h

theorem show_noArrow {e} (hw : GoWF u e) (hl : LitsNoArrow e) : NoArrow (showGo e) := by
  have hp := printed u e hw
  rw [show_eq]
  refine noArrow_gText ?_ ?_ ?_
  · intro p hpm
    cases p with
    | blank => exact noArrow_of_no_eq (by decide)
    | tok k =>
      have hok := hp.ok k hpm
      show NoArrow (tokText k)
      cases k with
      | ident s =>
        -- a name has no `=`
        refine noArrow_of_no_eq fun hm => ?_
        have h1 : lexTok u s = some (.ident s, []) := hok.1
        cases s with
        | nil => simp [tokText] at hm
        | cons c s =>
          cases lexTok_word h1 rfl with
          | ident w hc hsp hk e =>
            have e' : c :: s = w := by simpa using e
            rw [← e'] at hsp
            have := spanOf_all (p := fun c => isGoLetter u c || isGoDigit u c) (s := c :: s) '=' (by rw [hsp]; exact hm)
            rw [not_letter (by decide) (by decide), not_digit (by decide) (by decide)] at this
            simp at this
          | num _ _ _ _ e => simp at e
          | str _ _ _ _ e => simp at e
          | chr _ _ _ e => simp at e
          | raw _ _ _ e => simp at e
      | lit kd s => exact hl kd s hpm
      | op o =>
        cases o with
        | other s =>
          have : s = ['~'] := hok.1
          subst this
          exact noArrow_of_no_eq (by decide)
        | eql | neq | leq | geq =>
          simp only [tokText, Tok.str]
          rintro ⟨a, b, e⟩
          match a with
          | [] => simp at e
          | [_] => simp at e
          | _ :: _ :: _ => simp at e
        | _ => exact noArrow_of_no_eq (by simp only [tokText, Tok.str]; decide)
      | semi => exact hok.elim
      | other => exact hok.elim
      | _ => exact noArrow_of_no_eq (by simp only [tokText]; decide)
  · refine chain_mono hp.chain fun pre a b post e hlk => ?_
    intro x y hx hy
    rintro ⟨rfl, rfl⟩
    cases a with
    | blank => simp [pieceText] at hx
    | tok a =>
      cases b with
      | blank => simp [pieceText] at hy
      | tok b =>
        have hok := hp.ok a (by rw [e]; simp)
        have hx : (tokText a).getLast? = some '=' := hx
        have word : isWord a = true → False := by
          intro hwa
          obtain ⟨c, hc, hce⟩ := word_last hok hwa
          rw [hx] at hc
          simp only [Option.some.injEq] at hc
          exact wordEnd_ne_eq hce hc.symm
        have hopen : isOpen u a → False := by
          intro ha
          cases a with
          | lparen => simp [tokText] at hx
          | op o =>
            rcases ha with ha | ha
            · rcases mem_unary ha with h | h | h | h | h | h | h <;> subst h <;> simp [tokText, Tok.str] at hx
            · cases o <;> simp [Tok.level] at ha <;> simp [tokText, Tok.str] at hx
          | _ => exact ha.elim
        rcases hlk with ⟨ha, -⟩ | ⟨ha, -⟩ | ⟨rfl, -⟩ | ⟨rfl, -⟩
        · cases a with
          | ident => exact word rfl
          | lit => exact word rfl
          | rparen => simp [tokText] at hx
          | _ => exact ha.elim
        · exact hopen ha
        · simp [tokText] at hx
        · simp [tokText] at hx
  · intro p hpm
    cases p with
    | blank => simp [pieceText]
    | tok k => exact tokText_ne (hp.ok k hpm)

theorem filter_no_cr {w : Str} (h : '\r' ∉ w) : w.filter (· != '\r') = w := by
  rw [List.filter_eq_self]
  intro c hc
  simp only [bne_iff_ne]
  rintro rfl; exact h hc

/-- Without carriage returns in the condition, its literals are as written, so they have no arrow. -/
theorem lits_noArrow {t e} (hg : goSyntax u t = some e) (ht : NoArrow t.tail) (hcr : '\r' ∉ t) : LitsNoArrow e := by
  intro k v hk
  obtain ⟨hw, hin⟩ := goSyntax_sound hg
  have hok := (printed u e hw).ok _ hk
  obtain ⟨-, pre, w, post, e1, e2⟩ := hin _ hk rfl
  have hw' : tokText (.lit k v) = w := by
    rcases e2 with e2 | e2
    · exact e2
    · rw [e2, filter_no_cr]
      intro hm; apply hcr; rw [e1]; simp [hm]
  have hv : v = w := hw'
  subst hv
  obtain ⟨c, s, e3, hc⟩ := gword_head hok rfl
  have e3 : v = c :: s := e3
  subst e3
  rintro ⟨a, b, e4⟩
  cases a with
  | nil =>
    simp only [List.nil_append, List.cons.injEq] at e4
    exact wordChar_ne hc (d := '=') (by decide) (by decide) (by decide) (by decide) e4.1
  | cons d a =>
    simp only [List.cons_append, List.cons.injEq] at e4
    apply ht
    rw [e1, e4.2]
    cases pre with
    | nil => exact ⟨a, b ++ post, by simp⟩
    | cons p pre => exact ⟨pre ++ c :: a, b ++ post, by simp⟩

/-! ## Values -/

variable {go : Str → GoExpr → Prop}

theorem stable_of_text {t e} (hg : goSyntax u t = some e) (hf : NoFuse (pieces e)) : GoStable u e := ⟨(goSyntax_sound hg).1, hf⟩

def OperandStable (u : GoVersion) : Operand → Prop
  | .type t => '>' ∉ t
  | .auxInt e => NoFuse (pieces e) → GoStable u e ∧ ']' ∉ showGo e
  | .aux e => NoFuse (pieces e) → GoStable u e ∧ '}' ∉ showGo e
  | .arg v => (∀ e ∈ exprsOf v, NoFuse (pieces e)) → ValueStable u v

theorem argsOf_stable {ops : List Operand} (h : ∀ o ∈ ops, OperandStable u o) (hf : ∀ e ∈ exprsOfs (argsOf ops), NoFuse (pieces e)) :
    ValuesStable u (argsOf ops) := by
  induction ops with
  | nil => trivial
  | cons o ops ih =>
    have h1 := h o (by simp)
    have h2 := ih (fun o ho => h o (by simp [ho]))
    cases o with
    | arg v =>
      have e : argsOf (.arg v :: ops) = v :: argsOf ops := rfl
      rw [e] at hf ⊢
      simp only [exprsOfs, List.mem_append] at hf
      exact ⟨h1 fun e he => hf e (.inl he), h2 fun e he => hf e (.inr he)⟩
    | _ => exact h2 hf

theorem lastType_stable {ops : List Operand} (h : ∀ o ∈ ops, OperandStable u o) : '>' ∉ lastType ops := by
  unfold lastType
  cases hl : (typesOf ops).getLast? with
  | none => simp
  | some t =>
    have := List.mem_of_getLast? hl
    simp only [typesOf, List.mem_filterMap] at this
    obtain ⟨o, ho, hot⟩ := this
    cases o with
    | type t' => simp at hot; subst hot; exact h _ ho
    | _ => simp at hot

theorem lastAuxInt_stable {ops : List Operand} (h : ∀ o ∈ ops, OperandStable u o) (hf : ∀ e ∈ (lastAuxInt ops).toList, NoFuse (pieces e)) :
    Opt (fun e => GoStable u e ∧ ']' ∉ showGo e) (lastAuxInt ops) := by
  cases hl : lastAuxInt ops with
  | none => trivial
  | some t =>
    have hf' := hf t (by rw [hl]; simp)
    unfold lastAuxInt at hl
    have := List.mem_of_getLast? hl
    simp only [List.mem_filterMap] at this
    obtain ⟨o, ho, hot⟩ := this
    cases o with
    | auxInt t' => simp at hot; subst hot; exact h _ ho hf'
    | _ => simp at hot

theorem lastAux_stable {ops : List Operand} (h : ∀ o ∈ ops, OperandStable u o) (hf : ∀ e ∈ (lastAux ops).toList, NoFuse (pieces e)) :
    Opt (fun e => GoStable u e ∧ '}' ∉ showGo e) (lastAux ops) := by
  cases hl : lastAux ops with
  | none => trivial
  | some t =>
    have hf' := hf t (by rw [hl]; simp)
    unfold lastAux at hl
    have := List.mem_of_getLast? hl
    simp only [List.mem_filterMap] at this
    obtain ⟨o, ho, hot⟩ := this
    cases o with
    | aux t' => simp at hot; subst hot; exact h _ ho hf'
    | _ => simp at hot

theorem exprText_stable (hgo : ∀ t e, go t e → goSyntax u t = some e) {t v} (h : ExprText go t v) (hf : ∀ e ∈ exprsOf v, NoFuse (pieces e)) :
    ValueStable u v := by
  have h' := h
  cases h with
  | var h => exact .inl h
  | placeholder => exact .inr rfl
  | call _ _ _ _ _ hg => exact ⟨callShape_of_text hgo h', stable_of_text (hgo _ _ hg) (hf _ (by simp [exprsOf]))⟩

theorem valueText_stable (hgo : ∀ t e, go t e → goSyntax u t = some e) {t v} (h : ValueText go t v) :
    (∀ e ∈ exprsOf v, NoFuse (pieces e)) → ValueStable u v := by
  refine ValueText.rec (go := go) (motive_1 := fun _ v _ => (∀ e ∈ exprsOf v, NoFuse (pieces e)) → ValueStable u v)
    (motive_2 := fun _ ops _ => ∀ o ∈ ops, OperandStable u o) (motive_3 := fun _ o _ => OperandStable u o) ?_ ?_ ?_ ?_ ?_ ?_ ?_ ?_ h
  · intro t v h; exact exprText_stable hgo h
  · intro bt b s0 op ot ops et ell tt tr s1 hb _ ho _ _ _ _ this hf
    simp only [exprsOf, List.mem_append] at hf
    refine ⟨?_, ho, lastType_stable this, lastAuxInt_stable this fun e he => hf e (.inl (.inl he)),
      lastAux_stable this fun e he => hf e (.inl (.inr he)), argsOf_stable this fun e he => hf e (.inr he)⟩
    cases hb with
    | none => exact .inl rfl
    | some h => exact .inr h
  · simp
  · intro s t o rest os _ _ _ h1 h2 o' h
    rcases List.mem_cons.1 h with rfl | h
    · exact h1
    · exact h2 o' h
  · intro t _ h; exact h
  · intro t e _ hb h hf; exact ⟨stable_of_text (hgo _ _ h) hf, show_chars (hgo _ _ h) (by simp) hb⟩
  · intro t e _ hb h hf; exact ⟨stable_of_text (hgo _ _ h) hf, show_chars (hgo _ _ h) (by simp) hb⟩
  · intro t v _ h; exact h

/-- A text that has no newline, and no arrow after its first character. -/
theorem trimmed_chars {raw t : Str} (h : Trimmed (raw.map fun d => if d = '\n' then ' ' else d) t) (ha : NoArrow raw.tail) :
    '\n' ∉ t ∧ NoArrow t.tail ∧ ('\r' ∉ raw → '\r' ∉ t) := by
  obtain ⟨pre, post, e, -, -, -⟩ := h
  have sub : ∀ c ∈ t, c ∈ raw.map fun d => if d = '\n' then ' ' else d := by intro c hc; rw [e]; simp [hc]
  have hmap : NoArrow (raw.tail.map fun d => if d = '\n' then ' ' else d) := by
    generalize raw.tail = l at ha
    clear sub e
    induction l with
    | nil => rintro ⟨a, b, e⟩; simp at e
    | cons c l ih =>
      have ih := ih (noArrow_tail (s := c :: l) ha)
      rintro ⟨a, b, e⟩
      cases a with
      | nil =>
        simp only [List.map_cons, List.nil_append, List.cons.injEq] at e
        obtain ⟨e1, e2⟩ := e
        have hc : c = '=' := by
          split at e1
          · exact absurd e1 (by decide)
          · exact e1
        cases l with
        | nil => simp at e2
        | cons d l =>
          simp only [List.map_cons, List.cons.injEq] at e2
          have hd : d = '>' := by
            have := e2.1
            split at this
            · exact absurd this (by decide)
            · exact this
          subst hc hd
          exact ha ⟨[], l, rfl⟩
      | cons d a =>
        simp only [List.map_cons, List.cons_append, List.cons.injEq] at e
        exact ih ⟨a, b, e.2⟩
  refine ⟨?_, ?_, ?_⟩
  · intro hn
    have := sub _ hn
    simp only [List.mem_map] at this
    obtain ⟨d, -, hd⟩ := this
    split at hd
    · exact absurd hd (by decide)
    · rename_i h1; exact h1 hd
  · rintro ⟨a, b, e2⟩
    apply hmap
    rw [List.map_tail, e]
    cases t with
    | nil => simp at e2
    | cons c t =>
      simp only [List.tail_cons] at e2
      rw [e2]
      cases pre with
      | nil => exact ⟨a, b ++ post, by simp⟩
      | cons p pre => exact ⟨pre ++ c :: a, b ++ post, by simp⟩
  · intro hr ht
    have := sub _ ht
    simp only [List.mem_map] at this
    obtain ⟨d, hd, hdr⟩ := this
    split at hdr
    · exact absurd hdr (by decide)
    · subst hdr; exact hr hd

theorem ruleText_stable (hgo : ∀ t e, go t e → goSyntax u t = some e) {t r} (h : RuleText go t r)
    (hf : ∀ e ∈ ruleExprs r, NoFuse (pieces e)) (hl : Opt LitsNoArrow r.condition) : RuleStable u r := by
  cases h with
  | mk hm hc hb hr =>
    simp only [ruleExprs, List.mem_append] at hf
    refine ⟨valueText_stable hgo hm fun e he => hf e (.inl (.inl he)), ?_, ?_, valueText_stable hgo hr fun e he => hf e (.inr he)⟩
    · cases hc with
      | none => trivial
      | some _ _ _ ha _ _ _ htr hg =>
        have hs := stable_of_text (hgo _ _ hg) (hf _ (.inl (.inr (by simp))))
        exact ⟨hs, show_noArrow hs.1 hl, show_chars (hgo _ _ hg) (by simp) (trimmed_chars htr ha).1⟩
    · cases hb with
      | none => simp
      | some _ _ h _ _ => exact h

theorem ruleText_lits (hgo : ∀ t e, go t e → goSyntax u t = some e) {t r} (h : RuleText go t r) (hcr : '\r' ∉ t) : Opt LitsNoArrow r.condition := by
  cases h with
  | mk hm hc hb hr =>
    cases hc with
    | none => trivial
    | some _ _ _ ha _ _ _ htr hg =>
      have := trimmed_chars htr ha
      refine lits_noArrow (hgo _ _ hg) this.2.1 (this.2.2 ?_)
      intro hm'
      apply hcr
      simp [hm']

theorem fileText_mem {t rs} (h : FileText go t rs) : ∀ r ∈ rs, ∃ a b c, t = a ++ b ++ c ∧ RuleText go b r := by
  induction h with
  | nil => simp
  | @cons s0 t r s1 rest rs _ hr _ _ _ ih =>
    intro r' hm
    rcases List.mem_cons.1 hm with rfl | hm
    · exact ⟨s0, t, s1 ++ rest, by simp, hr⟩
    · obtain ⟨a, b, c, e, hb⟩ := ih r' hm
      exact ⟨s0 ++ t ++ s1 ++ a, b, c, by rw [e]; simp, hb⟩

end
end Verif.Proof

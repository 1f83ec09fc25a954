import Verif.Proof.ParseOp
/-!
# Variables and calls: the grammar against `ExprText`
-/
namespace Verif.Proof
open Verif Verif.Spec

section
variable {lib : GoLib}

/-- The text `t` is the Go expression `e`, as far as `goexpr.Parse` is concerned. -/
abbrev goText (lib : GoLib) (t : Str) (e : GoExpr) : Prop := goexprParse lib t = .ok e

def valDyn : Value → Dyn
  | .var s => .variable s
  | .expr e => .expr e
  | .sexpr h args => .sexpr h args
  | .nil => .nil

theorem zeroOrOne_inv {G : Grammar} {e cs fr v cs' fr'} (h : exec G (.zeroOrOne e) cs fr = .ok v cs' fr') :
    fr' = fr ∧ ((∃ fr1, exec G e cs Frame.empty = .ok v cs' fr1) ∨ (exec G e cs Frame.empty = .fail ∧ v = .nil ∧ cs' = cs)) := by
  rw [exec_zeroOrOne] at h
  cases he : exec G e cs Frame.empty with
  | ok v1 cs1 fr1 =>
    rw [he] at h; simp only [COut.ok.injEq] at h
    obtain ⟨rfl, rfl, rfl⟩ := h
    exact ⟨rfl, Or.inl ⟨fr1, rfl⟩⟩
  | fail =>
    rw [he] at h; simp only [COut.ok.injEq] at h
    obtain ⟨rfl, rfl, rfl⟩ := h
    exact ⟨rfl, Or.inr ⟨rfl, rfl, rfl⟩⟩
  | abort => rw [he] at h; simp at h

theorem ruleRef_inv {G : Grammar} {r cs fr v cs' fr'} (h : exec G (.ruleRef r) cs fr = .ok v cs' fr') :
    fr' = fr ∧ ∃ fr1, exec G (G.rules r) cs Frame.empty = .ok v cs' fr1 := by
  rw [exec_ruleRef] at h
  cases he : exec G (G.rules r) cs Frame.empty with
  | ok v1 cs1 fr1 =>
    rw [he] at h; simp only [popC, COut.ok.injEq] at h
    obtain ⟨rfl, rfl, rfl⟩ := h
    exact ⟨rfl, fr1, rfl⟩
  | fail => rw [he] at h; simp [popC] at h
  | abort => rw [he] at h; simp [popC] at h

theorem ruleRef_ok {G : Grammar} {r cs v cs' fr1} (h : exec G (G.rules r) cs Frame.empty = .ok v cs' fr1) (fr) :
    exec G (.ruleRef r) cs fr = .ok v cs' fr := by
  rw [exec_ruleRef, h]; rfl

theorem ruleRef_fail {G : Grammar} {r cs} (h : exec G (G.rules r) cs Frame.empty = .fail) (fr) :
    exec G (.ruleRef r) cs fr = .fail := by
  rw [exec_ruleRef, h]; rfl

theorem lower_word {c : Char} (h : isLower c = true) : isWordChar c = true := by
  simp [isWordChar, h]

theorem lower_facts {c : Char} (h : isLower c = true) : c ≠ '(' ∧ c ≠ '_' ∧ c ≠ '/' ∧ isBlank c = false ∧ c ≠ '<' ∧ c ≠ '[' ∧ c ≠ '{' ∧
    c ≠ '@' ∧ c ≠ ':' ∧ c ≠ ')' ∧ c ≠ ',' ∧ c ≠ '.' ∧ c ≠ '=' ∧ c ≠ '&' := by
  refine ⟨?_, ?_, ?_, ?_, ?_, ?_, ?_, ?_, ?_, ?_, ?_, ?_, ?_, ?_⟩
  case refine_4 =>
    cases hb : isBlank c with
    | false => rfl
    | true =>
      simp only [isBlank, Bool.or_eq_true, beq_iff_eq] at hb
      rcases hb with ((rfl | rfl) | rfl) | rfl <;> exact absurd h (by decide)
  all_goals rintro rfl; exact absurd h (by decide)

theorem blank_not_word {c : Char} (h : isBlank c = true) : isWordChar c = false := by
  simp only [isBlank, Bool.or_eq_true, beq_iff_eq] at h
  rcases h with ((rfl | rfl) | rfl) | rfl <;> decide

theorem blank_facts {c : Char} (h : isBlank c = true) : c ≠ '(' ∧ c ≠ ':' ∧ c ≠ '_' ∧ c ≠ ',' ∧ c ≠ ')' := by
  simp only [isBlank, Bool.or_eq_true, beq_iff_eq] at h
  rcases h with ((rfl | rfl) | rfl) | rfl <;> decide

theorem ident_noSkip {x rest : Str} (h : Ident x) : NoSkip (x ++ rest) := by
  obtain ⟨c, t, rfl, hc, -⟩ := h
  have := lower_facts hc
  exact noSkip_cons this.2.2.2.1 this.2.2.1

theorem exprText_noSkip {go t v rest} (h : ExprText go t v) : NoSkip (t ++ rest) := by
  cases h with
  | var hx => exact ident_noSkip hx
  | placeholder => exact noSkip_cons (by decide) (by decide)
  | call hf _ _ _ _ _ =>
    simp only [List.append_assoc]
    exact ident_noSkip hf

/-- The text goes on with nothing that could continue an identifier into a longer identifier, a call or a binding. -/
def Cont (rest : Str) : Prop := ∀ c, rest.head? = some c → isWordChar c = false ∧ c ≠ '(' ∧ c ≠ ':'

theorem cont_cons {c : Char} {rest : Str} (h : isWordChar c = false ∧ c ≠ '(' ∧ c ≠ ':') : Cont (c :: rest) := by
  intro d hd; simp at hd; subst hd; exact h

theorem cont_skip {s rest : Str} (hs : Skip s) (hr : Cont rest) : Cont (s ++ rest) := by
  rcases skip_cases hs with rfl | ⟨c, t, rfl, hc | rfl⟩
  · exact hr
  · have := blank_facts hc
    exact cont_cons ⟨blank_not_word hc, this.1, this.2.1⟩
  · exact cont_cons (by decide)

/-! ## Forward -/

/-- One `, expr` of a call. -/
def gArg : PExpr := .seq [g_, .lit [','], g_, .ruleRef .Expr, g_]

theorem gArg_none {s rest : Str} (hs : Skip s) (hr : NoSkip rest) (hc : rest.head? ≠ some ',') :
    exec (ruleGrammar lib) gArg (s ++ rest) Frame.empty = .fail := by
  obtain ⟨vs, hv⟩ := exec_skip (G := ruleGrammar lib) hs hr
  rw [gArg, exec_seq, seq_step (hv _)]
  exact seq_fail (exec_lit_head hc)

theorem call_none {x rest : Str} (hx : Ident x) (hr : Stops isWordChar rest) (hp : rest.head? ≠ some '(') (fr) :
    exec (ruleGrammar lib) (.ruleRef .Call) (x ++ rest) fr = .fail := by
  apply ruleRef_fail
  show exec _ gCall _ _ = _
  rw [gCall]; apply action_fail; rw [exec_seq]
  obtain ⟨c, t, rfl, hc, ht⟩ := hx
  have h := takeWhile_stop ht hr
  rw [execSeq_cons, exec_lower]
  simp only [List.cons_append, hc, if_true]
  rw [seq_step (oneChar_zero word_one _ _), h.2]
  exact seq_fail (exec_lit_head hp)

theorem call_none_head {cs : Str} (h : Stops isLower cs) (fr) : exec (ruleGrammar lib) (.ruleRef .Call) cs fr = .fail := by
  apply ruleRef_fail
  show exec _ gCall _ _ = _
  rw [gCall]; apply action_fail; rw [exec_seq]
  rw [execSeq_cons, exec_lower]
  cases cs with
  | nil => rfl
  | cons c cs => simp [h c rfl]

theorem expr_call {cs v rest fr1} (h : exec (ruleGrammar lib) (.ruleRef .Call) cs Frame.empty = .ok v rest fr1) (fr) :
    exec (ruleGrammar lib) (.ruleRef .Expr) cs fr = .ok v rest fr := by
  have : exec (ruleGrammar lib) gExpr cs Frame.empty = .ok v rest Frame.empty := by
    rw [gExpr, exec_choice, execChoice_cons, h]
  exact ruleRef_ok this fr

theorem expr_var {x rest : Str} (hx : Ident x) (hr : Stops isWordChar rest)
    (hc : exec (ruleGrammar lib) (.ruleRef .Call) (x ++ rest) Frame.empty = .fail) (fr) :
    exec (ruleGrammar lib) (.ruleRef .Expr) (x ++ rest) fr = .ok (.variable x) rest fr := by
  have : exec (ruleGrammar lib) gExpr (x ++ rest) Frame.empty = .ok (.variable x) rest Frame.empty := by
    rw [gExpr, exec_choice, execChoice_cons, hc]
    simp only []
    obtain ⟨v, hv⟩ := ident_fwd (G := ruleGrammar lib) (fr := Frame.empty) hx hr
    rw [execChoice_cons, action_eq hv, actC, slice_append]
    rfl
  exact ruleRef_ok this fr

theorem expr_placeholder {rest : Str} (hr : rest.head? ≠ some '_') (fr) :
    exec (ruleGrammar lib) (.ruleRef .Expr) ('_' :: rest) fr = .ok (.variable ['_']) rest fr := by
  have hlow : Stops isLower ('_' :: rest) := by intro c hc; simp at hc; subst hc; decide
  have : exec (ruleGrammar lib) gExpr ('_' :: rest) Frame.empty = .ok (.variable ['_']) rest Frame.empty := by
    rw [gExpr, exec_choice, execChoice_cons, call_none_head hlow]
    simp only []
    rw [execChoice_cons, action_fail (ident_none hlow)]
    simp only []
    have e0 : exec (ruleGrammar lib) (.lit ['_']) ('_' :: rest) Frame.empty = .ok (.bytes ['_']) rest Frame.empty :=
      exec_lit_ok ['_'] rest _
    have e1 : exec (ruleGrammar lib) (.not (.lit ['_'])) rest Frame.empty = .ok .nil rest Frame.empty := by
      rw [exec_not, exec_lit_head hr]
    have e2 : exec (ruleGrammar lib) (.seq [.lit ['_'], .not (.lit ['_'])]) ('_' :: rest) Frame.empty =
        .ok (.list [.bytes ['_'], .nil]) rest Frame.empty := by
      rw [exec_seq, seq_step e0, seq_step e1, execSeq_nil]; rfl
    rw [execChoice_cons, action_eq e2, actC]
    rfl
  exact ruleRef_ok this fr

theorem expr_none {cs : Str} (h1 : Stops isLower cs) (h2 : ∀ rest, cs = '_' :: rest → rest.head? = some '_') (fr) :
    exec (ruleGrammar lib) (.ruleRef .Expr) cs fr = .fail := by
  apply ruleRef_fail
  show exec _ gExpr _ _ = _
  rw [gExpr, exec_choice, execChoice_cons, call_none_head h1]
  simp only []
  rw [execChoice_cons, action_fail (ident_none h1)]
  simp only []
  rw [execChoice_cons]
  have : exec (ruleGrammar lib) (.seq [.lit ['_'], .not (.lit ['_'])]) cs Frame.empty = .fail := by
    rw [exec_seq, execSeq_cons]
    cases hl : exec (ruleGrammar lib) (.lit ['_']) cs Frame.empty with
    | fail => rfl
    | abort => exact absurd hl exec_lit_noabort
    | ok v cs1 fr1 =>
      obtain ⟨rfl, -, rfl⟩ := exec_lit_inv hl
      have := h2 cs1 rfl
      simp only []
      apply seq_fail
      rw [exec_not]
      cases cs1 with
      | nil => simp at this
      | cons c cs1 =>
        simp at this; subst this
        have : exec (ruleGrammar lib) (.lit ['_']) ('_' :: cs1) Frame.empty = .ok (.bytes ['_']) cs1 Frame.empty :=
          exec_lit_ok ['_'] cs1 _
        rw [this]
  rw [action_fail this]; simp only [execChoice_nil]

/-- The parts of a call in sequence, up to the action. -/
theorem call_seq {f s0 a s1 rest tail : Str} {v vs s'} (hf : Ident f) (h0 : Skip s0) (hns : NoSkip (a ++ (s1 ++ rest ++ ')' :: tail)))
    (ha : ∀ fr, exec (ruleGrammar lib) (.ruleRef .Expr) (a ++ (s1 ++ rest ++ ')' :: tail)) fr = .ok v (s1 ++ rest ++ ')' :: tail) fr)
    (hs' : Skip s') (hi : Items (ruleGrammar lib) gArg (s1 ++ rest ++ ')' :: tail) vs (s' ++ ')' :: tail)) (fr) :
    exec (ruleGrammar lib) gCall ((f ++ '(' :: s0 ++ a ++ s1 ++ rest ++ [')']) ++ tail) fr =
      actC (ruleGrammar lib) .onCall1 ((f ++ '(' :: s0 ++ a ++ s1 ++ rest ++ [')']) ++ tail) tail fr := by
  rw [gCall]
  obtain ⟨c, t, rfl, hc, ht⟩ := hf
  have htxt : ((c :: t) ++ '(' :: s0 ++ a ++ s1 ++ rest ++ [')']) ++ tail =
      c :: (t ++ '(' :: (s0 ++ (a ++ (s1 ++ rest ++ ')' :: tail)))) := by simp
  rw [htxt]
  have e1 : exec (ruleGrammar lib) gLower (c :: (t ++ '(' :: (s0 ++ (a ++ (s1 ++ rest ++ ')' :: tail))))) fr =
      .ok (.bytes [c]) (t ++ '(' :: (s0 ++ (a ++ (s1 ++ rest ++ ')' :: tail)))) fr := by
    rw [exec_lower]; simp [hc]
  have e2 := oneChar_zero (word_one (G := ruleGrammar lib)) (t ++ '(' :: (s0 ++ (a ++ (s1 ++ rest ++ ')' :: tail)))) fr
  have ht' := takeWhile_stop (rest := '(' :: (s0 ++ (a ++ (s1 ++ rest ++ ')' :: tail)))) ht
    (by intro d hd; simp at hd; subst hd; decide)
  rw [ht'.2] at e2
  have e3 : exec (ruleGrammar lib) (.lit ['(']) ('(' :: (s0 ++ (a ++ (s1 ++ rest ++ ')' :: tail)))) fr =
    .ok (.bytes ['(']) (s0 ++ (a ++ (s1 ++ rest ++ ')' :: tail))) fr := exec_lit_ok ['('] _ _
  obtain ⟨vs4, e4⟩ := exec_skip (G := ruleGrammar lib) h0 hns
  have e6 : exec (ruleGrammar lib) (.zeroOrMore gArg) (s1 ++ rest ++ ')' :: tail) fr = .ok (.list vs) (s' ++ ')' :: tail) fr := by
    rw [exec_zeroOrMore]; exact loop_of_items (vs := []) hi (by simp)
  obtain ⟨vs7, e7⟩ := exec_skip (G := ruleGrammar lib) (rest := ')' :: tail) hs' (noSkip_cons (by decide) (by decide))
  have e8 : exec (ruleGrammar lib) (.lit [')']) (')' :: tail) fr = .ok (.bytes [')']) tail fr := exec_lit_ok [')'] _ _
  have hseq : ∃ v, exec (ruleGrammar lib) (.seq [gLower, .zeroOrMore gWord, .lit ['('], g_, .ruleRef .Expr,
      .zeroOrMore (.seq [g_, .lit [','], g_, .ruleRef .Expr, g_]), g_, .lit [')']])
      (c :: (t ++ '(' :: (s0 ++ (a ++ (s1 ++ rest ++ ')' :: tail))))) fr = .ok v tail fr := by
    rw [exec_seq, seq_step e1, seq_step e2, seq_step e3, seq_step (e4 fr), seq_step (ha fr)]
    rw [show PExpr.seq [g_, .lit [','], g_, .ruleRef .Expr, g_] = gArg from rfl]
    rw [seq_step e6, seq_step (e7 fr), seq_step e8, execSeq_nil]
    exact ⟨_, rfl⟩
  obtain ⟨v, hv⟩ := hseq
  exact action_eq hv

theorem call_ok {f s0 a s1 rest tail : Str} {v vs s' e} (hf : Ident f) (h0 : Skip s0) (hns : NoSkip (a ++ (s1 ++ rest ++ ')' :: tail)))
    (ha : ∀ fr, exec (ruleGrammar lib) (.ruleRef .Expr) (a ++ (s1 ++ rest ++ ')' :: tail)) fr = .ok v (s1 ++ rest ++ ')' :: tail) fr)
    (hs' : Skip s') (hi : Items (ruleGrammar lib) gArg (s1 ++ rest ++ ')' :: tail) vs (s' ++ ')' :: tail))
    (hgo : goText lib (f ++ '(' :: s0 ++ a ++ s1 ++ rest ++ [')']) e) (fr) :
    exec (ruleGrammar lib) (.ruleRef .Call) ((f ++ '(' :: s0 ++ a ++ s1 ++ rest ++ [')']) ++ tail) fr = .ok (.expr e) tail fr := by
  have h := call_seq hf h0 hns ha hs' hi Frame.empty
  have h' : actC (ruleGrammar lib) .onCall1 ((f ++ '(' :: s0 ++ a ++ s1 ++ rest ++ [')']) ++ tail) tail Frame.empty =
      .ok (.expr e) tail Frame.empty := by
    rw [actC, slice_append]
    show (match viaGo lib _ _ with | .ok v => _ | _ => _) = _
    rw [viaGo, hgo]
  rw [h'] at h
  exact ruleRef_ok h fr

theorem moreArgs_head {go rest} (h : MoreArgs go rest) (tail : Str) : ∃ c cs, rest ++ ')' :: tail = c :: cs ∧ (c = ',' ∨ c = ')') := by
  cases h with
  | nil => exact ⟨')', tail, rfl, by simp⟩
  | cons _ _ _ _ => exact ⟨',', _, by simp only [List.cons_append]; rfl, by simp⟩

theorem cont_close {c : Char} {cs : Str} (h : c = ',' ∨ c = ')') : Cont (c :: cs) := by
  rcases h with rfl | rfl <;> exact cont_cons (by decide)

theorem noSkip_close {c : Char} {cs : Str} (h : c = ',' ∨ c = ')') : NoSkip (c :: cs) := by
  rcases h with rfl | rfl <;> exact noSkip_cons (by decide) (by decide)

mutual
theorem expr_fwd {t v} (h : ExprText (goText lib) t v) : ∀ rest, ((∀ e, v ≠ .expr e) → Cont rest) → ∀ fr,
    exec (ruleGrammar lib) (.ruleRef .Expr) (t ++ rest) fr = .ok (valDyn v) rest fr := by
  cases h with
  | var hx =>
    intro rest hr fr
    have hr := hr (by simp)
    have h1 : Stops isWordChar rest := fun c hc => (hr c hc).1
    exact expr_var hx h1 (call_none hx h1 (fun hc => (hr _ hc).2.1 rfl) _) fr
  | placeholder =>
    intro rest hr fr
    have hr := hr (by simp)
    exact expr_placeholder (fun hc => absurd (hr _ hc).1 (by decide)) fr
  | @call f s0 a v s1 rest e hf h0 ha h1 hm hgo =>
    intro tail _ fr
    obtain ⟨c, cs, hc, hc'⟩ := moreArgs_head hm tail
    have hcont : Cont (s1 ++ rest ++ ')' :: tail) := by
      rw [List.append_assoc, hc]; exact cont_skip h1 (cont_close hc')
    have hea := expr_fwd ha (s1 ++ rest ++ ')' :: tail) (fun _ => hcont)
    obtain ⟨vs, s', hs', hi⟩ := moreArgs_fwd hm s1 h1 tail
    exact expr_call (call_ok (tail := tail) hf h0 (exprText_noSkip ha) hea hs' hi hgo Frame.empty) fr
termination_by t.length
decreasing_by all_goals (simp; try omega)
theorem moreArgs_fwd {rest} (h : MoreArgs (goText lib) rest) : ∀ s1, Skip s1 → ∀ tail, ∃ vs s', Skip s' ∧
    Items (ruleGrammar lib) gArg (s1 ++ rest ++ ')' :: tail) vs (s' ++ ')' :: tail) := by
  cases h with
  | nil =>
    intro s1 h1 tail
    refine ⟨[], s1, h1, ?_⟩
    rw [List.append_nil]
    exact .nil (gArg_none h1 (noSkip_cons (by decide) (by decide)) (by simp))
  | @cons s0 a v s2 rest h0 ha h2 hm =>
    intro s1 h1 tail
    obtain ⟨vs, s', hs', hi⟩ := moreArgs_fwd hm [] .nil tail
    obtain ⟨c, cs, hc, hc'⟩ := moreArgs_head hm tail
    have hcont : Cont (s2 ++ (rest ++ ')' :: tail)) := by
      rw [hc]; exact cont_skip h2 (cont_close hc')
    have hea := expr_fwd ha (s2 ++ (rest ++ ')' :: tail)) (fun _ => hcont)
    have htxt : s1 ++ (',' :: s0 ++ a ++ s2 ++ rest) ++ ')' :: tail = s1 ++ (',' :: (s0 ++ (a ++ (s2 ++ (rest ++ ')' :: tail))))) := by
      simp
    have e1 : exec (ruleGrammar lib) (.lit [',']) (',' :: (s0 ++ (a ++ (s2 ++ (rest ++ ')' :: tail))))) Frame.empty =
      .ok (.bytes [',']) (s0 ++ (a ++ (s2 ++ (rest ++ ')' :: tail)))) Frame.empty := exec_lit_ok [','] _ _
    obtain ⟨v0, e0⟩ := exec_skip (G := ruleGrammar lib) (rest := ',' :: (s0 ++ (a ++ (s2 ++ (rest ++ ')' :: tail))))) h1
      (noSkip_cons (by decide) (by decide))
    obtain ⟨v2, e2⟩ := exec_skip (G := ruleGrammar lib) h0 (exprText_noSkip (rest := s2 ++ (rest ++ ')' :: tail)) ha)
    obtain ⟨v3, e3⟩ := exec_skip (G := ruleGrammar lib) (rest := rest ++ ')' :: tail) h2 (by rw [hc]; exact noSkip_close hc')
    rw [List.nil_append] at hi
    refine ⟨.list ([] ++ [.list v0] ++ [.bytes [',']] ++ [.list v2] ++ [valDyn v] ++ [.list v3]) :: vs, s', hs', ?_⟩
    rw [htxt]
    refine .cons (fr := Frame.empty) ?_ hi
    rw [gArg, exec_seq, seq_step (e0 _), seq_step e1, seq_step (e2 _), seq_step (hea _), seq_step (e3 _), execSeq_nil]
termination_by rest.length
decreasing_by all_goals (simp; try omega)
end

/-- What makes an identifier a call. -/
theorem call_callLike {x rest : Str} (hx : Ident x) (hc : CallLike rest) (fr) :
    exec (ruleGrammar lib) (.ruleRef .Call) (x ++ rest) fr ≠ .fail := by
  obtain ⟨s0, y, s1, rest', rfl, h0, hy, h1⟩ := hc
  have hy' : ∃ v, ExprText (goText lib) y v := by
    rcases hy with hy | rfl
    · exact ⟨_, .var hy⟩
    · exact ⟨_, .placeholder⟩
  obtain ⟨v, hv⟩ := hy'
  have hcont : Cont (s1 ++ [] ++ ')' :: rest') := by
    rw [List.append_nil]; exact cont_skip h1 (cont_cons (by decide))
  obtain ⟨vs, s', hs', hi⟩ := moreArgs_fwd (lib := lib) .nil s1 h1 rest'
  have h := call_seq (tail := rest') hx h0 (exprText_noSkip hv) (expr_fwd hv _ (fun _ => hcont)) hs' hi Frame.empty
  have htxt : x ++ ('(' :: s0 ++ y ++ s1 ++ ')' :: rest') = (x ++ '(' :: s0 ++ y ++ s1 ++ [] ++ [')']) ++ rest' := by simp
  rw [htxt, exec_ruleRef]
  show popC fr (exec _ gCall _ _) ≠ _
  rw [h, actC]
  split <;> simp [popC]

/-! ## Backward -/

/-- The statement about `Expr` for texts up to length `n`. -/
def ExprSound (lib : GoLib) (n : Nat) : Prop := ∀ cs v cs' fr fr', cs.length ≤ n →
  exec (ruleGrammar lib) (.ruleRef .Expr) cs fr = .ok v cs' fr' →
    ∃ t w, cs = t ++ cs' ∧ ExprText (goText lib) t w ∧ v = valDyn w ∧ Follow w cs' ∧ fr' = fr

theorem args_sound {n cs vs cs'} (ih : ExprSound lib n) (h : Items (ruleGrammar lib) gArg cs vs cs') (hn : cs.length ≤ n) :
    ∀ s' tail, Skip s' → cs' = s' ++ tail → ∃ s1 rest, Skip s1 ∧ MoreArgs (goText lib) rest ∧ cs = s1 ++ rest ++ tail := by
  induction h with
  | nil _ => intro s' tail hs' he; exact ⟨s', [], hs', .nil, by simpa using he⟩
  | cons h1 _ ih2 =>
    intro s' tail hs' he
    rw [gArg, exec_seq] at h1
    obtain ⟨v1, cs1, fr1, g1, h1a⟩ := seq_inv h1
    obtain ⟨s1, rfl, k1, -, rfl⟩ := skip_inv g1
    obtain ⟨v2, cs2, fr2, g2, h1b⟩ := seq_inv h1a
    obtain ⟨rfl, rfl, rfl⟩ := exec_lit_inv g2
    obtain ⟨v3, cs3, fr3, g3, h1c⟩ := seq_inv h1b
    obtain ⟨s3, rfl, k3, -, rfl⟩ := skip_inv g3
    obtain ⟨v4, cs4, fr4, g4, h1d⟩ := seq_inv h1c
    obtain ⟨t, w, rfl, hw, rfl, -, rfl⟩ := ih _ _ _ _ _ (by simp at hn; omega) g4
    obtain ⟨v5, cs5, fr5, g5, h1e⟩ := seq_inv h1d
    obtain ⟨s5, rfl, k5, -, rfl⟩ := skip_inv g5
    obtain ⟨rfl, rfl, rfl⟩ := seq_nil_inv h1e
    obtain ⟨sa, rest, ha, hm, rfl⟩ := ih2 (by simp at hn; omega) s' tail hs' he
    refine ⟨s1, ',' :: s3 ++ t ++ (s5 ++ sa) ++ rest, k1, .cons k3 hw (skip_append k5 ha) hm, by simp⟩

theorem call_sound {n cs v cs' fr fr'} (ih : ∀ m, m < n → ExprSound lib m) (hn : cs.length ≤ n)
    (h : exec (ruleGrammar lib) (.ruleRef .Call) cs fr = .ok v cs' fr') :
    ∃ t e, cs = t ++ cs' ∧ ExprText (goText lib) t (.expr e) ∧ v = .expr e ∧ fr' = fr := by
  obtain ⟨rfl, fr1, h⟩ := ruleRef_inv h
  have h : exec (ruleGrammar lib) gCall cs Frame.empty = .ok v cs' fr1 := h
  rw [gCall] at h
  obtain ⟨v0, h0, hact⟩ := action_inv h
  rw [exec_seq] at h0
  obtain ⟨v1, cs1, fr2, g1, h1⟩ := seq_inv h0
  rw [exec_lower] at g1
  cases cs with
  | nil => simp at g1
  | cons c cs =>
    simp only [] at g1
    split at g1
    · rename_i hc
      simp only [COut.ok.injEq] at g1
      obtain ⟨rfl, rfl, rfl⟩ := g1
      obtain ⟨v2, cs2, fr2, g2, h2⟩ := seq_inv h1
      rw [oneChar_zero word_one] at g2
      simp only [COut.ok.injEq] at g2
      obtain ⟨rfl, rfl, rfl⟩ := g2
      obtain ⟨v3, cs3, fr3, g3, h3⟩ := seq_inv h2
      obtain ⟨g3', rfl, rfl⟩ := exec_lit_inv g3
      have hcs : cs = cs.takeWhile isWordChar ++ '(' :: cs3 := by
        conv => lhs; rw [takeWhile_append_dropWhile' isWordChar cs, g3']
        rfl
      have hall := takeWhile_all isWordChar cs
      generalize cs.takeWhile isWordChar = f at hcs hall
      obtain ⟨v4, cs4, fr4, g4, h4⟩ := seq_inv h3
      obtain ⟨s0, rfl, k0, -, rfl⟩ := skip_inv g4
      obtain ⟨v5, cs5, fr5, g5, h5⟩ := seq_inv h4
      have hlen : cs4.length + 2 ≤ n := by
        have := congrArg List.length hcs
        simp at this hn; omega
      obtain ⟨a, w, rfl, hw, rfl, -, rfl⟩ := ih (n - 1) (by omega) _ _ _ _ _ (by omega) g5
      obtain ⟨v6, cs6, fr6, g6, h6⟩ := seq_inv h5
      rw [exec_zeroOrMore] at g6
      obtain ⟨vs, hi, rfl, rfl, -⟩ := items_of_loop g6
      obtain ⟨v7, cs7, fr7, g7, h7⟩ := seq_inv h6
      obtain ⟨s', rfl, k7, -, rfl⟩ := skip_inv g7
      obtain ⟨v8, cs8, fr8, g8, h8⟩ := seq_inv h7
      obtain ⟨rfl, rfl, rfl⟩ := exec_lit_inv g8
      obtain ⟨rfl, rfl, rfl⟩ := seq_nil_inv h8
      obtain ⟨s1, rest, k1, hm, rfl⟩ := args_sound (ih (n - 1) (by omega)) hi (by simp at hlen; omega) _ _ k7 rfl
      have htxt : c :: cs = ((c :: f) ++ '(' :: s0 ++ a ++ s1 ++ rest ++ [')']) ++ cs' := by rw [hcs]; simp
      rw [htxt, slice_append] at hact
      have hact : viaGo lib ((c :: f) ++ '(' :: s0 ++ a ++ s1 ++ rest ++ [')']) .expr = .ok v := hact
      cases hgo : goexprParse lib ((c :: f) ++ '(' :: s0 ++ a ++ s1 ++ rest ++ [')']) with
      | err e => rw [viaGo, hgo] at hact; simp at hact
      | panic => rw [viaGo, hgo] at hact; simp at hact
      | ok e =>
        rw [viaGo, hgo] at hact; simp only [ActOut.ok.injEq] at hact
        exact ⟨_, e, htxt, .call ⟨c, f, rfl, hc, hall⟩ k0 hw k1 hm hgo, hact.symm, rfl⟩
    · simp at g1

theorem expr_sound (n : Nat) : ExprSound lib n := by
  induction n using Nat.strongRecOn with
  | ind n ih =>
    intro cs v cs' fr fr' hn h
    obtain ⟨rfl, fr1, h⟩ := ruleRef_inv h
    have h : exec (ruleGrammar lib) gExpr cs Frame.empty = .ok v cs' fr1 := h
    rw [gExpr, exec_choice, execChoice_cons] at h
    cases hcall : exec (ruleGrammar lib) (.ruleRef .Call) cs Frame.empty with
    | abort => rw [hcall] at h; simp at h
    | ok v1 cs1 fr2 =>
      rw [hcall] at h; simp only [COut.ok.injEq] at h
      obtain ⟨rfl, rfl, rfl⟩ := h
      obtain ⟨t, e, h1, h2, h3, -⟩ := call_sound ih hn hcall
      exact ⟨t, .expr e, h1, h2, h3, trivial, rfl⟩
    | fail =>
      rw [hcall] at h; simp only [] at h
      rw [execChoice_cons] at h
      cases hid : exec (ruleGrammar lib) (.action .onExpr3 gIdent) cs Frame.empty with
      | abort => rw [hid] at h; simp at h
      | ok v1 cs1 fr2 =>
        rw [hid] at h; simp only [COut.ok.injEq] at h
        obtain ⟨rfl, rfl, rfl⟩ := h
        obtain ⟨v2, k1, k2⟩ := action_inv hid
        obtain ⟨x, rfl, hx, hs, rfl⟩ := ident_inv k1
        rw [slice_append] at k2
        have k2 : ActOut.ok (.variable x) = .ok v1 := k2
        simp only [ActOut.ok.injEq] at k2
        refine ⟨x, .var x, rfl, .var hx, k2.symm, ?_, rfl⟩
        have hne : x ≠ ['_'] := by
          rintro rfl
          obtain ⟨c, t, he, hc, -⟩ := hx
          simp at he; rw [← he.1] at hc; exact absurd hc (by decide)
        rw [Follow, if_neg hne]
        exact ⟨hs, fun hc => call_callLike hx hc _ hcall⟩
      | fail =>
        rw [hid] at h; simp only [] at h
        rw [execChoice_cons] at h
        cases hp : exec (ruleGrammar lib) (.action .onExpr8 (.seq [.lit ['_'], .not (.lit ['_'])])) cs Frame.empty with
        | abort => rw [hp] at h; simp at h
        | fail => rw [hp] at h; simp [execChoice_nil] at h
        | ok v1 cs1 fr2 =>
          rw [hp] at h; simp only [COut.ok.injEq] at h
          obtain ⟨rfl, rfl, rfl⟩ := h
          obtain ⟨v2, k1, k2⟩ := action_inv hp
          have k3' : ActOut.ok (.variable ['_']) = .ok v1 := k2
          simp only [ActOut.ok.injEq] at k3'
          rw [exec_seq] at k1
          obtain ⟨v3, cs3, fr3, g3, k3⟩ := seq_inv k1
          obtain ⟨rfl, rfl, rfl⟩ := exec_lit_inv g3
          obtain ⟨v4, cs4, fr4, g4, k4⟩ := seq_inv k3
          obtain ⟨rfl, rfl, rfl⟩ := seq_nil_inv k4
          rw [exec_not] at g4
          cases hl : exec (ruleGrammar lib) (.lit ['_']) cs3 Frame.empty with
          | abort => rw [hl] at g4; simp at g4
          | ok _ _ _ => rw [hl] at g4; simp at g4
          | fail =>
            rw [hl] at g4; simp only [COut.ok.injEq] at g4
            obtain ⟨rfl, rfl, rfl⟩ := g4
            refine ⟨['_'], .var ['_'], rfl, .placeholder, k3'.symm, ?_, rfl⟩
            rw [Follow, if_pos rfl]
            intro hh
            cases cs3 with
            | nil => simp at hh
            | cons c cs3 =>
              simp at hh; subst hh
              have : exec (ruleGrammar lib) (.lit ['_']) ('_' :: cs3) Frame.empty = .ok (.bytes ['_']) cs3 Frame.empty :=
                exec_lit_ok ['_'] cs3 _
              rw [this] at hl; simp at hl

end
end Verif.Proof

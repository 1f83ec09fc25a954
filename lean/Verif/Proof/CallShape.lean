import Verif.Proof.Roundtrip
/-!
# A call in the place of a value is a call of names on names and such calls
-/
namespace Verif.Proof
open Verif Verif.Spec

section
variable {u : GoVersion}

/-- The token of a word. -/
def wordTok (s : Str) : GTok := if keywords.contains s then .other else .ident s

/-- The text is read as these tokens (from some point on). -/
def Lx (u : GoVersion) (s : Str) (R : List GTok) : Prop := ∃ n nl, lexGo u n nl s = some R

def NotWord (u : GoVersion) (s : Str) : Prop := HeadIs (fun c => (isGoLetter u c || isGoDigit u c) = false) s

theorem notWord_ascii {c : Char} {s : Str} (h : c.toNat < 0x80) (h1 : isAsciiLetter c = false) (h2 : isDec c = false) : NotWord u (c :: s) :=
  headIs_cons.2 (by simp [not_letter h h1, not_digit h h2])

theorem wordChar_go {c : Char} (h : isWordChar c = true) : (isGoLetter u c || isGoDigit u c) = true := by
  simp only [isWordChar, isLower, Bool.or_eq_true, Bool.and_eq_true, decide_eq_true_eq, beq_iff_eq] at h
  simp only [isGoLetter, isGoDigit, isAsciiLetter, isDec, Bool.or_eq_true, Bool.and_eq_true, decide_eq_true_eq, beq_iff_eq]
  rcases h with ((h | h) | h) | h
  · exact .inl (.inl (.inr h))
  · exact .inl (.inl (.inl (.inl h)))
  · exact .inl (.inl (.inl (.inr h)))
  · exact .inr (.inl h)

theorem spanOf_word {p : Char → Bool} {w rest : Str} (h : ∀ c ∈ w, p c = true) (hr : HeadIs (fun c => p c = false) rest) :
    spanOf p (w ++ rest) = (w, rest) := by
  rw [spanOf_stop hr]
  have e1 : w.takeWhile p = w := by
    induction w with
    | nil => rfl
    | cons c w ih => rw [List.takeWhile_cons, if_pos (h c (by simp)), ih fun c hc => h c (by simp [hc])]
  have e2 : w.dropWhile p = [] := by
    have := spanOf_text p w
    simp only [spanOf, e1] at this
    simpa using this
  simp [spanOf, e1, e2]

theorem lx_tok {s r : Str} {k : GTok} {R} (hk : ∃ c s', s = c :: s' ∧ c ≠ '\n' ∧ c ≠ ' ' ∧ c ≠ '\t' ∧ c ≠ '\r' ∧ c ≠ '/')
    (hl : lexTok u s = some (k, r)) (h : Lx u s R) : ∃ R', R = k :: R' ∧ Lx u r R' := by
  obtain ⟨n, nl, h⟩ := h
  obtain ⟨c, s', rfl, h1, h2, h3, h4, h5⟩ := hk
  cases n with
  | zero => simp [lexGo] at h
  | succ n =>
    rw [lexGo_tok h1 h2 h3 h4 (fun e => absurd e h5) hl] at h
    cases hr : lexGo u n (endsLine k) r with
    | none => rw [hr] at h; simp at h
    | some R' =>
      rw [hr] at h
      simp only [Option.map_some, Option.some.injEq] at h
      exact ⟨R', h.symm, n, _, hr⟩

theorem lx_word {w rest : Str} {R} (hw : Ident w ∨ w = ['_']) (hr : NotWord u rest) (h : Lx u (w ++ rest) R) :
    ∃ R', R = wordTok w :: R' ∧ Lx u rest R' := by
  have hc : ∃ c s, w = c :: s ∧ isAsciiLetter c = true ∧ ∀ d ∈ w, isWordChar d = true := by
    rcases hw with ⟨c, t, rfl, h1, h2⟩ | rfl
    · refine ⟨c, t, rfl, ?_, ?_⟩
      · simp only [isLower, Bool.and_eq_true, decide_eq_true_eq] at h1
        simp [isAsciiLetter, h1]
      · intro d hd
        rcases List.mem_cons.1 hd with rfl | hd
        · simp [isWordChar, h1]
        · exact h2 d hd
    · exact ⟨'_', [], rfl, by decide, by simp; decide⟩
  obtain ⟨c, s, rfl, hl, hall⟩ := hc
  have hgl : isGoLetter u c = true := by simp [isGoLetter, hl]
  have hsp := spanOf_word (p := fun c => isGoLetter u c || isGoDigit u c) (w := c :: s) (rest := rest) (fun d hd => wordChar_go (hall d hd)) hr
  refine lx_tok ⟨c, s ++ rest, rfl, ?_⟩ ?_ h
  · have n : ∀ d ∈ ['\n', ' ', '\t', '\r', '/'], c ≠ d := by
      intro d hd
      refine letter_ne hgl ?_ ?_ <;> revert d <;> decide
    exact ⟨n _ (by simp), n _ (by simp), n _ (by simp), n _ (by simp), n _ (by simp)⟩
  · rw [List.cons_append] at hsp
    rw [lexTok_eq, if_pos hgl, hsp]
    rfl

theorem lx_delim {k : GTok} {c : Char} {rest : Str} {R} (hk : (k = .lparen ∧ c = '(') ∨ (k = .rparen ∧ c = ')') ∨ (k = .comma ∧ c = ','))
    (h : Lx u (c :: rest) R) : ∃ R', R = k :: R' ∧ Lx u rest R' := by
  have hl : lexTok u (c :: rest) = some (k, rest) := by
    rcases hk with ⟨rfl, rfl⟩ | ⟨rfl, rfl⟩ | ⟨rfl, rfl⟩
    · exact lexTok_stop (k := .lparen) trivial fun _ _ _ => trivial
    · exact lexTok_stop (k := .rparen) trivial fun _ _ _ => trivial
    · exact lexTok_stop (k := .comma) trivial fun _ _ _ => trivial
  refine lx_tok ⟨c, rest, rfl, ?_⟩ hl h
  rcases hk with ⟨-, rfl⟩ | ⟨-, rfl⟩ | ⟨-, rfl⟩ <;> decide

def Sems (ts : List GTok) : Prop := ∀ k ∈ ts, k = .semi

theorem lx_unit {s rest : Str} {R} (hs : SkipUnit s) (h : Lx u (s ++ rest) R) : ∃ sem R', Sems sem ∧ R = sem ++ R' ∧ Lx u rest R' := by
  have newline : ∀ {R}, Lx u ('\n' :: rest) R → ∃ sem R', Sems sem ∧ R = sem ++ R' ∧ Lx u rest R' := by
    rintro R ⟨n, nl, h⟩
    cases n with
    | zero => simp [lexGo] at h
    | succ n =>
      rw [lexGo_cons, if_pos rfl] at h
      split at h
      · cases hr : lexGo u n false rest with
        | none => rw [hr] at h; simp at h
        | some R' =>
          rw [hr] at h
          simp only [Option.map_some, Option.some.injEq] at h
          exact ⟨[.semi], R', by intro k hk; simpa using hk, h.symm, n, _, hr⟩
      · exact ⟨[], R, by intro k hk; simp at hk, rfl, n, _, h⟩
  cases hs with
  | blank c hc =>
    simp only [List.cons_append, List.nil_append] at h
    by_cases hn : c = '\n'
    · subst hn; exact newline h
    · obtain ⟨n, nl, h⟩ := h
      cases n with
      | zero => simp [lexGo] at h
      | succ n =>
        have hc' : c = ' ' ∨ c = '\t' ∨ c = '\r' := by
          simp only [isBlank, Bool.or_eq_true, beq_iff_eq] at hc
          rcases hc with ((h | h) | h) | h
          · exact .inl h
          · exact .inr (.inl h)
          · exact .inr (.inr h)
          · exact absurd h hn
        rw [lexGo_cons, if_neg hn, if_pos hc'] at h
        exact ⟨[], R, by intro k hk; simp at hk, rfl, n, _, h⟩
  | comment t ht =>
    obtain ⟨n, nl, h⟩ := h
    cases n with
    | zero => simp [lexGo] at h
    | succ n =>
      simp only [List.cons_append, List.append_assoc, List.nil_append] at h
      rw [lexGo_cons, if_neg (by decide), if_neg (by decide)] at h
      simp only at h
      have hd : (t ++ '\n' :: rest).dropWhile (· != '\n') = '\n' :: rest := by
        clear h
        induction t with
        | nil => simp [List.dropWhile]
        | cons c t ih =>
          simp only [List.mem_cons, not_or] at ht
          have : (c != '\n') = true := by simpa using fun e => ht.1 e.symm
          rw [List.cons_append, List.dropWhile_cons, if_pos this]
          exact ih ht.2
      rw [hd] at h
      exact newline ⟨n, _, h⟩

theorem lx_skip {s rest : Str} {R} (hs : Skip s) (h : Lx u (s ++ rest) R) : ∃ sem R', Sems sem ∧ R = sem ++ R' ∧ Lx u rest R' := by
  induction hs generalizing R with
  | nil => exact ⟨[], R, by intro k hk; simp at hk, rfl, h⟩
  | cons hu _ ih =>
    rw [List.append_assoc] at h
    obtain ⟨s1, R1, h1, rfl, h2⟩ := lx_unit hu h
    obtain ⟨s2, R2, h3, rfl, h4⟩ := ih h2
    refine ⟨s1 ++ s2, R2, ?_, by simp, h4⟩
    intro k hk
    rcases List.mem_append.1 hk with hk | hk
    · exact h1 k hk
    · exact h3 k hk

theorem notWord_skip {s rest : Str} (hs : Skip s) (hr : NotWord u rest) : NotWord u (s ++ rest) := by
  cases hs with
  | nil => exact hr
  | cons hu _ =>
    cases hu with
    | blank c hc =>
      refine notWord_ascii ?_ ?_ ?_ <;> simp only [isBlank, Bool.or_eq_true, beq_iff_eq] at hc <;>
        rcases hc with ((rfl | rfl) | rfl) | rfl <;> decide
    | comment t _ => exact notWord_ascii (by decide) (by decide) (by decide)

/-! ## Tokens of a call -/

mutual
inductive ArgToks : List GTok → Prop where
  | word {s} : (Ident s ∨ s = ['_']) → ArgToks [wordTok s]
  | call {f s0 a s1 m} : Ident f → Sems s0 → ArgToks a → Sems s1 → MoreToks m →
      ArgToks (wordTok f :: .lparen :: (s0 ++ a ++ s1 ++ m ++ [.rparen]))
inductive MoreToks : List GTok → Prop where
  | nil : MoreToks []
  | cons {s0 a s1 m} : Sems s0 → ArgToks a → Sems s1 → MoreToks m → MoreToks (.comma :: (s0 ++ a ++ s1 ++ m))
end

def IsCallToks : List GTok → Prop
  | _ :: .lparen :: _ => True
  | _ => False

def IsExpr : Value → Prop
  | .expr _ => True
  | _ => False

theorem moreArgs_notWord {go m rest} (h : MoreArgs go m) (hr : NotWord u rest) : NotWord u (m ++ rest) := by
  cases h with
  | nil => exact hr
  | cons => exact notWord_ascii (by decide) (by decide) (by decide)

theorem lx_expr {go : Str → GoExpr → Prop} {t v} (h : ExprText go t v) : ∀ {rest R}, NotWord u rest → Lx u (t ++ rest) R →
    ∃ ts R', ArgToks ts ∧ R = ts ++ R' ∧ Lx u rest R' ∧ (IsExpr v → IsCallToks ts) := by
  refine ExprText.rec (go := go)
    (motive_1 := fun t v _ => ∀ {rest R}, NotWord u rest → Lx u (t ++ rest) R →
      ∃ ts R', ArgToks ts ∧ R = ts ++ R' ∧ Lx u rest R' ∧ (IsExpr v → IsCallToks ts))
    (motive_2 := fun m _ => ∀ {rest R}, NotWord u rest → Lx u (m ++ rest) R → ∃ ts R', MoreToks ts ∧ R = ts ++ R' ∧ Lx u rest R')
    ?_ ?_ ?_ ?_ ?_ h
  · intro s hs rest R hr hl
    obtain ⟨R', rfl, h'⟩ := lx_word (.inl hs) hr hl
    exact ⟨_, R', .word (.inl hs), rfl, h', fun h => h.elim⟩
  · intro rest R hr hl
    obtain ⟨R', rfl, h'⟩ := lx_word (.inr rfl) hr hl
    exact ⟨_, R', .word (.inr rfl), rfl, h', fun h => h.elim⟩
  · intro f s0 a v s1 m e hf h0 ha h1 hm hgo iha ihm rest R hr hl
    have e1 : f ++ '(' :: s0 ++ a ++ s1 ++ m ++ [')'] ++ rest = f ++ '(' :: (s0 ++ (a ++ (s1 ++ (m ++ ')' :: rest)))) := by simp
    rw [e1] at hl
    have n1 : NotWord u (')' :: rest) := notWord_ascii (by decide) (by decide) (by decide)
    have n2 := moreArgs_notWord hm n1
    have n3 := notWord_skip h1 n2
    obtain ⟨R1, rfl, hl1⟩ := lx_word (.inl hf) (notWord_ascii (by decide) (by decide) (by decide)) hl
    obtain ⟨R2, rfl, hl2⟩ := lx_delim (.inl ⟨rfl, rfl⟩) hl1
    obtain ⟨t0, R3, ht0, rfl, hl3⟩ := lx_skip h0 hl2
    obtain ⟨ta, R4, hta, rfl, hl4, -⟩ := iha n3 hl3
    obtain ⟨t1, R5, ht1, rfl, hl5⟩ := lx_skip h1 hl4
    obtain ⟨tm, R6, htm, rfl, hl6⟩ := ihm n1 hl5
    obtain ⟨R7, rfl, hl7⟩ := lx_delim (.inr (.inl ⟨rfl, rfl⟩)) hl6
    exact ⟨_, R7, .call hf ht0 hta ht1 htm, by simp, hl7, fun _ => trivial⟩
  · intro rest R hr hl
    exact ⟨[], R, .nil, rfl, hl⟩
  · intro s0 a v s1 m h0 ha h1 hm iha ihm rest R hr hl
    have e1 : ',' :: s0 ++ a ++ s1 ++ m ++ rest = ',' :: (s0 ++ (a ++ (s1 ++ (m ++ rest)))) := by simp
    rw [e1] at hl
    have n2 := moreArgs_notWord hm hr
    have n3 := notWord_skip h1 n2
    obtain ⟨R2, rfl, hl2⟩ := lx_delim (.inr (.inr ⟨rfl, rfl⟩)) hl
    obtain ⟨t0, R3, ht0, rfl, hl3⟩ := lx_skip h0 hl2
    obtain ⟨ta, R4, hta, rfl, hl4, -⟩ := iha n3 hl3
    obtain ⟨t1, R5, ht1, rfl, hl5⟩ := lx_skip h1 hl4
    obtain ⟨tm, R6, htm, rfl, hl6⟩ := ihm hr hl5
    exact ⟨_, R6, .cons ht0 hta ht1 htm, by simp, hl6⟩

/-! ## Parsing them -/

/-- Tokens after which an operand is over. -/
def Over : List GTok → Prop
  | [] => True
  | .semi :: _ => True
  | .rparen :: _ => True
  | .comma :: _ => True
  | _ => False

theorem over_sem {s1 m rest : List GTok} (h1 : Sems s1) (hm : MoreToks m) : Over (s1 ++ m ++ .rparen :: rest) := by
  cases s1 with
  | cons k s1 => have := h1 k (by simp); subst this; trivial
  | nil =>
    cases hm with
    | nil => trivial
    | cons => trivial

def IsCall : GoExpr → Prop
  | .call .. => True
  | _ => False

theorem pSuffix_over {n x rest r} (hr : Over rest) (h : pSuffix u n x rest = some r) : r = (x, rest) := by
  cases n with
  | zero => simp [pSuffix] at h
  | succ n =>
    have : NoSuffix rest := by
      cases rest with
      | nil => trivial
      | cons k rest => cases k <;> first | trivial | exact hr.elim
    rw [pSuffix_stop this] at h
    simpa using h.symm

theorem pBinary_over {n p x rest r} (hr : Over rest) (h : pBinary u n p x rest = some r) : r = (x, rest) := by
  cases n with
  | zero => simp [pBinary] at h
  | succ n =>
    rw [pBinary_stop (fun o ts' e => by subst e; exact hr.elim)] at h
    simpa using h.symm

theorem pExpr_semi {n p ts} : pExpr u n p (.semi :: ts) = none := by
  cases n with
  | zero => simp [pExpr]
  | succ n => cases n <;> simp [pExpr, pUnary]

theorem pExpr_other {n p ts} : pExpr u n p (.other :: ts) = none := by
  cases n with
  | zero => simp [pExpr]
  | succ n => cases n <;> simp [pExpr, pUnary]

theorem argToks_head {ts} (h : ArgToks ts) (rest : List GTok) : ∀ ts', ts ++ rest ≠ .rparen :: ts' := by
  intro ts' e
  cases h with
  | word _ => unfold wordTok at e; split at e <;> simp at e
  | call _ => unfold wordTok at e; split at e <;> simp at e

theorem parse_args (n : Nat) :
    (∀ m, m ≤ n → ∀ ts rest p x r, ArgToks ts → Over rest → pExpr u m p (ts ++ rest) = some (x, r) → ArgShape x ∧ r = rest ∧ (IsCallToks ts → IsCall x)) ∧
    (∀ m, m ≤ n → ∀ s0 a s1 mo rest xs r, Sems s0 → ArgToks a → Sems s1 → MoreToks mo →
      pArgs u m (s0 ++ a ++ s1 ++ mo ++ .rparen :: rest) = some (xs, r) → xs ≠ [] ∧ ArgShapes xs ∧ r = rest) := by
  induction n with
  | zero =>
    constructor
    · intro m hm ts rest p x r _ _ h
      have : m = 0 := by omega
      subst this; simp [pExpr] at h
    · intro m hm s0 a s1 mo rest xs r _ _ _ _ h
      have : m = 0 := by omega
      subst this; simp [pArgs] at h
  | succ n ih =>
    obtain ⟨iE, iA⟩ := ih
    constructor
    · intro m hm ts rest p x r hts hr h
      cases m with
      | zero => simp [pExpr] at h
      | succ m =>
        rw [pExpr] at h
        cases hu : pUnary u m (ts ++ rest) with
        | none => rw [hu] at h; simp at h
        | some z =>
          obtain ⟨y, r1⟩ := z
          rw [hu] at h
          simp only at h
          have key : ArgShape y ∧ r1 = rest ∧ (IsCallToks ts → IsCall y) := by
            cases m with
            | zero => simp [pUnary] at hu
            | succ m =>
              cases hts with
              | @word s hs =>
                unfold wordTok at hu
                split at hu
                · simp [pUnary] at hu
                · simp only [List.cons_append, List.nil_append, pUnary_ident] at hu
                  have := pSuffix_over hr hu
                  simp only [Prod.mk.injEq] at this
                  obtain ⟨rfl, rfl⟩ := this
                  exact ⟨hs, rfl, fun h => h.elim⟩
              | @call f s0 a s1 mo hf h0 ha h1 hmo =>
                unfold wordTok at hu
                split at hu
                · simp [pUnary] at hu
                · simp only [List.cons_append, pUnary_ident] at hu
                  cases m with
                  | zero => simp [pSuffix] at hu
                  | succ m =>
                    have e : (s0 ++ a ++ s1 ++ mo ++ [GTok.rparen]) ++ rest = s0 ++ a ++ s1 ++ mo ++ .rparen :: rest := by simp
                    rw [pSuffix, e] at hu
                    cases hA : pArgs u m (s0 ++ a ++ s1 ++ mo ++ .rparen :: rest) with
                    | none => rw [hA] at hu; simp at hu
                    | some z =>
                      obtain ⟨args, r2⟩ := z
                      obtain ⟨k1, k2, rfl⟩ := iA m (by omega) _ _ _ _ _ _ _ h0 ha h1 hmo hA
                      rw [hA] at hu
                      have := pSuffix_over hr hu
                      simp only [Prod.mk.injEq] at this
                      obtain ⟨rfl, rfl⟩ := this
                      exact ⟨⟨hf, k1, k2⟩, rfl, fun _ => trivial⟩
          obtain ⟨k1, rfl, k3⟩ := key
          have := pBinary_over hr h
          simp only [Prod.mk.injEq] at this
          obtain ⟨rfl, rfl⟩ := this
          exact ⟨k1, rfl, k3⟩
    · intro m hm s0 a s1 mo rest xs r h0 ha h1 hmo h
      cases m with
      | zero => simp [pArgs] at h
      | succ m =>
        cases s0 with
        | cons k s0 =>
          have := h0 k (by simp)
          subst this
          rw [pArgs_eq (by intro ts' e; simp at e)] at h
          simp only [List.cons_append, pExpr_semi] at h
          simp at h
        | nil =>
          have e : [] ++ a ++ s1 ++ mo ++ GTok.rparen :: rest = a ++ (s1 ++ mo ++ .rparen :: rest) := by simp
          rw [e, pArgs_eq (argToks_head ha _)] at h
          cases hE : pExpr u m 1 (a ++ (s1 ++ mo ++ .rparen :: rest)) with
          | none => rw [hE] at h; simp at h
          | some z =>
            obtain ⟨y, r1⟩ := z
            obtain ⟨k1, rfl, -⟩ := iE m (by omega) _ _ _ _ _ ha (over_sem h1 hmo) hE
            rw [hE] at h
            cases s1 with
            | cons k s1 =>
              have := h1 k (by simp)
              subst this
              simp at h
            | nil =>
              cases hmo with
              | nil =>
                simp at h
                obtain ⟨rfl, rfl⟩ := h
                exact ⟨by simp, ⟨k1, trivial⟩, rfl⟩
              | @cons t0 a' t1 mo' g0 ga g1 gm =>
                simp only [List.nil_append, List.cons_append] at h
                cases hA : pArgs u m (t0 ++ a' ++ t1 ++ mo' ++ .rparen :: rest) with
                | none => rw [hA] at h; simp at h
                | some z =>
                  obtain ⟨args, r2⟩ := z
                  obtain ⟨g1, g2, rfl⟩ := iA m (by omega) _ _ _ _ _ _ _ g0 ga g1 gm hA
                  rw [hA] at h
                  simp only [Option.map_some, Option.some.injEq, Prod.mk.injEq] at h
                  obtain ⟨rfl, rfl⟩ := h
                  exact ⟨by simp, ⟨k1, g2⟩, rfl⟩

/-- What the text of a call denotes. -/
theorem callShape_of_text {go : Str → GoExpr → Prop} (hgo : ∀ t e, go t e → goSyntax u t = some e) {t e} (h : ExprText go t (.expr e)) : CallShape e := by
  have hg : goSyntax u t = some e := by
    cases h with
    | call _ _ _ _ _ hg => exact hgo _ _ hg
  unfold goSyntax lexAll at hg
  cases hm : noMarks t with
  | none => rw [hm] at hg; simp at hg
  | some t' =>
    have : t' = t := by
      have hne : HeadIs (· ≠ '\uFEFF') t := by
        cases h with
        | call hf => 
          obtain ⟨c, s, rfl, hc, -⟩ := hf
          refine headIs_cons.2 ?_
          rintro rfl
          revert hc; decide
      unfold noMarks at hm
      split at hm
      · exact absurd rfl (headIs_cons.1 hne)
      · simp only at hm
        split at hm
        · simp at hm
        · simpa using hm.symm
    subst this
    rw [hm] at hg
    simp only [Option.bind_some] at hg
    cases hl : lexGo u (t'.length + 1) false t' with
    | none => rw [hl] at hg; simp at hg
    | some R =>
      rw [hl] at hg
      simp only [Option.bind_some] at hg
      obtain ⟨ts, R', h1, rfl, h2, h3⟩ := lx_expr (u := u) h (rest := []) headIs_nil ⟨_, _, by simpa using hl⟩
      have hR : R' = [] := by
        obtain ⟨n, nl, h2⟩ := h2
        cases n with
        | zero => simp [lexGo] at h2
        | succ n => simpa [lexGo] using h2
      subst hR
      unfold parseToks at hg
      cases hE : pExpr u (4 * (ts ++ []).length + 4) 1 (ts ++ []) with
      | none => rw [hE] at hg; simp at hg
      | some z =>
        obtain ⟨x, r⟩ := z
        obtain ⟨k1, rfl, k3⟩ := (parse_args (u := u) _).1 _ (Nat.le_refl _) ts [] _ _ _ h1 trivial hE
        rw [hE] at hg
        simp only [Option.some.injEq] at hg
        subst hg
        refine ⟨k1, ?_⟩
        have := k3 (h3 trivial)
        cases x with
        | call fn p args q r => exact ⟨fn, p, args, q, r, rfl⟩
        | _ => exact this.elim

end
end Verif.Proof

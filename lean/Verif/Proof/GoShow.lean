import Verif.Proof.GoWords
/-!
# The printed form of a Go expression is read back by the reference scanner and parser
-/
namespace Verif.Proof
open Verif Verif.Spec

def pieceText : Piece → Str
  | .tok k => tokText k
  | .blank => [' ']

/-- The text of a sequence of pieces. -/
def gText (ps : List Piece) : Str := ps.flatMap pieceText

@[simp] theorem gText_nil : gText [] = [] := rfl
@[simp] theorem gText_tok (k : GTok) (ps) : gText (.tok k :: ps) = tokText k ++ gText ps := rfl
@[simp] theorem gText_blank (ps) : gText (.blank :: ps) = ' ' :: gText ps := rfl
@[simp] theorem gText_append (a b : List Piece) : gText (a ++ b) = gText a ++ gText b := by simp [gText]

mutual
theorem show_eq : ∀ e : GoExpr, showGo e = gText (pieces e)
  | .ident _ n => by simp [showGo, pieces, tokText]
  | .basicLit _ k v => by simp [showGo, pieces, tokText]
  | .paren _ x _ => by simp [showGo, pieces, tokText, show_eq x]
  | .unary _ op x => by simp [showGo, pieces, tokText, show_eq x]
  | .star _ x => by simp [showGo, pieces, tokText, show_eq x, Tok.str]
  | .binary x _ op y => by
    simp only [showGo, pieces, show_eq x, show_eq y, showBinOp, gText_append]
    split <;> simp [tokText]
  | .call fn _ args _ _ => by simp [showGo, pieces, tokText, show_eq fn, showArgs_eq args]
  | .selector x _ sel => by simp [showGo, pieces, tokText, show_eq x]
  | .other _ => rfl
  | .nil => rfl
theorem showArgs_eq : ∀ es : List GoExpr, showGoArgs es = gText (argPieces es)
  | [] => rfl
  | e :: es => by simp [showGoArgs, argPieces, show_eq e, showArgsTail_eq es]
theorem showArgsTail_eq : ∀ es : List GoExpr, showGoArgsTail es = gText (argPiecesTail es)
  | [] => rfl
  | e :: es => by simp [showGoArgsTail, argPiecesTail, show_eq e, showArgsTail_eq es, tokText]
end

/-! ## Neighbours -/

/-- Neighbouring pieces are related. -/
def Chain (R : Piece → Piece → Prop) : List Piece → Prop
  | a :: b :: l => R a b ∧ Chain R (b :: l)
  | _ => True

theorem chain_append {R} : ∀ {xs ys}, Chain R xs → Chain R ys → (∀ a b, xs.getLast? = some a → ys.head? = some b → R a b) → Chain R (xs ++ ys)
  | [], ys, _, hy, _ => hy
  | [a], [], _, _, _ => trivial
  | [a], b :: ys, _, hy, h => ⟨h a b rfl rfl, hy⟩
  | a :: b :: xs, ys, hx, hy, h => by
    refine ⟨hx.1, ?_⟩
    exact chain_append (xs := b :: xs) hx.2 hy fun a' b' ha hb => h a' b' (by simpa using ha) hb

theorem chain_mono {R S : Piece → Piece → Prop} : ∀ {xs}, Chain R xs → (∀ pre a b post, xs = pre ++ a :: b :: post → R a b → S a b) → Chain S xs
  | [], _, _ => trivial
  | [a], _, _ => trivial
  | a :: b :: xs, hx, h =>
    ⟨h [] a b xs rfl hx.1, chain_mono hx.2 fun pre a' b' post e => h (a :: pre) a' b' post (by rw [e]; rfl)⟩

def isEnd : GTok → Prop
  | .ident _ | .lit .. | .rparen => True
  | _ => False
def gIsCont : GTok → Prop
  | .op o => 4 ≤ o.level
  | .lparen | .rparen | .comma | .period => True
  | _ => False
def isOpen (u : GoVersion) : GTok → Prop
  | .op o => o ∈ unaryOps u ∨ 4 ≤ o.level
  | .lparen => True
  | _ => False
def isStart (u : GoVersion) : GTok → Prop
  | .ident _ | .lit .. | .lparen => True
  | .op o => o ∈ unaryOps u ∨ o = .mul
  | _ => False

/-- Which tokens the printer writes next to each other. -/
def Link (u : GoVersion) : Piece → Piece → Prop
  | .tok a, .tok b => (isEnd a ∧ gIsCont b) ∨ (isOpen u a ∧ isStart u b) ∨ (a = .lparen ∧ b = .rparen) ∨ (a = .period ∧ ∃ s, b = .ident s)
  | _, _ => True

/-- What holds of the pieces of an expression. -/
structure Printed (u : GoVersion) (ps : List Piece) : Prop where
  chain : Chain (Link u) ps
  ok : ∀ k, .tok k ∈ ps → TokOK u k
  start : ∃ k, ps.head? = some (.tok k) ∧ isStart u k
  fin : ∃ k, ps.getLast? = some (.tok k) ∧ isEnd k

theorem Printed.one {u k} (h : TokOK u k) (hs : isStart u k) (he : isEnd k) : Printed u [.tok k] :=
  ⟨trivial, by simpa using h, ⟨k, rfl, hs⟩, ⟨k, rfl, he⟩⟩

theorem Printed.ne {u ps} (h : Printed u ps) : ps ≠ [] := by
  rintro rfl
  obtain ⟨k, hk, -⟩ := h.start
  simp at hk

/-- A token in front. -/
theorem Printed.cons {u ps k} (h : Printed u ps) (hk : TokOK u k) (hs : isStart u k) (ho : isOpen u k) : Printed u (.tok k :: ps) := by
  obtain ⟨k', hk', hs'⟩ := h.start
  obtain ⟨k'', hk'', he''⟩ := h.fin
  refine ⟨?_, ?_, ⟨k, rfl, hs⟩, ⟨k'', ?_, he''⟩⟩
  · refine chain_append (xs := [.tok k]) trivial h.chain fun a b ha hb => ?_
    simp only [List.getLast?_singleton, Option.some.injEq] at ha
    rw [hk'] at hb
    simp only [Option.some.injEq] at hb
    subst ha hb
    exact .inr (.inl ⟨ho, hs'⟩)
  · intro j hj
    rcases List.mem_cons.1 hj with e | hj
    · cases e; exact hk
    · exact h.ok j hj
  · rw [List.getLast?_cons, hk'']; rfl

/-- Pieces behind that begin with a continuation or a blank, and end as an expression does. -/
theorem Printed.append {u ps qs} (h : Printed u ps) (hc : Chain (Link u) qs) (hok : ∀ k, .tok k ∈ qs → TokOK u k)
    (hh : ∀ k, qs.head? = some (.tok k) → gIsCont k) (hl : qs ≠ [] → ∃ k, qs.getLast? = some (.tok k) ∧ isEnd k) : Printed u (ps ++ qs) := by
  obtain ⟨k', hk', hs'⟩ := h.start
  obtain ⟨k'', hk'', he''⟩ := h.fin
  refine ⟨?_, ?_, ⟨k', ?_, hs'⟩, ?_⟩
  · refine chain_append h.chain hc fun a b ha hb => ?_
    rw [hk''] at ha
    simp only [Option.some.injEq] at ha
    subst ha
    cases b with
    | blank => trivial
    | tok b => exact .inl ⟨he'', hh b hb⟩
  · intro j hj
    rcases List.mem_append.1 hj with hj | hj
    · exact h.ok j hj
    · exact hok j hj
  · rw [List.head?_append, hk']; rfl
  · by_cases hq : qs = []
    · subst hq; exact ⟨k'', by simpa using hk'', he''⟩
    · obtain ⟨k, hk, he⟩ := hl hq
      exact ⟨k, by rw [List.getLast?_append, hk]; rfl, he⟩

theorem tokOK_unary {u o} (h : o ∈ unaryOps u) : TokOK u (.op o) := by
  unfold unaryOps at h
  cases hu : u.tilde with
  | true =>
    rw [hu] at h
    simp at h
    rcases h with rfl | rfl | rfl | rfl | rfl | rfl | rfl <;> simp [TokOK, hu]
  | false =>
    rw [hu] at h
    simp at h
    rcases h with rfl | rfl | rfl | rfl | rfl | rfl <;> trivial

theorem tokOK_binary {u} {o : Tok} (h : 1 ≤ o.level) : TokOK u (.op o) := by
  cases o <;> first | trivial | simp [Tok.level] at h

mutual
theorem printed (u : GoVersion) : ∀ e, GoWF u e → Printed u (pieces e)
  | .ident _ n, h => Printed.one h.2 trivial trivial
  | .basicLit _ k v, h => Printed.one h.2 trivial trivial
  | .paren _ x _, h => by
    have hx := (printed u x h.2.2).cons (k := .lparen) trivial trivial trivial
    exact hx.append (qs := [.tok .rparen]) trivial (by simp [TokOK]) (by simp [gIsCont]) fun _ => ⟨.rparen, rfl, trivial⟩
  | .unary _ op x, h => (printed u x h.2.2.1).cons (tokOK_unary h.2.1) (.inl h.2.1) (.inl h.2.1)
  | .star _ x, h => (printed u x h.2.1).cons trivial (.inr rfl) (.inr (by decide))
  | .binary x _ op y, h => by
    obtain ⟨-, hp, hx, -, hy, -⟩ := h
    have px := printed u x hx
    have py := printed u y hy
    obtain ⟨ky, hky, hsy⟩ := py.start
    obtain ⟨ky', hky', hey⟩ := py.fin
    have hop : TokOK u (.op op) := tokOK_binary hp
    have hlast : ∀ l : List Piece, (l ++ pieces y).getLast? = some (.tok ky') := by
      intro l; rw [List.getLast?_append, hky']; rfl
    unfold pieces
    split
    · rw [List.append_assoc]
      refine px.append (qs := [.blank, .tok (.op op), .blank] ++ pieces y) ?_ ?_ ?_ fun _ => ⟨ky', hlast _, hey⟩
      · refine chain_append (xs := [.blank, .tok (.op op), .blank]) ⟨trivial, trivial, trivial⟩ py.chain fun a b ha hb => ?_
        simp at ha; subst ha; trivial
      · intro j hj
        rcases List.mem_append.1 hj with hj | hj
        · simp at hj; subst hj; exact hop
        · exact py.ok j hj
      · intro k hk; simp at hk
    · rename_i hlt
      have h4 : 4 ≤ op.level := by omega
      rw [List.append_assoc]
      refine px.append (qs := [.tok (.op op)] ++ pieces y) ?_ ?_ ?_ fun _ => ⟨ky', hlast _, hey⟩
      · refine chain_append (xs := [.tok (.op op)]) trivial py.chain fun a b ha hb => ?_
        simp at ha; subst ha
        rw [hky] at hb; simp at hb; subst hb
        exact .inr (.inl ⟨.inr h4, hsy⟩)
      · intro j hj
        rcases List.mem_append.1 hj with hj | hj
        · simp at hj; subst hj; exact hop
        · exact py.ok j hj
      · intro k hk; simp at hk; subst hk; exact h4
  | .call fn _ args _ _, h => by
    obtain ⟨-, -, -, hf, -, ha⟩ := h
    have pf := printed u fn hf
    obtain ⟨a1, a2, a3, a4⟩ := printedArgs u args ha
    unfold pieces
    rw [List.append_assoc]
    refine pf.append ?_ ?_ ?_ fun _ => ⟨.rparen, ?_, trivial⟩
    · refine chain_append (xs := .tok .lparen :: argPieces args) ?_ trivial fun a b hla hb => ?_
      · refine chain_append (xs := [.tok .lparen]) trivial a1 fun a b hla hb => ?_
        simp at hla; subst hla
        obtain ⟨k, rfl, hk⟩ := a3 b hb
        exact .inr (.inl ⟨trivial, hk⟩)
      · simp at hb; subst hb
        rw [List.getLast?_cons] at hla
        cases hl : (argPieces args).getLast? with
        | none =>
          rw [hl] at hla
          simp at hla; subst hla
          exact .inr (.inr (.inl ⟨rfl, rfl⟩))
        | some z =>
          rw [hl] at hla
          simp at hla; subst hla
          obtain ⟨k, rfl, hk⟩ := a4 z hl
          exact .inl ⟨hk, trivial⟩
    · intro j hj
      simp at hj
      rcases hj with rfl | hj | rfl
      · trivial
      · exact a2 j hj
      · trivial
    · intro k hk; simp at hk; subst hk; trivial
    · rw [List.getLast?_append]; rfl
  | .selector x _ sel, h => by
    obtain ⟨-, hx, -, hs⟩ := h
    refine (printed u x hx).append (qs := [.tok .period, .tok (.ident sel)]) ⟨.inr (.inr (.inr ⟨rfl, _, rfl⟩)), trivial⟩ ?_ ?_
      fun _ => ⟨.ident sel, rfl, trivial⟩
    · intro j hj
      simp at hj
      rcases hj with rfl | rfl
      · trivial
      · exact hs
    · intro k hk; simp at hk; subst hk; trivial
  | .other _, h => h.elim
  | .nil, h => h.elim
theorem printedArgs (u : GoVersion) : ∀ es, GoWFs u es → Chain (Link u) (argPieces es) ∧ (∀ k, .tok k ∈ argPieces es → TokOK u k) ∧
    (∀ p, (argPieces es).head? = some p → ∃ k, p = .tok k ∧ isStart u k) ∧ (∀ p, (argPieces es).getLast? = some p → ∃ k, p = .tok k ∧ isEnd k)
  | [], _ => ⟨trivial, by simp [argPieces], by simp [argPieces], by simp [argPieces]⟩
  | e :: es, h => by
    have pe := printed u e h.1
    obtain ⟨t1, t2, t3, t4⟩ := printedTail u es h.2
    have hp : Printed u (pieces e ++ argPiecesTail es) := by
      refine pe.append t1 t2 ?_ ?_
      · intro k hk; rw [t3 _ hk]; trivial
      · intro hne
        cases hl : (argPiecesTail es).getLast? with
        | none => exact absurd (List.getLast?_eq_none_iff.1 hl) hne
        | some z => obtain ⟨k, rfl, hk⟩ := t4 z hl; exact ⟨k, rfl, hk⟩
    refine ⟨hp.chain, hp.ok, ?_, ?_⟩
    · intro p h'
      obtain ⟨k, hk, hs⟩ := hp.start
      refine ⟨k, ?_, hs⟩
      have : some p = some (.tok k) := h'.symm.trans hk
      simpa using this
    · intro p h'
      obtain ⟨k, hk, hs⟩ := hp.fin
      refine ⟨k, ?_, hs⟩
      have : some p = some (.tok k) := h'.symm.trans hk
      simpa using this
theorem printedTail (u : GoVersion) : ∀ es, GoWFs u es → Chain (Link u) (argPiecesTail es) ∧ (∀ k, .tok k ∈ argPiecesTail es → TokOK u k) ∧
    (∀ k, (argPiecesTail es).head? = some (.tok k) → k = .comma) ∧ (∀ p, (argPiecesTail es).getLast? = some p → ∃ k, p = .tok k ∧ isEnd k)
  | [], _ => ⟨trivial, by simp [argPiecesTail], by simp [argPiecesTail], by simp [argPiecesTail]⟩
  | e :: es, h => by
    have pe := printed u e h.1
    obtain ⟨t1, t2, t3, t4⟩ := printedTail u es h.2
    have hp : Printed u (pieces e ++ argPiecesTail es) := by
      refine pe.append t1 t2 ?_ ?_
      · intro k hk; rw [t3 _ hk]; trivial
      · intro hne
        cases hl : (argPiecesTail es).getLast? with
        | none => exact absurd (List.getLast?_eq_none_iff.1 hl) hne
        | some z => obtain ⟨k, rfl, hk⟩ := t4 z hl; exact ⟨k, rfl, hk⟩
    have e1 : argPiecesTail (e :: es) = [.tok .comma, .blank] ++ (pieces e ++ argPiecesTail es) := rfl
    rw [e1]
    refine ⟨?_, ?_, ?_, ?_⟩
    · refine chain_append (xs := [.tok .comma, .blank]) ⟨trivial, trivial⟩ hp.chain fun a b ha hb => ?_
      simp at ha; subst ha; trivial
    · intro j hj
      rcases List.mem_append.1 hj with hj | hj
      · simp at hj; subst hj; trivial
      · exact hp.ok j hj
    · intro k hk; simpa using hk.symm
    · intro p h'
      obtain ⟨k, hk, hs⟩ := hp.fin
      rw [List.getLast?_append, hk] at h'
      exact ⟨k, by simpa using h'.symm, hs⟩
end

/-! ## Separation -/

instance (c : Char) : Decidable (plainStop c) := by unfold plainStop; infer_instance

theorem mem_unary {u : GoVersion} {o : Tok} (h : o ∈ unaryOps u) :
    o = .add ∨ o = .sub ∨ o = .not ∨ o = .xor ∨ o = .and ∨ o = .arrow ∨ o = .other ['~'] := by
  unfold unaryOps at h
  rcases List.mem_append.1 h with h | h
  · simp only [List.mem_cons, List.not_mem_nil, or_false] at h
    rcases h with h | h | h | h | h | h <;> simp [h]
  · split at h
    · simp at h; simp [h]
    · simp at h

/-- First characters of names and literals. -/
def WordChar (u : GoVersion) (c : Char) : Prop := isGoLetter u c = true ∨ isDec c = true ∨ c = '.' ∨ c = '"' ∨ c = '\'' ∨ c = '`'

theorem gword_head {u : GoVersion} {k : GTok} (hk : TokOK u k) (hw : isWord k = true) : ∃ c s, tokText k = c :: s ∧ WordChar u c := by
  have key : ∀ s : Str, lexTok u s = some (k, []) → ∃ c s', s = c :: s' ∧ WordChar u c := by
    intro s h
    cases s with
    | nil => simp [lexTok] at h
    | cons c s =>
      refine ⟨c, s, rfl, ?_⟩
      cases lexTok_word h hw with
      | ident w hc => exact .inl hc
      | num kd hc hn =>
        simp only [numStart, Bool.or_eq_true, Bool.and_eq_true, beq_iff_eq] at hn
        rcases hn with hn | hn
        · exact .inr (.inl hn)
        · exact .inr (.inr (.inl hn.1))
      | str n t hc => exact .inr (.inr (.inr (.inl hc)))
      | chr t hc => exact .inr (.inr (.inr (.inr (.inl hc))))
      | raw t hc => exact .inr (.inr (.inr (.inr (.inr hc))))
  cases k with
  | ident s => exact key s hk.1
  | lit kd s => exact key s hk.1
  | _ => simp [isWord] at hw

theorem tokText_ne {u : GoVersion} {k : GTok} (hk : TokOK u k) : tokText k ≠ [] := by
  cases k with
  | ident s => obtain ⟨c, s', h, -⟩ := gword_head hk rfl; simp [h]
  | lit kd s => obtain ⟨c, s', h, -⟩ := gword_head hk rfl; simp [h]
  | op o =>
    cases o with
    | other s => simp [tokText, Tok.str, hk.1]
    | _ => simp [tokText, Tok.str]
  | semi => exact hk.elim
  | other => exact hk.elim
  | _ => simp [tokText]

/-- ASCII characters that are not letters. -/
theorem wordChar_ne {u : GoVersion} {c d : Char} (h : WordChar u c) (hd : d.toNat < 0x80) (hl : isAsciiLetter d = false) (hn : isDec d = false)
    (hq : d ≠ '.' ∧ d ≠ '"' ∧ d ≠ '\'' ∧ d ≠ '`') : c ≠ d := by
  rintro rfl
  rcases h with h | h | h | h | h | h
  · rw [not_letter hd hl] at h; simp at h
  · rw [hn] at h; simp at h
  · exact hq.1 h
  · exact hq.2.1 h
  · exact hq.2.2.1 h
  · exact hq.2.2.2 h

theorem letter_ne {u : GoVersion} {c d : Char} (h : isGoLetter u c = true) (hd : d.toNat < 0x80) (hl : isAsciiLetter d = false) : c ≠ d := by
  rintro rfl
  rw [not_letter hd hl] at h; simp at h

/-- Neighbouring pieces can be told apart. -/
def Apart (u : GoVersion) : Piece → Piece → Prop
  | .tok a, .tok b => HeadIs (Sep u a) (tokText b)
  | .tok a, .blank => Sep u a ' '
  | .blank, _ => True

theorem sep_blank {u : GoVersion} (a : GTok) : Sep u a ' ' := by
  have h1 : isGoLetter u ' ' = false := not_letter (by decide) (by decide)
  have h2 : isGoDigit u ' ' = false := not_digit (by decide) (by decide)
  have hp : plainStop ' ' := by decide
  cases a with
  | ident s => simp [Sep, h1, h2]
  | lit k s => cases k <;> simp [Sep, hp]
  | op o => cases o <;> simp [Sep]
  | period => simp [Sep, isDec]
  | _ => trivial

def opNext (o : Tok) (c : Char) : Prop :=
  match o with
  | .add => c ≠ '+'
  | .sub => c ≠ '-'
  | .and => c ≠ '&' ∧ c ≠ '^'
  | .quo => c ≠ '/' ∧ c ≠ '*'
  | .or => c ≠ '|'
  | _ => True

theorem op_sep {u : GoVersion} {o : Tok} {c : Char} (ho : o ∈ unaryOps u ∨ 4 ≤ o.level) (hc : c ≠ '=') (h : opNext o c) : Sep u (.op o) c := by
  have hl : o ≠ .lss := by
    rintro rfl
    rcases ho with ho | ho
    · have := mem_unary ho; simp at this
    · simp [Tok.level] at ho
  have hg : o ≠ .gtr := by
    rintro rfl
    rcases ho with ho | ho
    · have := mem_unary ho; simp at this
    · simp [Tok.level] at ho
  cases o <;> first | exact absurd rfl hl | exact absurd rfl hg | exact ⟨hc, h⟩

theorem apart_of_link {u : GoVersion} {a b : GTok} (hl : Link u (.tok a) (.tok b)) (hf : ¬ Fuses a b) (hb : TokOK u b) :
    HeadIs (Sep u a) (tokText b) := by
  rcases hl with ⟨ha, hb'⟩ | ⟨ha, hs⟩ | ⟨rfl, rfl⟩ | ⟨rfl, s, rfl⟩
  · -- an operand, then something else
    have key : ∀ c s, tokText b = c :: s → c.toNat < 0x80 ∧ plainStop c ∧ (c = '.' → b = .period) := by
      intro c s e
      cases b with
      | op o =>
        cases o <;> simp [gIsCont, Tok.level] at hb' <;> simp [tokText, Tok.str] at e <;> obtain ⟨rfl, -⟩ := e <;> decide
      | lparen => simp [tokText] at e; obtain ⟨rfl, -⟩ := e; decide
      | rparen => simp [tokText] at e; obtain ⟨rfl, -⟩ := e; decide
      | comma => simp [tokText] at e; obtain ⟨rfl, -⟩ := e; decide
      | period => simp [tokText] at e; obtain ⟨rfl, -⟩ := e; decide
      | _ => exact hb'.elim
    intro c s e
    obtain ⟨k1, k2, k3⟩ := key c s e
    cases a with
    | ident s => simp [Sep, not_letter k1 k2.1, not_digit k1 k2.2]
    | lit k s =>
      cases k with
      | int => exact ⟨k2, fun hd => hf (by rw [k3 hd]; trivial)⟩
      | float => exact k2
      | imag => exact k2
      | char => trivial
      | string => trivial
    | rparen => trivial
    | _ => exact ha.elim
  · -- an operator or bracket, then an operand
    cases a with
    | lparen => intro c s _; trivial
    | op o =>
      by_cases hw : isWord b = true
      · obtain ⟨c, s, e, hc⟩ := gword_head hb hw
        rw [e, headIs_cons]
        have n : ∀ d ∈ ['=', '+', '-', '&', '^', '/', '*', '|'], c ≠ d := by
          intro d hd
          refine wordChar_ne hc ?_ ?_ ?_ ?_ <;> revert d <;> decide
        refine op_sep ha (n _ (by simp)) ?_
        cases o <;> first | trivial | exact n _ (by simp) | exact ⟨n _ (by simp), n _ (by simp)⟩
      · cases b with
        | ident => simp [isWord] at hw
        | lit => simp [isWord] at hw
        | lparen =>
          refine headIs_cons.2 (op_sep ha (by decide) ?_)
          cases o <;> first | trivial | (simp only [opNext]; decide)
        | op p =>
          have hp : p = .add ∨ p = .sub ∨ p = .not ∨ p = .xor ∨ p = .and ∨ p = .arrow ∨ p = .other ['~'] ∨ p = .mul := by
            rcases hs with hs | hs
            · rcases mem_unary hs with h | h | h | h | h | h | h <;> simp [h]
            · simp [hs]
          rcases hp with rfl | rfl | rfl | rfl | rfl | rfl | rfl | rfl <;> refine headIs_cons.2 (op_sep ha (by decide) ?_) <;>
            cases o <;> first | trivial | (simp only [opNext]; decide) | exact absurd trivial hf
        | _ => exact hs.elim
    | _ => exact ha.elim
  · intro c s _; trivial
  · obtain ⟨c, s', e, hc⟩ := gword_head hb rfl
    rw [e, headIs_cons]
    have hl : isGoLetter u c = true := by
      obtain ⟨h1, -⟩ := hb
      have e' : s = c :: s' := e
      rw [e'] at h1
      cases lexTok_word h1 rfl with
      | ident w hc => exact hc
      | num _ _ _ _ e => simp at e
      | str _ _ _ _ e => simp at e
      | chr _ _ _ e => simp at e
      | raw _ _ _ e => simp at e
    refine ⟨?_, letter_ne hl (by decide) (by decide)⟩
    cases hd : isDec c with
    | false => rfl
    | true =>
      exfalso
      have : ∀ c, isGoLetter u c = true → isDec c = true → False := by
        intro c hl hd
        simp only [isDec, Bool.and_eq_true, decide_eq_true_eq] at hd
        have h9 : c.toNat ≤ '9'.toNat := hd.2
        have h0 : '0'.toNat ≤ c.toNat := hd.1
        have e9 : '9'.toNat = 57 := by decide
        have e0 : '0'.toNat = 48 := by decide
        simp only [isGoLetter, isAsciiLetter, Bool.or_eq_true, Bool.and_eq_true, decide_eq_true_eq, beq_iff_eq] at hl
        rcases hl with ((⟨h, -⟩ | ⟨h, -⟩) | rfl) | ⟨h, -⟩
        · have : 'a'.toNat ≤ c.toNat := h
          have ea : 'a'.toNat = 97 := by decide
          omega
        · have : 'A'.toNat ≤ c.toNat := h
          have ea : 'A'.toNat = 65 := by decide
          omega
        · revert h9; decide
        · omega
      exact this c hl hd

theorem apart {u : GoVersion} {ps} (h : Printed u ps) (hf : NoFuse ps) : Chain (Apart u) ps := by
  refine chain_mono h.chain fun pre a b post e hl => ?_
  cases a with
  | blank => cases b <;> trivial
  | tok a =>
    cases b with
    | blank => exact sep_blank a
    | tok b => exact apart_of_link hl (hf pre a b post e) (h.ok b (by rw [e]; simp))

/-! ## Scanning -/

/-- The first character of a token, and the one after it, are not read as white space or as the beginning of a comment. -/
theorem tok_head {u : GoVersion} {k : GTok} (hk : TokOK u k) {c s} (h : tokText k = c :: s) : c ≠ '\n' ∧ c ≠ ' ' ∧ c ≠ '\t' ∧ c ≠ '\r' ∧ (c = '/' → k = .op .quo) := by
  by_cases hw : isWord k = true
  · obtain ⟨c', s', e, hc⟩ := gword_head hk hw
    rw [h] at e
    simp only [List.cons.injEq] at e
    obtain ⟨rfl, rfl⟩ := e
    have n : ∀ d ∈ ['\n', ' ', '\t', '\r', '/'], c ≠ d := by
      intro d hd
      refine wordChar_ne hc ?_ ?_ ?_ ?_ <;> revert d <;> decide
    exact ⟨n _ (by simp), n _ (by simp), n _ (by simp), n _ (by simp), fun e => absurd e (n _ (by simp))⟩
  · cases k with
    | ident => simp [isWord] at hw
    | lit => simp [isWord] at hw
    | op o =>
      cases o with
      | other t =>
        have e : t = c :: s := h
        rw [hk.1] at e
        simp only [List.cons.injEq] at e
        obtain ⟨rfl, -⟩ := e
        exact ⟨by decide, by decide, by decide, by decide, fun e => absurd e (by decide)⟩
      | _ => simp [tokText, Tok.str] at h <;> obtain ⟨rfl, -⟩ := h <;> simp
    | semi => exact hk.elim
    | other => exact hk.elim
    | _ => simp [tokText] at h <;> obtain ⟨rfl, -⟩ := h <;> simp

theorem lexGo_tok {u : GoVersion} {n nl c s k r} (h1 : c ≠ '\n') (h2 : c ≠ ' ') (h3 : c ≠ '\t') (h4 : c ≠ '\r')
    (h5 : c = '/' → HeadIs (fun d => d ≠ '/' ∧ d ≠ '*') s) (h : lexTok u (c :: s) = some (k, r)) :
    lexGo u (n + 1) nl (c :: s) = (lexGo u n (endsLine k) r).map (k :: ·) := by
  rw [lexGo_cons, if_neg h1, if_neg (by simp [h2, h3, h4])]
  split
  · exact absurd rfl (headIs_cons.1 (h5 rfl)).1
  · exact absurd rfl (headIs_cons.1 (h5 rfl)).2
  · rw [h]

theorem head_text {u : GoVersion} {p : Char → Prop} {a : Piece} {ps : List Piece} (hok : ∀ k, .tok k ∈ a :: ps → TokOK u k)
    (h : HeadIs p (pieceText a)) : HeadIs p (gText (a :: ps)) := by
  have : pieceText a ≠ [] := by
    cases a with
    | blank => simp [pieceText]
    | tok k => exact tokText_ne (hok k (by simp))
  show HeadIs p (pieceText a ++ gText ps)
  cases ht : pieceText a with
  | nil => exact absurd ht this
  | cons c s => rw [ht] at h; exact headIs_cons.2 (headIs_cons.1 h)

theorem lexGo_pieces {u : GoVersion} : ∀ {ps : List Piece}, (∀ k, .tok k ∈ ps → TokOK u k) → Chain (Apart u) ps →
    ∀ {n nl}, (gText ps).length < n → lexGo u n nl (gText ps) = some (toksOf ps)
  | [], _, _, n + 1, nl, _ => by simp [lexGo]
  | .blank :: ps, hok, hc, n + 1, nl, hn => by
    have hc' : Chain (Apart u) ps := by
      cases ps with
      | nil => trivial
      | cons b ps => exact hc.2
    rw [gText_blank, lexGo_cons, if_neg (by decide), if_pos (by simp)]
    rw [toksOf_blank]
    exact lexGo_pieces (fun k hk => hok k (by simp [hk])) hc' (by simp at hn; omega)
  | .tok k :: ps, hok, hc, n + 1, nl, hn => by
    have hk := hok k (by simp)
    have hok' : ∀ k, .tok k ∈ ps → TokOK u k := fun k hk => hok k (by simp [hk])
    have hc' : Chain (Apart u) ps := by
      cases ps with
      | nil => trivial
      | cons b ps => exact hc.2
    have hsep : HeadIs (Sep u k) (gText ps) := by
      cases ps with
      | nil => exact headIs_nil
      | cons b ps =>
        refine head_text hok' ?_
        have := hc.1
        cases b with
        | blank => exact headIs_cons.2 this
        | tok b => exact this
    have hl := lexTok_stop hk hsep
    rw [gText_tok]
    cases ht : tokText k with
    | nil => exact absurd ht (tokText_ne hk)
    | cons c s =>
      obtain ⟨t1, t2, t3, t4, t5⟩ := tok_head hk ht
      have hlen : (tokText k).length = s.length + 1 := by rw [ht]; rfl
      rw [ht, List.cons_append] at hl
      rw [List.cons_append, lexGo_tok t1 t2 t3 t4 ?_ hl]
      · rw [lexGo_pieces hok' hc' (by simp at hn; omega)]
        rfl
      · intro e
        have hq := t5 e
        subst hq
        have : s = [] := by
          simp [tokText, Tok.str] at ht; exact ht.2
        subst this
        exact hsep.mono fun d hd => hd.2

theorem tokText_marks {u : GoVersion} {k : GTok} (hk : TokOK u k) : '\x00' ∉ tokText k ∧ '\uFEFF' ∉ tokText k := by
  cases k with
  | ident s => exact hk.2
  | lit kd s => exact hk.2
  | op o =>
    cases o with
    | other s => rw [tokText, Tok.str, hk.1]; decide
    | _ => simp only [tokText, Tok.str]; decide
  | semi => exact hk.elim
  | other => exact hk.elim
  | _ => simp only [tokText]; decide

theorem gText_marks {u : GoVersion} : ∀ {ps : List Piece}, (∀ k, .tok k ∈ ps → TokOK u k) → '\x00' ∉ gText ps ∧ '\uFEFF' ∉ gText ps
  | [], _ => by simp
  | .blank :: ps, h => by
    have := gText_marks (ps := ps) fun k hk => h k (by simp [hk])
    simp only [gText_blank, List.mem_cons, not_or]
    exact ⟨⟨by decide, this.1⟩, by decide, this.2⟩
  | .tok k :: ps, h => by
    have := gText_marks (ps := ps) fun k hk => h k (by simp [hk])
    have hk := tokText_marks (h k (by simp))
    simp only [gText_tok, List.mem_append, not_or]
    exact ⟨⟨hk.1, this.1⟩, hk.2, this.2⟩

theorem noMarks_of {t : Str} (h0 : '\x00' ∉ t) (h1 : '\uFEFF' ∉ t) : noMarks t = some t := by
  unfold noMarks
  split
  · rename_i t' ; exact absurd (by simp) h1
  · rw [if_neg]
    simp only [List.any_eq_true, Bool.or_eq_true, beq_iff_eq, not_exists, not_and, not_or]
    intro c hc
    exact ⟨fun e => h0 (e ▸ hc), fun e => h1 (e ▸ hc)⟩

/-- The printed form of a stable expression is read back. -/
theorem goSyntax_show {u : GoVersion} {e : GoExpr} (h : GoStable u e) : goSyntax u (showGo e) = some e := by
  have hp := printed u e h.1
  have hm := gText_marks hp.ok
  unfold goSyntax lexAll
  rw [show_eq, noMarks_of hm.1 hm.2]
  simp only [Option.bind_some]
  rw [lexGo_pieces hp.ok (apart hp h.2) (by omega)]
  exact parseToks_gt h.1

theorem isLeaf_eq (k : GTok) : isLeaf k = isWord k := by cases k <;> rfl

/-- Whatever is read is well formed, and its names and literals come from the text. -/
theorem goSyntax_sound {u : GoVersion} {t e} (h : goSyntax u t = some e) :
    GoWF u e ∧ ∀ k, .tok k ∈ pieces e → WordIn u t k := by
  unfold goSyntax at h
  cases hl : lexAll u t with
  | none => rw [hl] at h; simp at h
  | some ts =>
    rw [hl] at h
    have hw := lexAll_words hl
    have := parseToks_sound (P := fun k => WordIn u t k ∧ (isWord k = true → OneTok u (tokText k) k)) (ts := ts) (e := e)
      (fun s hs => hs.2 rfl) (fun k s hs => hs.2 rfl) (fun k hk _ => hw k hk) h
    refine ⟨this.1, fun k hk hkw => ?_⟩
    exact (this.2 k hk (by rw [isLeaf_eq]; exact hkw)).1 hkw

end Verif.Proof

import Verif.Proof.GoShow
import Verif.Proof.ParseWF
/-!
# The printed form of a stable rule is a text of that rule
-/
namespace Verif.Proof
open Verif Verif.Spec

/-! ## Sub-expressions of stable expressions -/

theorem noFuse_infix {a b c : List Piece} (h : NoFuse (a ++ b ++ c)) : NoFuse b := by
  intro pre x y post e
  exact h (a ++ pre) x y (post ++ c) (by rw [e]; simp)

theorem argPiecesTail_mem {es : List GoExpr} {e} (h : e ∈ es) : ∃ a c, argPiecesTail es = a ++ pieces e ++ c := by
  induction es with
  | nil => simp at h
  | cons x es ih =>
    rcases List.mem_cons.1 h with rfl | h
    · exact ⟨[.tok .comma, .blank], argPiecesTail es, by simp [argPiecesTail]⟩
    · obtain ⟨a, c, hh⟩ := ih h
      exact ⟨.tok .comma :: .blank :: pieces x ++ a, c, by simp [argPiecesTail, hh]⟩

theorem argPieces_mem {es : List GoExpr} {e} (h : e ∈ es) : ∃ a c, argPieces es = a ++ pieces e ++ c := by
  cases es with
  | nil => simp at h
  | cons x es =>
    rcases List.mem_cons.1 h with rfl | h
    · exact ⟨[], argPiecesTail es, by simp [argPieces]⟩
    · obtain ⟨a, c, hh⟩ := argPiecesTail_mem h
      exact ⟨pieces x ++ a, c, by simp [argPieces, hh]⟩

theorem goWFs_mem {u es} (h : GoWFs u es) : ∀ e ∈ es, GoWF u e := by
  induction es with
  | nil => simp
  | cons x es ih =>
    intro e he
    rcases List.mem_cons.1 he with rfl | he
    · exact h.1
    · exact ih h.2 e he

theorem stable_arg {u fn p args q r} (h : GoStable u (.call fn p args q r)) {e} (he : e ∈ args) : GoStable u e := by
  refine ⟨goWFs_mem h.1.2.2.2.2.2 e he, ?_⟩
  obtain ⟨a, c, hh⟩ := argPieces_mem he
  have := h.2
  rw [pieces, hh] at this
  have e1 : pieces fn ++ .tok .lparen :: (a ++ pieces e ++ c) ++ [.tok .rparen] =
      (pieces fn ++ .tok .lparen :: a) ++ pieces e ++ (c ++ [.tok .rparen]) := by simp
  rw [e1] at this
  exact noFuse_infix this

/-! ## Calls -/

section
variable {u : GoVersion} {go : Str → GoExpr → Prop}

theorem skip_nil' : Skip [] := .nil
theorem skip_blank : Skip [' '] := .cons (u := [' ']) (s := []) (.blank ' ' (by decide)) .nil
theorem skip1_blank : Skip1 [' '] := ⟨skip_blank, by simp⟩

/-- A printed argument is an expression of the rules language. -/
def valueOf : GoExpr → Value
  | .ident _ s => .var s
  | e => .expr e

mutual
theorem arg_text (hgo : ∀ e, GoStable u e → go (showGo e) e) : ∀ e, ArgShape e → GoStable u e → ExprText go (showGo e) (valueOf e)
  | .ident p s, h, _ => by
    rcases h with h | rfl
    · exact .var h
    · exact .placeholder
  | .call (.ident p f) q args r t, h, hs => by
    obtain ⟨hf, hne, ha⟩ := h
    have hg := hgo _ hs
    match args, hne, ha with
    | a :: as, _, ha =>
      have h1 := arg_text hgo a ha.1 (stable_arg hs (by simp))
      have h2 := args_text hgo as ha.2 (fun e he => stable_arg hs (by simp [he]))
      have e : showGo (.call (.ident p f) q (a :: as) r t) = f ++ '(' :: [] ++ showGo a ++ [] ++ showGoArgsTail as ++ [')'] := by
        simp [showGo, showGoArgs]
      rw [e] at hg ⊢
      exact .call hf skip_nil' h1 skip_nil' h2 hg
  | .basicLit .., h, _ => h.elim
  | .paren .., h, _ => h.elim
  | .unary .., h, _ => h.elim
  | .binary .., h, _ => h.elim
  | .star .., h, _ => h.elim
  | .selector .., h, _ => h.elim
  | .other _, h, _ => h.elim
  | .nil, h, _ => h.elim
  | .call .nil .., h, _ => h.elim
  | .call (.basicLit ..) .., h, _ => h.elim
  | .call (.paren ..) .., h, _ => h.elim
  | .call (.unary ..) .., h, _ => h.elim
  | .call (.binary ..) .., h, _ => h.elim
  | .call (.call ..) .., h, _ => h.elim
  | .call (.star ..) .., h, _ => h.elim
  | .call (.selector ..) .., h, _ => h.elim
  | .call (.other _) .., h, _ => h.elim
theorem args_text (hgo : ∀ e, GoStable u e → go (showGo e) e) : ∀ es, ArgShapes es → (∀ e ∈ es, GoStable u e) → MoreArgs go (showGoArgsTail es)
  | [], _, _ => .nil
  | e :: es, h, hs => by
    have h1 := arg_text hgo e h.1 (hs e (by simp))
    have h2 := args_text hgo es h.2 (fun e he => hs e (by simp [he]))
    have := MoreArgs.cons skip_blank h1 skip_nil' h2
    simpa [showGoArgsTail] using this
end

theorem call_text (hgo : ∀ e, GoStable u e → go (showGo e) e) {e} (h : CallShape e) (hs : GoStable u e) : ExprText go (showGo e) (.expr e) := by
  obtain ⟨h1, fn, p, args, q, r, rfl⟩ := h
  exact arg_text hgo _ h1 hs

/-! ## Values -/

theorem operands_append {a os b os'} (h : OperandsText go a os) (h' : OperandsText go b os') : OperandsText go (a ++ b) (os ++ os') := by
  refine OperandsText.rec (go := go) (motive_1 := fun _ _ _ => True) (motive_2 := fun a os _ => OperandsText go (a ++ b) (os ++ os'))
    (motive_3 := fun _ _ _ => True) ?_ ?_ ?_ ?_ ?_ ?_ ?_ ?_ h
  · intros; trivial
  · intros; trivial
  · exact h'
  · intro s t o rest os h1 h2 _ _ ih
    have : s ++ t ++ rest ++ b = s ++ t ++ (rest ++ b) := by simp
    rw [this]
    exact .cons h1 h2 ih
  · intros; trivial
  · intros; trivial
  · intros; trivial
  · intros; trivial

theorem operands_one {t o} (h : OperandText go t o) : OperandsText go (' ' :: t) [o] := by
  have := OperandsText.cons skip1_blank h .nil
  simpa using this

def typeOps (t : Str) : List Operand := if t = [] then [] else [.type t]
def auxIntOps : Option GoExpr → List Operand
  | none => []
  | some e => [.auxInt e]
def auxOps : Option GoExpr → List Operand
  | none => []
  | some e => [.aux e]

theorem type_text {t : Str} (h : '>' ∉ t) : OperandsText go (showType t) (typeOps t) := by
  unfold showType typeOps
  split
  · exact .nil
  · rename_i hne; exact operands_one (.type hne h)

theorem showGo_ne {e} (h : GoWF u e) : showGo e ≠ [] := by
  have hp := printed u e h
  rw [show_eq]
  cases hps : pieces e with
  | nil => exact absurd hps hp.ne
  | cons a ps =>
    have hok := hp.ok
    rw [hps] at hok
    cases a with
    | blank => simp
    | tok k => have := tokText_ne (hok k (by simp)); simp [this]

theorem auxInt_text (hgo : ∀ e, GoStable u e → go (showGo e) e) {o} (h : Opt (fun e => GoStable u e ∧ ']' ∉ showGo e) o) :
    OperandsText go (showAuxInt o) (auxIntOps o) := by
  cases o with
  | none => exact .nil
  | some e => exact operands_one (.auxInt (showGo_ne h.1.1) h.2 (hgo _ h.1))
theorem aux_text (hgo : ∀ e, GoStable u e → go (showGo e) e) {o} (h : Opt (fun e => GoStable u e ∧ '}' ∉ showGo e) o) :
    OperandsText go (showAux o) (auxOps o) := by
  cases o with
  | none => exact .nil
  | some e => exact operands_one (.aux (showGo_ne h.1.1) h.2 (hgo _ h.1))

theorem lastType_ops (t : Str) (a b : Option GoExpr) (args : List Value) :
    lastType (typeOps t ++ auxIntOps a ++ auxOps b ++ args.map .arg) = t := by
  have e : typesOf (args.map .arg) = [] := by induction args <;> simp_all [typesOf]
  have e1 : typesOf (auxIntOps a) = [] := by cases a <;> rfl
  have e2 : typesOf (auxOps b) = [] := by cases b <;> rfl
  have ap : ∀ x y, typesOf (x ++ y) = typesOf x ++ typesOf y := by intro x y; simp [typesOf]
  unfold lastType
  rw [ap, ap, ap, e, e1, e2]
  unfold typeOps
  split
  · rename_i h; subst h; rfl
  · rfl
theorem lastAuxInt_ops (t : Str) (a b : Option GoExpr) (args : List Value) :
    lastAuxInt (typeOps t ++ auxIntOps a ++ auxOps b ++ args.map .arg) = a := by
  unfold lastAuxInt
  have e : List.filterMap (fun _ : Value => (none : Option GoExpr)) args = [] := by induction args <;> simp_all
  unfold typeOps
  cases a <;> cases b <;> split <;> simp [auxIntOps, auxOps, Function.comp_def, e]
theorem lastAux_ops (t : Str) (a b : Option GoExpr) (args : List Value) :
    lastAux (typeOps t ++ auxIntOps a ++ auxOps b ++ args.map .arg) = b := by
  unfold lastAux
  have e : List.filterMap (fun _ : Value => (none : Option GoExpr)) args = [] := by induction args <;> simp_all
  unfold typeOps
  cases a <;> cases b <;> split <;> simp [auxIntOps, auxOps, Function.comp_def, e]
theorem argsOf_ops (t : Str) (a b : Option GoExpr) (args : List Value) :
    argsOf (typeOps t ++ auxIntOps a ++ auxOps b ++ args.map .arg) = args := by
  have e : argsOf (args.map .arg) = args := by induction args <;> simp_all [argsOf]
  have ap : ∀ x y, argsOf (x ++ y) = argsOf x ++ argsOf y := by intro x y; simp [argsOf]
  have e1 : argsOf (auxIntOps a) = [] := by cases a <;> rfl
  have e2 : argsOf (auxOps b) = [] := by cases b <;> rfl
  have e0 : argsOf (typeOps t) = [] := by unfold typeOps; split <;> rfl
  rw [ap, ap, ap, e, e0, e1, e2]; rfl

theorem mark_text (mark : Str) (b : Bool) : MarkText mark (if b then ' ' :: mark else []) b := by
  cases b with
  | false => exact .none
  | true => exact .some skip1_blank

theorem dots_eq : " ...".toList = ' ' :: ['.', '.', '.'] := by decide +kernel
theorem trail_eq : " ___".toList = ' ' :: ['_', '_', '_'] := by decide +kernel

theorem binding_text {b : Str} (h : b = [] ∨ Ident b) : BindingText (showBinding b) b := by
  unfold showBinding
  split
  · rename_i h; subst h; exact .none
  · rename_i hne; exact .some (h.resolve_left hne)

mutual
theorem value_text (hgo : ∀ e, GoStable u e → go (showGo e) e) : ∀ v, ValueStable u v → ValueText go (showValue v) v
  | .var s, h => by
    rcases h with h | rfl
    · exact .expr (.var h)
    · exact .expr .placeholder
  | .expr e, h => .expr (call_text hgo h.1 h.2)
  | .nil, h => h.elim
  | .sexpr h args, hs => by
    obtain ⟨hb, ho, ht, hai, ha, hargs⟩ := hs
    have h1 := operands_append (operands_append (operands_append (type_text ht) (auxInt_text hgo hai)) (aux_text hgo ha)) (values_text hgo args hargs)
    have := ValueText.sexpr (binding_text hb) skip_nil' ho h1 (mark_text ['.', '.', '.'] h.ellipsis) (mark_text ['_', '_', '_'] h.trailing) skip_nil'
    rw [lastType_ops, lastAuxInt_ops, lastAux_ops, argsOf_ops] at this
    have e : showValue (.sexpr h args) = showBinding h.binding ++ '(' :: [] ++ showOp h.op ++
        (showType h.type ++ showAuxInt h.auxInt ++ showAux h.aux ++ showArgs args) ++
        (if h.ellipsis = true then [' ', '.', '.', '.'] else []) ++ (if h.trailing = true then [' ', '_', '_', '_'] else []) ++ [] ++ [')'] := by
      rw [showValue, dots_eq, trail_eq]
      simp [List.append_assoc]
    rw [e]
    exact this
theorem values_text (hgo : ∀ e, GoStable u e → go (showGo e) e) : ∀ vs, ValuesStable u vs → OperandsText go (showArgs vs) (vs.map .arg)
  | [], _ => .nil
  | v :: vs, h => by
    have := operands_append (operands_one (.arg (value_text hgo v h.1))) (values_text hgo vs h.2)
    simpa [showArgs] using this
end

/-! ## Ends of printed expressions -/

/-- Last characters of names and literals. -/
def WordEnd (u : GoVersion) (c : Char) : Prop :=
  isGoLetter u c = true ∨ isGoDigit u c = true ∨ c = '.' ∨ c = '+' ∨ c = '-' ∨ c = '"' ∨ c = '\'' ∨ c = '`'

theorem spanOf_all {p : Char → Bool} {s : Str} : ∀ c ∈ (spanOf p s).1, p c = true := by
  intro c hc
  induction s with
  | nil => simp [spanOf] at hc
  | cons d s ih =>
    cases hd : p d with
    | true =>
      simp only [spanOf, List.takeWhile, hd, List.mem_cons] at hc ih
      rcases hc with rfl | hc
      · exact hd
      · exact ih hc
    | false => simp [spanOf, List.takeWhile, hd] at hc

theorem dec_wordEnd {c} (h : isDec c = true) : WordEnd u c := .inr (.inl (by simp [isGoDigit, h]))
theorem ascii_wordEnd {c} (h : isAsciiLetter c = true) : WordEnd u c := .inl (by simp [isGoLetter, h])

theorem digits_wordEnd {hex c} (h : digits hex c = true) : WordEnd u c := by
  by_cases hp : plainStop c
  · rw [digits_stop hp] at h; simp at h
  · unfold plainStop at hp
    cases h1 : isAsciiLetter c with
    | true => exact ascii_wordEnd h1
    | false =>
      cases h2 : isDec c with
      | true => exact dec_wordEnd h2
      | false => exact absurd ⟨h1, h2⟩ hp

theorem number_chars (s : Str) : ∀ c ∈ (numParts s).text, WordEnd u c := by
  have hpre : ∀ c ∈ (numPrefix s).1, WordEnd u c := by
    unfold numPrefix
    split <;> simp <;> exact ⟨dec_wordEnd (by decide), ascii_wordEnd (by decide)⟩
  have hfrac : ∀ hex t, ∀ c ∈ (fracOf hex t).1, WordEnd u c := by
    intro hex t
    unfold fracOf; split
    · intro c hc
      rcases List.mem_cons.1 hc with rfl | hc
      · exact .inr (.inr (.inl rfl))
      · exact digits_wordEnd (spanOf_all c hc)
    · simp
  have hexp : ∀ t, ∀ c ∈ (expOf t).1, WordEnd u c := by
    intro t
    by_cases hh : HeadIs (fun c => isExpChar c = false) t
    · rw [expOf_none hh]; simp
    · cases t with
      | nil => exact absurd headIs_nil hh
      | cons x s =>
        have hx : isExpChar x = true := by
          cases hx : isExpChar x with
          | true => rfl
          | false => exact absurd (headIs_cons.2 hx) hh
        rw [expOf_exp hx]
        intro c hc
        simp only [List.cons_append, List.mem_cons, List.mem_append] at hc
        rcases hc with rfl | hc | hc
        · exact ascii_wordEnd (isExpChar_letter hx)
        · revert hc
          unfold signOf
          split <;> simp
          · rintro rfl; exact .inr (.inr (.inr (.inl rfl)))
          · rintro rfl; exact .inr (.inr (.inr (.inr (.inl rfl))))
        · exact digits_wordEnd (spanOf_all c hc)
  have hsuf : ∀ t, ∀ c ∈ (sufOf t).1, WordEnd u c := by
    intro t
    unfold sufOf; split
    · simp; exact ascii_wordEnd (by decide)
    · simp
  intro c hc
  simp only [numParts, NumParts.text, List.mem_append] at hc
  rcases hc with (((hc | hc) | hc) | hc) | hc
  · exact hpre c hc
  · exact digits_wordEnd (spanOf_all c hc)
  · exact hfrac _ _ c hc
  · exact hexp _ c hc
  · exact hsuf _ c hc

theorem quoted_last {q : Char} : ∀ {s : Str} {st n t r}, quoted q st s = some (n, t, r) → t.getLast? = some q
  | [], st, n, t, r, h => by simp [quoted] at h
  | c :: s, st, n, t, r, h => by
    unfold quoted at h
    by_cases hc : (c = q && st.isBody) = true
    · rw [if_pos hc] at h
      simp only [Option.some.injEq, Prod.mk.injEq] at h
      simp only [Bool.and_eq_true, decide_eq_true_eq] at hc
      rw [← h.2.1, hc.1]; rfl
    · rw [if_neg hc] at h
      cases hq : qStep q st c with
      | none => rw [hq] at h; simp at h
      | some st' =>
        rw [hq] at h
        simp only at h
        cases hrec : quoted q st' s with
        | none => rw [hrec] at h; simp at h
        | some z =>
          obtain ⟨m, t', r'⟩ := z
          rw [hrec] at h
          simp only [Option.map_some, Option.some.injEq, Prod.mk.injEq] at h
          obtain ⟨-, rfl, -⟩ := h
          rw [List.getLast?_cons, quoted_last hrec]; rfl

theorem rawBody_last : ∀ {s : Str} {t r}, rawBody s = some (t, r) → t.getLast? = some '`'
  | [], t, r, h => by simp [rawBody] at h
  | c :: s, t, r, h => by
    by_cases hc : c = '`'
    · subst hc
      simp only [rawBody, Option.some.injEq, Prod.mk.injEq] at h
      obtain ⟨rfl, rfl⟩ := h; rfl
    · rw [rawBody_cons hc] at h
      cases hrec : rawBody s with
      | none => rw [hrec] at h; simp at h
      | some z =>
        obtain ⟨t', r'⟩ := z
        rw [hrec] at h
        simp only [Option.map_some, Option.some.injEq, Prod.mk.injEq] at h
        obtain ⟨rfl, -⟩ := h
        rw [List.getLast?_cons, rawBody_last hrec]; rfl

theorem word_last {k : GTok} (hk : TokOK u k) (hw : isWord k = true) : ∃ c, (tokText k).getLast? = some c ∧ WordEnd u c := by
  have last_of : ∀ {s : Str}, s ≠ [] → (∀ c ∈ s, WordEnd u c) → ∃ c, s.getLast? = some c ∧ WordEnd u c := by
    intro s hs h
    cases hl : s.getLast? with
    | none => exact absurd (List.getLast?_eq_none_iff.1 hl) hs
    | some c => exact ⟨c, rfl, h c (List.mem_of_getLast? hl)⟩
  have key : ∀ s : Str, s = tokText k → lexTok u s = some (k, []) → ∃ c, s.getLast? = some c ∧ WordEnd u c := by
    intro s hs h
    cases s with
    | nil => simp [lexTok] at h
    | cons c s =>
      cases lexTok_word h hw with
      | ident w hc hsp hkw e =>
        subst e
        rw [hs]
        have hn : w ≠ [] := by rintro rfl; simp [tokText] at hs
        refine last_of hn fun d hd => ?_
        have := spanOf_all (p := fun c => isGoLetter u c || isGoDigit u c) (s := c :: s) d (by rw [hsp]; exact hd)
        simp only [Bool.or_eq_true] at this
        rcases this with h | h
        · exact .inl h
        · exact .inr (.inl h)
      | num kd hc hn hnum e =>
        subst e
        rw [hs]
        refine last_of (by rw [← hs]; simp) fun d hd => number_chars _ d hd
      | str n t hc hq e =>
        subst e
        rw [hs]
        refine ⟨'"', ?_, by simp [WordEnd]⟩
        simp only [tokText]
        rw [List.getLast?_cons, quoted_last hq]; rfl
      | chr t hc hq e =>
        subst e
        rw [hs]
        refine ⟨'\'', ?_, by simp [WordEnd]⟩
        simp only [tokText]
        rw [List.getLast?_cons, quoted_last hq]; rfl
      | raw t hc hq e =>
        subst e
        rw [hs]
        refine ⟨'`', ?_, by simp [WordEnd]⟩
        have h1 := rawBody_last (rawBody_again hq).1
        simp only [tokText]
        rw [List.getLast?_cons, h1]; rfl
  cases k with
  | ident s => exact key s rfl hk.1
  | lit kd s => exact key s rfl hk.1
  | _ => simp [isWord] at hw

theorem ascii_not_space {c : Char} (h : isAsciiLetter c = true ∨ isDec c = true) : c.toNat ∉ whiteSpace := by
  have hr : (48 ≤ c.toNat ∧ c.toNat ≤ 57) ∨ (65 ≤ c.toNat ∧ c.toNat ≤ 122) := by
    simp only [isAsciiLetter, isDec, Bool.or_eq_true, Bool.and_eq_true, decide_eq_true_eq, beq_iff_eq] at h
    rcases h with ((⟨h1, h2⟩ | ⟨h1, h2⟩) | rfl) | ⟨h1, h2⟩
    · have a : 'a'.toNat ≤ c.toNat := h1
      have b : c.toNat ≤ 'z'.toNat := h2
      have e1 : 'a'.toNat = 97 := by decide
      have e2 : 'z'.toNat = 122 := by decide
      omega
    · have a : 'A'.toNat ≤ c.toNat := h1
      have b : c.toNat ≤ 'Z'.toNat := h2
      have e1 : 'A'.toNat = 65 := by decide
      have e2 : 'Z'.toNat = 90 := by decide
      omega
    · decide
    · have a : '0'.toNat ≤ c.toNat := h1
      have b : c.toNat ≤ '9'.toNat := h2
      have e1 : '0'.toNat = 48 := by decide
      have e2 : '9'.toNat = 57 := by decide
      omega
  intro hm
  simp only [whiteSpace, List.mem_cons, List.not_mem_nil, or_false] at hm
  omega

theorem letter_not_space {c : Char} (h : isGoLetter u c = true) : c.toNat ∉ whiteSpace := by
  simp only [isGoLetter, Bool.or_eq_true, Bool.and_eq_true] at h
  rcases h with h | ⟨-, h⟩
  · exact ascii_not_space (.inl h)
  · exact u.letter_not_space c h
theorem digit_not_space {c : Char} (h : isGoDigit u c = true) : c.toNat ∉ whiteSpace := by
  simp only [isGoDigit, Bool.or_eq_true, Bool.and_eq_true] at h
  rcases h with h | ⟨-, h⟩
  · exact ascii_not_space (.inr h)
  · exact u.digit_not_space c h

theorem wordEnd_not_space {c : Char} (h : WordEnd u c) : c.toNat ∉ whiteSpace := by
  rcases h with h | h | h | h | h | h | h | h
  · exact letter_not_space h
  · exact digit_not_space h
  all_goals subst h; decide
theorem wordChar_not_space {c : Char} (h : WordChar u c) : c.toNat ∉ whiteSpace := by
  rcases h with h | h | h | h | h | h
  · exact letter_not_space h
  · exact ascii_not_space (.inr h)
  all_goals subst h; decide

theorem wordEnd_ne_eq {c : Char} (h : WordEnd u c) : c ≠ '=' := by
  rintro rfl
  rcases h with h | h | h | h | h | h | h | h
  · rw [not_letter (by decide) (by decide)] at h; simp at h
  · rw [not_digit (by decide) (by decide)] at h; simp at h
  all_goals revert h; decide

/-- First and last character of a printed expression. -/
theorem show_ends {e} (h : GoWF u e) :
    (∃ c s, showGo e = c :: s ∧ c.toNat ∉ whiteSpace ∧ c ≠ '/' ∧ isBlank c = false) ∧ ∃ c, (showGo e).getLast? = some c ∧ c.toNat ∉ whiteSpace := by
  have hp := printed u e h
  rw [show_eq]
  constructor
  · obtain ⟨k, hk, hs⟩ := hp.start
    cases hps : pieces e with
    | nil => exact absurd hps hp.ne
    | cons a ps =>
      have hok := hp.ok
      rw [hps] at hk hok
      simp at hk; subst hk
      have hkok := hok k (by simp)
      rw [gText_tok]
      cases ht : tokText k with
      | nil => exact absurd ht (tokText_ne hkok)
      | cons c s =>
        refine ⟨c, s ++ gText ps, rfl, ?_⟩
        have key : c.toNat ∉ whiteSpace ∧ c ≠ '/' := by
          by_cases hw : isWord k = true
          · obtain ⟨c', s', e', hc⟩ := gword_head hkok hw
            rw [ht] at e'
            simp only [List.cons.injEq] at e'
            obtain ⟨rfl, -⟩ := e'
            exact ⟨wordChar_not_space hc, wordChar_ne hc (by decide) (by decide) (by decide) (by decide)⟩
          · cases k with
            | ident => simp [isWord] at hw
            | lit => simp [isWord] at hw
            | lparen => simp [tokText] at ht; obtain ⟨rfl, -⟩ := ht; decide
            | op o =>
              rcases hs with hs | rfl
              · rcases mem_unary hs with h | h | h | h | h | h | h <;> subst h <;> simp [tokText, Tok.str] at ht <;>
                  obtain ⟨rfl, -⟩ := ht <;> decide
              · simp [tokText, Tok.str] at ht; obtain ⟨rfl, -⟩ := ht; decide
            | _ => exact hs.elim
        refine ⟨key.1, key.2, ?_⟩
        cases hb : isBlank c with
        | false => rfl
        | true =>
          simp only [isBlank, Bool.or_eq_true, beq_iff_eq] at hb
          rcases hb with ((rfl | rfl) | rfl) | rfl <;> exact absurd (by decide) key.1
  · obtain ⟨k, hk, he⟩ := hp.fin
    have hkok := hp.ok k (List.mem_of_getLast? hk)
    have : ∃ c, (tokText k).getLast? = some c ∧ c.toNat ∉ whiteSpace := by
      by_cases hw : isWord k = true
      · obtain ⟨c, hc, hce⟩ := word_last hkok hw
        exact ⟨c, hc, wordEnd_not_space hce⟩
      · cases k with
        | ident => simp [isWord] at hw
        | lit => simp [isWord] at hw
        | rparen => exact ⟨')', rfl, by decide⟩
        | _ => exact he.elim
    obtain ⟨c, hc, hcs⟩ := this
    obtain ⟨ps, hps⟩ := List.getLast?_eq_some_iff.1 hk
    refine ⟨c, ?_, hcs⟩
    rw [hps, gText_append, List.getLast?_append]
    have : (gText [Piece.tok k]).getLast? = some c := by simpa using hc
    rw [this]; rfl

/-! ## Rules and files -/

theorem map_newline {s : Str} (h : '\n' ∉ s) : s.map (fun d => if d = '\n' then ' ' else d) = s := by
  induction s with
  | nil => rfl
  | cons c s ih =>
    simp only [List.mem_cons, not_or] at h
    rw [List.map_cons, ih h.2, if_neg (fun e => h.1 e.symm)]

theorem noArrow_tail {s : Str} (h : NoArrow s) : NoArrow s.tail := by
  rintro ⟨a, b, e⟩
  cases s with
  | nil => simp at e
  | cons c s => exact h ⟨c :: a, b, by simp at e; simp [e]⟩

theorem cond_text (hgo : ∀ e, GoStable u e → go (showGo e) e) {o} (h : Opt (fun e => GoStable u e ∧ NoArrow (showGo e) ∧ '\n' ∉ showGo e) o) :
    CondText go (showCond o ++ [' ']) o := by
  cases o with
  | none => exact .none skip_blank
  | some e =>
    obtain ⟨hs, ha, hn⟩ := h
    obtain ⟨⟨c, s, hcs, hsp, hsl, hbl⟩, c', hl, hsp'⟩ := show_ends hs.1
    have := CondText.some (go := go) (t := showGo e) (e := e) (s0 := [' ']) (s1 := [' ']) (raw := showGo e) (c := ' ') skip1_blank skip1_blank
      (showGo_ne hs.1) (noArrow_tail ha) (by decide)
      (by intro d hd; rw [hcs] at hd; simp at hd; subst hd; exact hbl)
      (by intro x hx; rw [hcs] at hx; simp at hx; exact absurd hx.1 hsl)
      ⟨[], [], by rw [map_newline hn]; simp, by simp, (by intro d hd; rw [hcs] at hd; simp at hd; subst hd; exact hsp),
        (by intro d hd; rw [hl] at hd; simp at hd; subst hd; exact hsp')⟩ (hgo e hs)
    simpa [showCond] using this

theorem block_text {b : Str} (h : ∀ c ∈ b, c ≠ ' ' ∧ c ≠ '\t' ∧ c ≠ '\r') : BlockText (' ' :: showBlock b) b := by
  unfold showBlock
  split
  · rename_i e; subst e; exact .none skip_blank
  · rename_i hne
    have := BlockText.some skip_blank hne h (.inl rfl) skip_nil'
    simpa using this

theorem rule_text (hgo : ∀ e, GoStable u e → go (showGo e) e) {r} (h : RuleStable u r) : RuleText go (showRule r) r := by
  obtain ⟨hm, hc, hb, hr⟩ := h
  have := RuleText.mk (value_text hgo _ hm) (cond_text hgo hc) (block_text hb) (value_text hgo _ hr)
  simpa [showRule] using this

theorem skip_newline : Skip ['\n'] := .cons (u := ['\n']) (s := []) (.blank '\n' (by decide)) .nil

theorem file_text (hgo : ∀ e, GoStable u e → go (showGo e) e) : ∀ {rs : List Rule}, (∀ r ∈ rs, RuleStable u r) →
    FileText go (rs.flatMap fun r => showRule r ++ ['\n']) rs
  | [], _ => .nil
  | r :: rs, h => by
    have h1 := rule_text hgo (h r (by simp))
    have h2 := file_text hgo (rs := rs) fun r hr => h r (by simp [hr])
    have hf : Follow r.result (['\n'] ++ rs.flatMap fun r => showRule r ++ ['\n']) := by
      cases r.result with
      | var v =>
        simp only [Follow, List.cons_append, List.head?_cons]
        split
        · simp
        · refine ⟨by intro c hc; simp at hc; subst hc; decide, ?_⟩
          rintro ⟨s0, x, s1, rest, e, -⟩
          simp at e
      | _ => trivial
    have := FileText.cons skip_nil' h1 skip_newline hf h2
    simpa using this

end

/-! ## The library -/

theorem rejects_of_follows {u : GoVersion} {lib : GoLib} (h : FollowsGo u lib) : RejectsComment lib := by
  intro t hn
  rintro ⟨e, he⟩
  rw [h] at he
  unfold goSyntax lexAll at he
  cases hm : noMarks ('/' :: '/' :: t) with
  | none => rw [hm] at he; simp at he
  | some t' =>
    have : t' = '/' :: '/' :: t := by
      unfold noMarks at hm
      split at hm
      · rename_i e; simp at e
      · simp only at hm
        split at hm
        · simp at hm
        · simpa using hm.symm
    subst this
    rw [hm] at he
    have hd : t.dropWhile (· != '\n') = [] := by
      clear he hm
      induction t with
      | nil => rfl
      | cons c t ih =>
        simp only [List.mem_cons, not_or] at hn
        have : (c != '\n') = true := by simpa using fun e => hn.1 e.symm
        rw [List.dropWhile_cons, if_pos this]
        exact ih hn.2
    simp only [Option.bind_some, List.length_cons] at he
    rw [lexGo_cons, if_neg (by decide), if_neg (by decide)] at he
    simp only [hd] at he
    simp [lexGo, parseToks, pExpr, pUnary] at he

theorem go_show {u : GoVersion} {lib : GoLib} (h : FollowsGo u lib) : ∀ e, GoStable u e → GoText lib (showGo e) e := by
  intro e he
  rw [h]; exact goSyntax_show he

/-- The printed form of stable rules is parsed to these rules. -/
theorem parse_show {u : GoVersion} {lib : GoLib} (hl : FollowsGo u lib) {f : File} (h : ∀ r ∈ f.rules, RuleStable u r) :
    parseBytes lib (utf8 (showNode (.file f))) = .ok f := by
  have := file_text (go_show hl) h
  rw [← goText_eq] at this
  exact parse_complete (rejects_of_follows hl) this

end Verif.Proof

import Verif.Spec.GoTree
import Verif.Proof.Printer
/-!
# `goexpr.Parse` against its specification
-/
namespace Verif.Proof
open Verif Verif.Spec

mutual
theorem clearpos_eq : ∀ e, clearpos e = if goNoNil e = true then some (erasePos e, (badGo e).getLast?) else none
  | .nil => rfl
  | .ident .. => rfl
  | .basicLit .. => rfl
  | .other k => rfl
  | .paren p x q => by
    rw [clearpos, clearpos_eq x]
    cases h : goNoNil x <;> simp [goNoNil, erasePos, badGo, h]
  | .unary p op x => by
    rw [clearpos, clearpos_eq x]
    cases h : goNoNil x <;> simp [goNoNil, erasePos, badGo, h]
  | .star p x => by
    rw [clearpos, clearpos_eq x]
    cases h : goNoNil x <;> simp [goNoNil, erasePos, badGo, h]
  | .selector x p s => by
    rw [clearpos, clearpos_eq x]
    cases h : goNoNil x <;> simp [goNoNil, erasePos, badGo, h]
  | .binary x p op y => by
    rw [clearpos, clearpos_eq x, clearpos_eq y]
    cases h : goNoNil x <;> cases h' : goNoNil y <;> simp [goNoNil, erasePos, badGo, h, h', List.getLast?_append]
  | .call x p as l r => by
    rw [clearpos, clearpos_eq x, clearposList_eq as]
    cases h : goNoNil x <;> cases h' : goNoNils as <;> simp [goNoNil, erasePos, badGo, h, h', List.getLast?_append]
theorem clearposList_eq : ∀ es, clearposList es = if goNoNils es = true then some (erasePoss es, (badGos es).getLast?) else none
  | [] => rfl
  | x :: as => by
    rw [clearposList, clearpos_eq x, clearposList_eq as]
    cases h : goNoNil x <;> cases h' : goNoNils as <;> simp [goNoNils, erasePoss, badGos, h, h', List.getLast?_append]
end

mutual
theorem noNil_of_supported : ∀ e, goSupported e = true → goNoNil e = true
  | .nil, h => by simp [goSupported] at h
  | .ident .., _ => rfl
  | .basicLit .., _ => rfl
  | .other k, _ => rfl
  | .paren p x q, h => noNil_of_supported x h
  | .unary p op x, h => noNil_of_supported x h
  | .star p x, h => noNil_of_supported x h
  | .selector x p s, h => noNil_of_supported x h
  | .binary x p op y, h => by
    rw [goSupported, Bool.and_eq_true] at h
    rw [goNoNil, noNil_of_supported x h.1, noNil_of_supported y h.2]; rfl
  | .call x p as l r, h => by
    rw [goSupported, Bool.and_eq_true] at h
    rw [goNoNil, noNil_of_supported x h.1, noNils_of_supporteds as h.2]; rfl
theorem noNils_of_supporteds : ∀ es, goSupporteds es = true → goNoNils es = true
  | [], _ => rfl
  | x :: as, h => by
    rw [goSupporteds, Bool.and_eq_true] at h
    rw [goNoNils, noNil_of_supported x h.1, noNils_of_supporteds as h.2]; rfl
end

/-- `goexpr.Parse` in closed form. -/
theorem goexprParse_eq (lib : GoLib) (t : Str) : goexprParse lib t =
    match lib.parseExpr t with
    | none => .err (.other (lib.errorText t))
    | some tree =>
      if goNoNil tree = true then
        match (badGo tree).getLast? with
        | some ty => .err (.unexpectedType ty)
        | none => .ok (erasePos tree)
      else .panic := by
  unfold goexprParse
  cases lib.parseExpr t with
  | none => rfl
  | some tree =>
    simp only [clearpos_eq]
    cases goNoNil tree with
    | false => rfl
    | true =>
      simp only [if_true]
      cases (badGo tree).getLast? <;> rfl

theorem goexprParse_ok_iff {lib t e} : goexprParse lib t = .ok e ↔ GoText lib t e := by
  rw [goexprParse_eq]
  unfold GoText
  cases hp : lib.parseExpr t with
  | none => simp
  | some tree =>
    simp only [Option.some.injEq, exists_eq_left', goSupported_iff]
    cases hn : goNoNil tree with
    | false =>
      have : badGo tree ≠ [] := fun hb => by
        rw [noNil_of_supported tree ((goSupported_iff _).2 hb)] at hn; cases hn
      simp [this]
    | true =>
      cases hb : badGo tree with
      | nil => simp; exact eq_comm
      | cons a l =>
        rw [List.getLast?_cons]
        simp

mutual
theorem goSupported_erase : ∀ e, goSupported (erasePos e) = goSupported e
  | .nil => rfl
  | .ident .. => rfl
  | .basicLit .. => rfl
  | .other _ => rfl
  | .paren _ x _ => by simp [erasePos, goSupported, goSupported_erase x]
  | .unary _ _ x => by simp [erasePos, goSupported, goSupported_erase x]
  | .star _ x => by simp [erasePos, goSupported, goSupported_erase x]
  | .selector x _ _ => by simp [erasePos, goSupported, goSupported_erase x]
  | .binary x _ _ y => by simp [erasePos, goSupported, goSupported_erase x, goSupported_erase y]
  | .call f _ a _ _ => by simp [erasePos, goSupported, goSupported_erase f, goSupporteds_erase a]
theorem goSupporteds_erase : ∀ es, goSupporteds (erasePoss es) = goSupporteds es
  | [] => rfl
  | x :: xs => by simp [erasePoss, goSupporteds, goSupported_erase x, goSupporteds_erase xs]
end

mutual
theorem erase_erase : ∀ e, erasePos (erasePos e) = erasePos e
  | .nil => rfl
  | .ident .. => rfl
  | .basicLit .. => rfl
  | .other _ => rfl
  | .paren _ x _ => by simp [erasePos, erase_erase x]
  | .unary _ _ x => by simp [erasePos, erase_erase x]
  | .star _ x => by simp [erasePos, erase_erase x]
  | .selector x _ _ => by simp [erasePos, erase_erase x]
  | .binary x _ _ y => by simp [erasePos, erase_erase x, erase_erase y]
  | .call f _ a _ _ => by simp [erasePos, erase_erase f, erases_erases a]
theorem erases_erases : ∀ es, erasePoss (erasePoss es) = erasePoss es
  | [] => rfl
  | x :: xs => by simp [erasePoss, erase_erase x, erases_erases xs]
end

theorem goText_clean {lib t e} (h : GoText lib t e) : GoClean e := by
  obtain ⟨tree, -, hs, rfl⟩ := h
  exact ⟨by rw [goSupported_erase]; exact hs, erase_erase tree⟩

mutual
theorem sameTokens_erase : ∀ {a b}, SameTokens a b → erasePos a = erasePos b
  | _, _, .nil => rfl
  | _, _, .ident => rfl
  | _, _, .basicLit => rfl
  | _, _, .other => rfl
  | _, _, .paren h => by simp [erasePos, sameTokens_erase h]
  | _, _, .unary h => by simp [erasePos, sameTokens_erase h]
  | _, _, .star h => by simp [erasePos, sameTokens_erase h]
  | _, _, .selector h => by simp [erasePos, sameTokens_erase h]
  | _, _, .binary h h' => by simp [erasePos, sameTokens_erase h, sameTokens_erase h']
  | _, _, .call h h' => by simp [erasePos, sameTokens_erase h, sameTokenss_erase h']
theorem sameTokenss_erase : ∀ {a b}, SameTokenss a b → erasePoss a = erasePoss b
  | _, _, .nil => rfl
  | _, _, .cons h h' => by simp [erasePoss, sameTokens_erase h, sameTokenss_erase h']
end

mutual
theorem erase_sameTokens : ∀ a b, erasePos a = erasePos b → SameTokens a b
  | .nil, b, h => by cases b <;> simp [erasePos] at h; exact .nil
  | .ident .., b, h => by cases b <;> simp [erasePos] at h; subst h; exact .ident
  | .basicLit .., b, h => by cases b <;> simp [erasePos] at h; obtain ⟨rfl, rfl⟩ := h; exact .basicLit
  | .other _, b, h => by cases b <;> simp [erasePos] at h; subst h; exact .other
  | .paren _ x _, b, h => by cases b <;> simp [erasePos] at h; exact .paren (erase_sameTokens x _ h)
  | .unary _ _ x, b, h => by cases b <;> simp [erasePos] at h; obtain ⟨rfl, h⟩ := h; exact .unary (erase_sameTokens x _ h)
  | .star _ x, b, h => by cases b <;> simp [erasePos] at h; exact .star (erase_sameTokens x _ h)
  | .selector x _ _, b, h => by cases b <;> simp [erasePos] at h; obtain ⟨h, rfl⟩ := h; exact .selector (erase_sameTokens x _ h)
  | .binary x _ _ y, b, h => by
    cases b <;> simp [erasePos] at h; obtain ⟨h1, rfl, h2⟩ := h
    exact .binary (erase_sameTokens x _ h1) (erase_sameTokens y _ h2)
  | .call f _ a _ _, b, h => by
    cases b <;> simp [erasePos] at h; obtain ⟨h1, h2⟩ := h
    exact .call (erase_sameTokens f _ h1) (erases_sameTokenss a _ h2)
theorem erases_sameTokenss : ∀ a b, erasePoss a = erasePoss b → SameTokenss a b
  | [], b, h => by cases b <;> simp [erasePoss] at h; exact .nil
  | x :: xs, b, h => by
    cases b <;> simp [erasePoss] at h
    exact .cons (erase_sameTokens x _ h.1) (erases_sameTokenss xs _ h.2)
end

end Verif.Proof

import Verif.Proof.PegErrRoot
import Verif.Proof.Cmd
import Verif.Spec.Message
/-! # Messages can be read back -/
namespace Verif.Proof
open Verif Verif.Spec

/-! ## Numbers -/

theorem decimal_natStr (n : Nat) : decimal (natStr n) = n := by
  have h := Nat.ofDigitChars_toDigits (b := 10) (n := n) (by decide) (by decide)
  exact h

theorem readNumber_natStr (n : Nat) : readNumber (natStr n) = some n := by
  have h : natStr n ≠ [] ∧ (natStr n).all Char.isDigit := by
    refine ⟨Nat.toDigits_ne_nil, ?_⟩
    rw [List.all_eq_true]
    intro c hc
    exact Nat.isDigit_of_mem_toDigits (by decide) (by decide) hc
  rw [readNumber, if_pos h, decimal_natStr]

theorem natStr_digit {n c} (h : c ∈ natStr n) : c.isDigit = true := Nat.isDigit_of_mem_toDigits (by decide) (by decide) h

/-! ## Cutting -/

theorem cut_plain (s : Char) (sep a b : Str) (h : ∀ c ∈ a, c ≠ s) : cut (s :: sep) (a ++ (s :: sep) ++ b) = some (a, b) := by
  induction a with
  | nil => simp [cut, List.isPrefixOf]
  | cons c a ih =>
    have hc : c ≠ s := h c List.mem_cons_self
    simp only [List.cons_append, cut, List.isPrefixOf, beq_eq_false_iff_ne.2 (Ne.symm hc), Bool.false_and, Bool.false_eq_true, if_false]
    have := ih fun d hd => h d (List.mem_cons_of_mem _ hd)
    rw [List.append_assoc, List.cons_append] at this
    simp [this]

theorem after_append (a b : Str) : after a (a ++ b) = some b := by simp [after]

/-! ## Lists -/

/-- Neither a comma with a blank nor a blank with an `o` occurs. -/
def tidyItem : Str → Bool
  | ',' :: ' ' :: _ => false
  | ' ' :: 'o' :: _ => false
  | _ :: l => tidyItem l
  | [] => true

theorem commaItems_ne (l : Str) : ∃ x xs, commaItems l = x :: xs := by
  unfold commaItems
  split
  · exact ⟨_, _, rfl⟩
  · split <;> exact ⟨_, _, rfl⟩
  · exact ⟨_, _, rfl⟩

theorem orItems_ne (l : Str) : ∃ x xs, orItems l = x :: xs := by
  unfold orItems
  split
  · exact ⟨_, _, rfl⟩
  · split <;> exact ⟨_, _, rfl⟩
  · exact ⟨_, _, rfl⟩

theorem messageLines_ne (l : Str) : ∃ x xs, messageLines l = x :: xs := by
  unfold messageLines
  split
  · exact ⟨_, _, rfl⟩
  · split <;> exact ⟨_, _, rfl⟩
  · exact ⟨_, _, rfl⟩

theorem commaItems_skip (c : Char) (l : Str) (h : ¬(c = ',' ∧ l.head? = some ' ')) {x xs} (e : commaItems l = x :: xs) : commaItems (c :: l) = (c :: x) :: xs := by
  rw [commaItems]
  · rw [e]
  · rintro l' rfl rfl; exact h ⟨rfl, rfl⟩

theorem orItems_skip (c : Char) (l : Str) (h : ¬(c = ' ' ∧ l.head? = some 'o')) {x xs} (e : orItems l = x :: xs) : orItems (c :: l) = (c :: x) :: xs := by
  rw [orItems]
  · rw [e]
  · rintro l' rfl rfl; exact h ⟨rfl, rfl⟩

theorem messageLines_skip (c : Char) (l : Str) (h : c ≠ '\n') {x xs} (e : messageLines l = x :: xs) : messageLines (c :: l) = (c :: x) :: xs := by
  rw [messageLines]
  · rw [e]
  · rintro rfl; exact h rfl

theorem tidy_tail {c l} (h : tidyItem (c :: l) = true) : tidyItem l = true ∧ ¬(c = ',' ∧ l.head? = some ' ') ∧ ¬(c = ' ' ∧ l.head? = some 'o') := by
  rw [tidyItem.eq_def] at h
  split at h
  · cases h
  · cases h
  · rename_i h1 h2 e
    cases e
    refine ⟨h, ?_, ?_⟩
    · rintro ⟨rfl, k⟩
      cases l with
      | nil => cases k
      | cons d l => cases k; exact h1 _ rfl rfl
    · rintro ⟨rfl, k⟩
      cases l with
      | nil => cases k
      | cons d l => cases k; exact h2 _ rfl rfl
  · rename_i e; cases e

theorem commaItems_item (a b : Str) (ha : tidyItem a = true) (hb : b.head? ≠ some ' ' ∨ a.getLast? ≠ some ',') {x xs} (e : commaItems b = x :: xs) :
    commaItems (a ++ b) = (a ++ x) :: xs := by
  induction a with
  | nil => exact e
  | cons c a ih =>
    obtain ⟨h1, h2, -⟩ := tidy_tail ha
    have h3 : b.head? ≠ some ' ' ∨ a.getLast? ≠ some ',' := by
      rcases hb with hb | hb
      · exact .inl hb
      · refine .inr ?_
        cases a with
        | nil => simp
        | cons d a => simpa using hb
    rw [List.cons_append, commaItems_skip c _ ?_ (ih h1 h3)]
    · rfl
    · rintro ⟨rfl, k⟩
      cases a with
      | nil => rcases hb with hb | hb
               · exact hb k
               · exact hb rfl
      | cons d a => exact h2 ⟨rfl, k⟩

theorem orItems_item (a b : Str) (ha : tidyItem a = true) (hb : b.head? ≠ some 'o') {x xs} (e : orItems b = x :: xs) : orItems (a ++ b) = (a ++ x) :: xs := by
  induction a with
  | nil => exact e
  | cons c a ih =>
    obtain ⟨h1, -, h2⟩ := tidy_tail ha
    rw [List.cons_append, orItems_skip c _ ?_ (ih h1)]
    · rfl
    · rintro ⟨rfl, k⟩
      cases a with
      | nil => exact hb k
      | cons d a => exact h2 ⟨rfl, k⟩

theorem orItems_tidy (a : Str) (ha : tidyItem a = true) : orItems a = [a] := by
  have := orItems_item a [] ha (by simp) (x := []) (xs := []) rfl
  simpa using this

/-- `x or y` -/
theorem orItems_two (a b : Str) (ha : tidyItem a = true) (hb : tidyItem b = true) : orItems (a ++ " or ".toList ++ b) = [a, b] := by
  have h : orItems (" or ".toList ++ b) = [] :: orItems b := rfl
  have := orItems_item a (" or ".toList ++ b) ha (by simp) h
  rw [orItems_tidy b hb] at this
  simpa using this

theorem commaItems_tidy (a : Str) (ha : tidyItem a = true) : commaItems a = [a] := by
  have := commaItems_item a [] ha (.inl (by simp)) (x := []) (xs := []) rfl
  simpa using this

theorem commaItems_last (a b : Str) (ha : tidyItem a = true) (hl : a.getLast? ≠ some ',') (hb : tidyItem b = true) :
    commaItems (a ++ " or ".toList ++ b) = [a ++ " or ".toList ++ b] := by
  have h1 := commaItems_tidy b hb
  have h2 : commaItems (" or ".toList ++ b) = [" or ".toList ++ b] := by
    show commaItems (' ' :: 'o' :: 'r' :: ' ' :: b) = _
    rw [commaItems_skip _ _ (by simp) (commaItems_skip _ _ (by simp) (commaItems_skip _ _ (by simp) (commaItems_skip _ _ (by simp) h1)))]
    rfl
  rw [List.append_assoc]
  exact commaItems_item a _ ha (.inr hl) h2

/-- Items that can be told apart in a list. -/
def goodItem (a : Str) : Bool := tidyItem a && a.getLast? != some ','

theorem listJoin_cons (x y z : Str) (l : List Str) : listJoin (x :: y :: z :: l) = x ++ [',', ' '] ++ listJoin (y :: z :: l) := by
  cases l with
  | nil => simp [listJoin, strJoin]
  | cons w l => simp [listJoin, strJoin]

theorem read_listJoin (l : List Str) (hne : l ≠ []) (h : ∀ a ∈ l, goodItem a = true) : (commaItems (listJoin l)).flatMap orItems = l := by
  induction l with
  | nil => exact absurd rfl hne
  | cons x l ih =>
    have hx := h x List.mem_cons_self
    simp only [goodItem, Bool.and_eq_true, bne_iff_ne, ne_eq] at hx
    cases l with
    | nil => simp [listJoin, commaItems_tidy x hx.1, orItems_tidy x hx.1]
    | cons y l =>
      have ih := ih (by simp) fun a ha => h a (List.mem_cons_of_mem _ ha)
      cases l with
      | nil =>
        have hy := h y (by simp)
        simp only [goodItem, Bool.and_eq_true, bne_iff_ne, ne_eq] at hy
        have e : listJoin [x, y] = x ++ " or ".toList ++ y := by simp [listJoin, strJoin]
        rw [e, commaItems_last x y hx.1 hx.2 hy.1, List.flatMap_cons, List.flatMap_nil, List.append_nil, orItems_two x y hx.1 hy.1]
      | cons z l =>
        rw [listJoin_cons, List.append_assoc]
        generalize listJoin (y :: z :: l) = t at ih ⊢
        have e : commaItems ([',', ' '] ++ t) = [] :: commaItems t := rfl
        rw [commaItems_item x _ hx.1 (.inl (by simp)) e, List.flatMap_cons, ih, List.append_nil, orItems_tidy x hx.1]
        rfl

/-! ## Lines -/

theorem messageLines_item (a b : Str) (ha : '\n' ∉ a) {x xs} (e : messageLines b = x :: xs) : messageLines (a ++ b) = (a ++ x) :: xs := by
  induction a with
  | nil => exact e
  | cons c a ih =>
    rw [List.mem_cons, not_or] at ha
    rw [List.cons_append, messageLines_skip c _ (fun k => ha.1 k.symm) (ih ha.2)]
    rfl

theorem messageLines_join (l : List Str) (hne : l ≠ []) (h : ∀ a ∈ l, '\n' ∉ a) : messageLines (strJoin ['\n'] l) = l := by
  induction l with
  | nil => exact absurd rfl hne
  | cons x l ih =>
    cases l with
    | nil =>
      have := messageLines_item x [] (h x (by simp)) (x := []) (xs := []) rfl
      simpa [strJoin] using this
    | cons y l =>
      have ih := ih (by simp) fun a ha => h a (List.mem_cons_of_mem _ ha)
      rw [strJoin, List.append_assoc]
      generalize strJoin ['\n'] (y :: l) = t at ih ⊢
      have e : messageLines (['\n'] ++ t) = [] :: messageLines t := rfl
      rw [messageLines_item x _ (h x (by simp)) e, ih, List.append_nil]

/-! ## Messages -/

/-- What stands after the position. -/
def PError.body (T : Texts) (e : PError) : Str := (match e.rule with | some r => "rule ".toList ++ r.str ++ [':', ' '] | none => []) ++ e.problem.text T

theorem read_text (T : Texts) (filename : Str) (e : PError) : readMessage filename (PError.text T filename e) = some (e.pos, PError.body T e) := by
  have hd : ∀ (n : Nat) (s : Char), s.isDigit = false → ∀ c ∈ natStr n, c ≠ s := by
    rintro n s hs c hc rfl
    rw [natStr_digit hc] at hs
    cases hs
  have e0 : PError.text T filename e = (if filename = [] then [] else filename ++ [':']) ++
      (natStr e.pos.line ++ ":".toList ++ (natStr e.pos.col ++ " (".toList ++ (natStr e.pos.offset ++ "): ".toList ++ PError.body T e))) := by
    unfold PError.text PError.body
    cases e.rule <;> simp
  have e1 : after (if filename = [] then [] else filename ++ [':']) (PError.text T filename e) =
      some (natStr e.pos.line ++ ":".toList ++ (natStr e.pos.col ++ " (".toList ++ (natStr e.pos.offset ++ "): ".toList ++ PError.body T e))) := by
    rw [e0]
    exact after_append _ _
  generalize PError.body T e = body at *
  unfold readMessage
  rw [e1]
  have c1 := cut_plain ':' [] (natStr e.pos.line) (natStr e.pos.col ++ " (".toList ++ (natStr e.pos.offset ++ "): ".toList ++ body)) (hd _ _ (by decide))
  have c2 := cut_plain ' ' ['('] (natStr e.pos.col) (natStr e.pos.offset ++ "): ".toList ++ body) (hd _ _ (by decide))
  have c3 := cut_plain ')' [':', ' '] (natStr e.pos.offset) body (hd _ _ (by decide))
  have t1 : ":".toList = [':'] := rfl
  have t2 : " (".toList = [' ', '('] := rfl
  have t3 : "): ".toList = [')', ':', ' '] := rfl
  rw [t1, t2, t3]
  rw [t2, t3] at c1
  rw [t3] at c2
  simp only [Option.bind_eq_bind, Option.bind_some, c1, c2, c3, readNumber_natStr]
  rfl

theorem vocabulary_good (w : Str) (h : w ∈ vocabulary) : goodItem w = true ∧ goodItem ('!' :: w) = true ∧ '\n' ∉ w := by
  have : vocabulary.all (fun w => goodItem w && goodItem ('!' :: w) && !w.contains '\n') = true := by decide +kernel
  have := List.all_eq_true.1 this w h
  simpa [and_assoc] using this

end Verif.Proof

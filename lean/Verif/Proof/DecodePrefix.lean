import Verif.Proof.PegErrPos
import Verif.Proof.Utf8
/-! # The first symbols depend on the first bytes only -/
namespace Verif.Proof
open Verif Verif.Spec

theorem decodeRune_take (b0 : UInt8) (x : List UInt8) : (decodeRune b0 x).1 = (decodeRune b0 (x.take 3)).1 := by
  match x with
  | [] => rfl
  | [a] => rfl
  | [a, b] => rfl
  | a :: b :: c :: t =>
    show (decodeRune b0 (a :: b :: c :: t)).1 = (decodeRune b0 [a, b, c]).1
    simp only [decodeRune]
    split
    · rfl
    split
    · split <;> rfl
    split
    · split <;> rfl
    split
    · split <;> rfl
    · rfl

theorem decodeRune_bad {b0 : UInt8} {bs bs' : List UInt8} {b} (h : decodeRune b0 bs = (.bad b, bs')) : bs' = bs := by
  unfold decodeRune at h
  simp only at h
  repeat' split at h
  all_goals simp at h
  all_goals exact h.2.symm

theorem encode_length (c : Char) : (String.utf8EncodeChar c).length = c.utf8Size := String.length_utf8EncodeChar c

theorem decodeRune_rest (b0 : UInt8) (bs : List UInt8) : (decodeRune b0 bs).2 = (b0 :: bs).drop (decodeRune b0 bs).1.width := by
  generalize h : decodeRune b0 bs = p
  obtain ⟨x, r⟩ := p
  cases x with
  | ok c =>
    have := decodeRune_ok b0 bs c r h
    simp only [Sym.width]
    rw [this, ← encode_length]
    simp
  | bad b =>
    rw [decodeRune_bad h]
    simp [Sym.width]

theorem width_le (x : Sym) : x.width ≤ 4 := by
  cases x with
  | ok c => exact Char.utf8Size_le_four c
  | bad b => simp [Sym.width]

/-- The number of bytes is the sum of the widths. -/
theorem decode_widths (bs : List UInt8) : ((decode bs).map Sym.width).sum = bs.length := by
  induction h : bs.length using Nat.strongRecOn generalizing bs with
  | ind n ih =>
    cases bs with
    | nil => simp at h; subst h; simp [decode]
    | cons b bs =>
      have h1 := decodeRune_rest b bs
      have h0 := decodeRune_length b bs
      rw [decode]
      simp only [List.length_cons] at h
      have := ih (decodeRune b bs).2.length (by omega) _ rfl
      simp only [List.map_cons, List.sum_cons, this]
      have hl := congrArg List.length h1
      simp only [List.length_drop, List.length_cons] at hl
      -- the symbol is not wider than the input
      cases hx : (decodeRune b bs).1 with
      | ok c =>
        have := congrArg List.length (decodeRune_ok b bs c (decodeRune b bs).2 (by rw [← hx]))
        simp only [List.length_cons, List.length_append, encode_length] at this
        simp only [Sym.width]
        omega
      | bad b' => simp only [hx, Sym.width] at hl ⊢; omega

theorem decode_prefix : ∀ (N : Nat) (bs bs' : List UInt8), bs.take N = bs'.take N →
    ∃ p r r', decode bs = p ++ r ∧ decode bs' = p ++ r' ∧ ((r = [] ∧ r' = []) ∨ N ≤ (p.map Sym.width).sum + 3) := by
  intro N
  induction N using Nat.strongRecOn with
  | ind N ih =>
    intro bs bs' h
    by_cases hN : N ≤ 3
    · exact ⟨[], _, _, rfl, rfl, .inr (by simp; omega)⟩
    obtain ⟨M, rfl⟩ : ∃ M, N = M + 1 := ⟨N - 1, by omega⟩
    match bs, bs' with
    | [], [] => exact ⟨[], [], [], by simp [decode], by simp [decode], .inl ⟨rfl, rfl⟩⟩
    | [], b :: y => simp at h
    | b :: x, [] => simp at h
    | b :: x, b' :: y =>
      simp only [List.take_succ_cons, List.cons.injEq] at h
      obtain ⟨rfl, h⟩ := h
      have h3 : x.take 3 = y.take 3 := by
        have := congrArg (List.take 3) h
        rwa [List.take_take, List.take_take, Nat.min_eq_left (by omega)] at this
      have hs : (decodeRune b x).1 = (decodeRune b y).1 := by rw [decodeRune_take b x, decodeRune_take b y, h3]
      have hw := width_pos (decodeRune b x).1
      have hd : (decodeRune b x).2.take (M + 1 - (decodeRune b x).1.width) = (decodeRune b y).2.take (M + 1 - (decodeRune b x).1.width) := by
        rw [decodeRune_rest b x, decodeRune_rest b y, ← hs, ← List.drop_take, ← List.drop_take, List.take_succ_cons, List.take_succ_cons, h]
      obtain ⟨p, r, r', e1, e2, k⟩ := ih (M + 1 - (decodeRune b x).1.width) (by omega) _ _ hd
      refine ⟨(decodeRune b x).1 :: p, r, r', ?_, ?_, ?_⟩
      · rw [decode, e1]; rfl
      · rw [decode, ← hs, e2]; rfl
      · rcases k with k | k
        · exact .inl k
        · right
          simp only [List.map_cons, List.sum_cons]
          omega

/-- The byte offset of the `k`-th symbol: decoding from there on yields the symbols from the `k`-th on. -/
theorem decode_drop (bs : List UInt8) (k : Nat) : decode (bs.drop (((decode bs).take k).map Sym.width).sum) = (decode bs).drop k := by
  induction k generalizing bs with
  | zero => simp
  | succ k ih =>
    cases bs with
    | nil => simp [decode]
    | cons b bs =>
      rw [decode, List.take_succ_cons, List.map_cons, List.sum_cons, List.drop_succ_cons, ← ih, ← List.drop_drop, ← decodeRune_rest]

end Verif.Proof

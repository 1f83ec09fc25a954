import Verif.Model.Dump
import Verif.Spec.Dump
/-!
# `%q` can be read back
-/
namespace Verif.Proof.Dump
open Verif Verif.Spec

theorem hexStr_length : ∀ w n, (hexStr w n).length = w
  | 0, _ => rfl
  | w + 1, n => by rw [hexStr, List.length_append, hexStr_length w]; rfl

def hexVal (c : Char) : Nat := if c.toNat < 58 then c.toNat - 48 else c.toNat - 87

theorem hexVal_digitChar : ∀ d : Fin 16, hexVal (d.val).digitChar = d.val := by decide

def unhex (s : Str) : Nat := s.foldl (fun v c => 16 * v + hexVal c) 0

theorem unhex_hexStr : ∀ w n, n < 16 ^ w → unhex (hexStr w n) = n
  | 0, n, h => by simp at h; subst h; rfl
  | w + 1, n, h => by
    have h' : n / 16 < 16 ^ w := by rw [Nat.pow_succ] at h; omega
    have ih := unhex_hexStr w (n / 16) h'
    have hd := hexVal_digitChar ⟨n % 16, Nat.mod_lt _ (by decide)⟩
    simp only at hd
    rw [hexStr, unhex, List.foldl_append]
    show 16 * unhex (hexStr w (n / 16)) + hexVal _ = n
    rw [ih, hd]; omega

/-- Read one character of a quoted string. -/
def unquoteChar : Str → Option (Char × Str)
  | [] => none
  | c :: r =>
    if c ≠ '\\' then some (c, r)
    else match r with
      | [] => none
      | d :: r =>
        if d = 'a' then some (Char.ofNat 7, r)
        else if d = 'b' then some (Char.ofNat 8, r)
        else if d = 'f' then some (Char.ofNat 12, r)
        else if d = 'n' then some (Char.ofNat 10, r)
        else if d = 'r' then some (Char.ofNat 13, r)
        else if d = 't' then some (Char.ofNat 9, r)
        else if d = 'v' then some (Char.ofNat 11, r)
        else if d = 'x' then some (Char.ofNat (unhex (r.take 2)), r.drop 2)
        else if d = 'u' then some (Char.ofNat (unhex (r.take 4)), r.drop 4)
        else if d = 'U' then some (Char.ofNat (unhex (r.take 8)), r.drop 8)
        else some (d, r)

theorem take_hex (w n : Nat) (r : Str) : (hexStr w n ++ r).take w = hexStr w n := by
  rw [List.take_append_of_le_length (by rw [hexStr_length]; exact Nat.le_refl _), List.take_of_length_le (by rw [hexStr_length]; exact Nat.le_refl _)]

theorem drop_hex (w n : Nat) (r : Str) : (hexStr w n ++ r).drop w = r := by
  rw [List.drop_append_of_le_length (by rw [hexStr_length]; exact Nat.le_refl _), List.drop_of_length_le (by rw [hexStr_length]; exact Nat.le_refl _)]; rfl

theorem unquoteChar_eq (q : QuoteTable) (c : Char) (r : Str) : unquoteChar (quoteChar q c ++ r) = some (c, r) := by
  have key : ∀ n, c.toNat = n → Char.ofNat n = c := by intro n h; rw [← h]; exact Char.ofNat_toNat c
  unfold quoteChar
  split
  · rename_i h
    rcases h with rfl | rfl <;> rfl
  rename_i h0
  split
  · simp only [List.cons_append, List.nil_append, unquoteChar]
    rw [if_pos (fun e => h0 (.inr e))]
  split
  · rename_i h; simp only [List.cons_append, List.nil_append, unquoteChar]; simp; exact key _ h
  split
  · rename_i h; simp only [List.cons_append, List.nil_append, unquoteChar]; simp; exact key _ h
  split
  · rename_i h; simp only [List.cons_append, List.nil_append, unquoteChar]; simp; exact key _ h
  split
  · rename_i h; simp only [List.cons_append, List.nil_append, unquoteChar]; simp; exact key _ h
  split
  · rename_i h; simp only [List.cons_append, List.nil_append, unquoteChar]; simp; exact key _ h
  split
  · rename_i h; simp only [List.cons_append, List.nil_append, unquoteChar]; simp; exact key _ h
  split
  · rename_i h; simp only [List.cons_append, List.nil_append, unquoteChar]; simp; exact key _ h
  split
  · rename_i h
    simp only [List.cons_append, unquoteChar, take_hex, drop_hex]
    rw [unhex_hexStr 2 c.toNat (by omega)]
    simp [key _ rfl]
  split
  · rename_i h
    simp only [List.cons_append, unquoteChar, take_hex, drop_hex]
    rw [unhex_hexStr 4 c.toNat (by omega)]
    simp [key _ rfl]
  · have hc : c.toNat < 1114112 := by
      have := c.valid
      rcases this with h | h
      · exact Nat.lt_trans h (by decide)
      · exact h.2
    simp only [List.cons_append, unquoteChar, take_hex, drop_hex]
    rw [unhex_hexStr 8 c.toNat (by omega)]
    simp [key _ rfl]

theorem quoteChars_inj (q : QuoteTable) : ∀ s s' : Str, s.flatMap (quoteChar q) = s'.flatMap (quoteChar q) → s = s'
  | [], [], _ => rfl
  | [], c :: s, h => by
    have := unquoteChar_eq q c (s.flatMap (quoteChar q))
    rw [← List.flatMap_cons, ← h] at this; cases this
  | c :: s, [], h => by
    have := unquoteChar_eq q c (s.flatMap (quoteChar q))
    rw [← List.flatMap_cons, h] at this; cases this
  | c :: s, c' :: s', h => by
    have h1 := unquoteChar_eq q c (s.flatMap (quoteChar q))
    have h2 := unquoteChar_eq q c' (s'.flatMap (quoteChar q))
    rw [← List.flatMap_cons, h, List.flatMap_cons, h2] at h1
    injection h1 with h1
    injection h1 with h3 h4
    rw [h3, quoteChars_inj q s s' h4.symm]

theorem quoteStr_inj (q : QuoteTable) {s s' : Str} (h : quoteStr q s = quoteStr q s') : s = s' := by
  unfold quoteStr at h
  injection h with _ h
  exact quoteChars_inj q s s' (List.append_cancel_right h)

theorem digitChar_nl : ∀ d : Fin 16, (d.val).digitChar ≠ '\n' := by decide

theorem hexStr_nl : ∀ w n, '\n' ∉ hexStr w n
  | 0, _ => by simp [hexStr]
  | w + 1, n => by
    rw [hexStr]
    simp only [List.mem_append, List.mem_singleton, not_or]
    exact ⟨hexStr_nl w _, fun e => digitChar_nl ⟨n % 16, Nat.mod_lt _ (by decide)⟩ e.symm⟩

theorem quoteChar_nl (q : QuoteTable) (c : Char) : '\n' ∉ quoteChar q c := by
  unfold quoteChar
  split
  · rename_i h
    rcases h with rfl | rfl <;> decide
  split
  · rename_i h
    intro hm
    simp only [List.mem_singleton] at hm
    rw [← hm, q.control '\n' (by decide)] at h
    cases h
  iterate 7 (split; · decide)
  split
  · simp only [List.mem_cons, not_or]; exact ⟨by decide, by decide, hexStr_nl _ _⟩
  split
  · simp only [List.mem_cons, not_or]; exact ⟨by decide, by decide, hexStr_nl _ _⟩
  · simp only [List.mem_cons, not_or]; exact ⟨by decide, by decide, hexStr_nl _ _⟩

theorem quoteStr_nl (q : QuoteTable) (s : Str) : '\n' ∉ quoteStr q s := by
  unfold quoteStr
  simp only [List.mem_append, List.mem_cons, List.mem_flatMap, not_or, List.cons_append]
  refine ⟨by decide, ?_⟩
  refine ⟨?_, by decide, by simp⟩
  rintro ⟨c, _, h⟩
  exact quoteChar_nl q c h

/-! ## Literals of Go -/

theorem hexLetters_digit : ∀ d : Fin 16, hexLetters[d.val]? = some (d.val).digitChar := by decide

theorem hexStr_hexOf : ∀ w n, n < 16 ^ w → HexOf (hexStr w n) n
  | 0, n, h => by simp at h; subst h; exact .nil
  | w + 1, n, h => by
    have h' : n / 16 < 16 ^ w := by rw [Nat.pow_succ] at h; omega
    have := HexOf.snoc (hexStr_hexOf w (n / 16) h') (hexLetters_digit ⟨n % 16, Nat.mod_lt _ (by decide)⟩)
    simp only at this
    rw [show 16 * (n / 16) + n % 16 = n by omega] at this
    exact this

theorem quoteChar_denotes (q : QuoteTable) (c : Char) : Denotes (quoteChar q c) c := by
  unfold quoteChar
  split
  · rename_i h
    rcases h with rfl | rfl <;> exact .letter (by decide)
  rename_i h0
  split
  · rename_i hp
    refine .plain (fun e => h0 (.inl e)) (fun e => h0 (.inr e)) ?_
    rintro rfl
    rw [q.control '\n' (by decide)] at hp
    cases hp
  iterate 7 (split; · (rename_i h; exact .letter (by rw [h]; decide)))
  have hc : c.toNat < 1114112 := by
    have := c.valid
    rcases this with h | h
    · exact Nat.lt_trans h (by decide)
    · exact h.2
  split
  · rename_i h
    exact .x (hexStr_hexOf _ _ (by omega)) (hexStr_length _ _) (by omega)
  split
  · rename_i h
    exact .u (hexStr_hexOf _ _ (by omega)) (hexStr_length _ _)
  · exact .U (hexStr_hexOf _ _ (by omega)) (hexStr_length _ _)

theorem quoteStr_literal (q : QuoteTable) (s : Str) : StringLiteral (quoteStr q s) s := by
  refine ⟨s.flatMap (quoteChar q), ?_, rfl⟩
  induction s with
  | nil => exact .nil
  | cons c s ih => rw [List.flatMap_cons]; exact .cons (quoteChar_denotes q c) ih

theorem quoteChar_length (q : QuoteTable) (c : Char) : (quoteChar q c).length =
    if c = '"' ∨ c = '\\' then 2 else if q.printable c = true then 1 else if 7 ≤ c.toNat ∧ c.toNat ≤ 13 then 2
    else if c.toNat ≤ 0x1f ∨ c.toNat = 0x7f ∧ q.delX = true then 4 else if c.toNat ≤ 0xffff then 6 else 10 := by
  unfold quoteChar
  split
  · rfl
  split
  · rfl
  by_cases h : 7 ≤ c.toNat ∧ c.toNat ≤ 13
  · rw [if_pos h]
    have : c.toNat = 7 ∨ c.toNat = 8 ∨ c.toNat = 9 ∨ c.toNat = 10 ∨ c.toNat = 11 ∨ c.toNat = 12 ∨ c.toNat = 13 := by omega
    rcases this with e | e | e | e | e | e | e <;> simp [e]
  · rw [if_neg h, if_neg (by omega), if_neg (by omega), if_neg (by omega), if_neg (by omega), if_neg (by omega), if_neg (by omega), if_neg (by omega)]
    by_cases h1 : c.toNat < 32 ∨ q.delX = true ∧ c.toNat = 127
    · have h1' : c.toNat ≤ 0x1f ∨ c.toNat = 0x7f ∧ q.delX = true := by
        rcases h1 with h1 | h1
        · exact .inl (by omega)
        · exact .inr ⟨h1.2, h1.1⟩
      rw [if_pos h1, if_pos h1']
      simp [hexStr_length]
    · have h1' : ¬ (c.toNat ≤ 0x1f ∨ c.toNat = 0x7f ∧ q.delX = true) := by
        rintro (h2 | h2)
        · exact h1 (.inl (by omega))
        · exact h1 (.inr ⟨h2.2, h2.1⟩)
      rw [if_neg h1, if_neg h1']
      by_cases h2 : c.toNat < 65536
      · have h2' : c.toNat ≤ 0xffff := by omega
        rw [if_pos h2, if_pos h2']; simp [hexStr_length]
      · have h2' : ¬ c.toNat ≤ 0xffff := by omega
        rw [if_neg h2, if_neg h2']; simp [hexStr_length]

end Verif.Proof.Dump

import Verif.Model.Utf8
import Verif.Spec.Utf8
/-! # The decoder inverts the encoder, and yields an invalid byte exactly on invalid UTF-8 -/
namespace Verif.Proof
open Verif Verif.Spec

theorem char_toNat_lt (c : Char) : c.toNat < 0x110000 := by
  have := c.valid; unfold UInt32.isValidChar Nat.isValidChar at this; simp only [Char.toNat]; omega

theorem char_not_surr (c : Char) : c.toNat < 0xD800 ∨ 0xDFFF < c.toNat := by
  have := c.valid; unfold UInt32.isValidChar Nat.isValidChar at this; simp only [Char.toNat]; omega

theorem ofNat_toNat' (c : Char) (n : Nat) (h : n = c.toNat) : Char.ofNat n = c := by
  subst h; exact Char.ofNat_toNat c

theorem decodeRune_encode (c : Char) (bs : List UInt8) :
    ∃ b0 rest, String.utf8EncodeChar c ++ bs = b0 :: rest ∧ decodeRune b0 rest = (.ok c, bs) := by
  have h1 := char_toNat_lt c
  have h2 := char_not_surr c
  unfold String.utf8EncodeChar
  simp only []
  have hv : c.val.toNat = c.toNat := rfl
  rw [hv]
  generalize hn : c.toNat = n at *
  split
  · simp only [List.cons_append, List.nil_append]; refine ⟨_, _, rfl, ?_⟩
    unfold decodeRune
    have : (UInt8.ofNat n).toNat = n := by simp; omega
    simp only [this]
    rw [if_pos (by omega), ofNat_toNat' c n hn.symm]
  split
  · simp only [List.cons_append, List.nil_append]; refine ⟨_, _, rfl, ?_⟩
    unfold decodeRune isCont
    have e0 : (UInt8.ofNat (n / 64 % 0x20 + 0xc0)).toNat = n / 64 + 0xc0 := by simp; omega
    have e1 : (UInt8.ofNat (n % 0x40 + 0x80)).toNat = n % 64 + 0x80 := by simp; omega
    simp only [e0, e1, List.cons_append, List.nil_append]
    rw [if_neg (by omega), if_pos (by omega), if_pos (by simp; omega), ofNat_toNat' c _ (by omega)]
  split
  · simp only [List.cons_append, List.nil_append]; refine ⟨_, _, rfl, ?_⟩
    unfold decodeRune isCont
    have e0 : (UInt8.ofNat (n / 4096 % 0x10 + 0xe0)).toNat = n / 4096 + 0xe0 := by simp; omega
    have e1 : (UInt8.ofNat (n / 64 % 0x40 + 0x80)).toNat = n / 64 % 64 + 0x80 := by simp; omega
    have e2 : (UInt8.ofNat (n % 0x40 + 0x80)).toNat = n % 64 + 0x80 := by simp; omega
    simp only [e0, e1, e2, List.cons_append, List.nil_append]
    rw [if_neg (by omega), if_neg (by omega), if_pos (by omega), if_pos (by simp; omega), ofNat_toNat' c _ (by omega)]
  · simp only [List.cons_append, List.nil_append]; refine ⟨_, _, rfl, ?_⟩
    unfold decodeRune isCont
    have e0 : (UInt8.ofNat (n / 262144 % 0x08 + 0xf0)).toNat = n / 262144 + 0xf0 := by simp; omega
    have e1 : (UInt8.ofNat (n / 4096 % 0x40 + 0x80)).toNat = n / 4096 % 64 + 0x80 := by simp; omega
    have e2 : (UInt8.ofNat (n / 64 % 0x40 + 0x80)).toNat = n / 64 % 64 + 0x80 := by simp; omega
    have e3 : (UInt8.ofNat (n % 0x40 + 0x80)).toNat = n % 64 + 0x80 := by simp; omega
    simp only [e0, e1, e2, e3, List.cons_append, List.nil_append]
    rw [if_neg (by omega), if_neg (by omega), if_neg (by omega), if_pos (by omega), if_pos (by simp; omega),
      ofNat_toNat' c _ (by omega)]

theorem decode_utf8_append (s : List Char) (bs : List UInt8) : decode (utf8 s ++ bs) = s.map Sym.ok ++ decode bs := by
  induction s with
  | nil => simp [utf8]
  | cons c s ih =>
    obtain ⟨b0, rest, he, hd⟩ := decodeRune_encode c (utf8 s ++ bs)
    have : utf8 (c :: s) ++ bs = b0 :: rest := by rw [← he]; simp [utf8]
    rw [this, decode, hd]; simp [ih]

theorem decode_utf8 (s : List Char) : decode (utf8 s) = s.map Sym.ok := by
  have := decode_utf8_append s []; simpa [decode] using this

theorem toNat_ofNat_of (n : Nat) (h : n < 0xD800 ∨ (0xDFFF < n ∧ n < 0x110000)) : (Char.ofNat n).toNat = n := by
  have hv : n.isValidChar := by unfold Nat.isValidChar; omega
  unfold Char.ofNat; rw [dif_pos hv]; simp [Char.toNat, Char.ofNatAux]

theorem uint8_eq (b : UInt8) (n : Nat) (h : n = b.toNat) : UInt8.ofNat n = b := by
  subst h; simp

theorem decodeRune_ok (b0 : UInt8) (bs : List UInt8) (c : Char) (bs' : List UInt8)
    (h : decodeRune b0 bs = (.ok c, bs')) : b0 :: bs = String.utf8EncodeChar c ++ bs' := by
  have hb0 := b0.toNat_lt
  unfold decodeRune isCont at h
  unfold String.utf8EncodeChar
  have hv : c.val.toNat = c.toNat := rfl
  simp only [hv]
  simp only [] at h
  split at h
  · rename_i h0
    simp only [Prod.mk.injEq, Sym.ok.injEq] at h
    obtain ⟨rfl, rfl⟩ := h
    rw [toNat_ofNat_of _ (by omega), if_pos (by omega), uint8_eq b0 _ rfl]; rfl
  split at h
  · rename_i h0 h1
    split at h
    · rename_i b1 bs''
      have hb1 := b1.toNat_lt
      split at h
      · rename_i h2
        simp only [Bool.and_eq_true, decide_eq_true_eq] at h2
        simp only [Prod.mk.injEq, Sym.ok.injEq] at h
        obtain ⟨rfl, rfl⟩ := h
        rw [toNat_ofNat_of _ (by omega), if_neg (by omega), if_pos (by omega), uint8_eq b0 _ (by omega), uint8_eq b1 _ (by omega)]
        rfl
      · simp at h
    · simp at h
  split at h
  · rename_i h0 h1 h3
    split at h
    · rename_i b1 b2 bs''
      have hb1 := b1.toNat_lt
      have hb2 := b2.toNat_lt
      split at h
      · rename_i h2
        simp only [Bool.and_eq_true, decide_eq_true_eq] at h2
        simp only [Prod.mk.injEq, Sym.ok.injEq] at h
        obtain ⟨rfl, rfl⟩ := h
        rw [toNat_ofNat_of _ (by omega), if_neg (by omega), if_neg (by omega), if_pos (by omega), uint8_eq b0 _ (by omega),
          uint8_eq b1 _ (by omega), uint8_eq b2 _ (by omega)]
        rfl
      · simp at h
    · simp at h
  split at h
  · rename_i h0 h1 h3 h4
    split at h
    · rename_i b1 b2 b3 bs''
      have hb1 := b1.toNat_lt
      have hb2 := b2.toNat_lt
      have hb3 := b3.toNat_lt
      split at h
      · rename_i h2
        simp only [Bool.and_eq_true, decide_eq_true_eq] at h2
        simp only [Prod.mk.injEq, Sym.ok.injEq] at h
        obtain ⟨rfl, rfl⟩ := h
        rw [toNat_ofNat_of _ (by omega), if_neg (by omega), if_neg (by omega), if_neg (by omega), uint8_eq b0 _ (by omega),
          uint8_eq b1 _ (by omega), uint8_eq b2 _ (by omega), uint8_eq b3 _ (by omega)]
        rfl
      · simp at h
    · simp at h
  · simp at h

/-- If no invalid byte is met, the input is the encoding of the decoded text. -/
theorem utf8_of_decode (bs : List UInt8) (s : List Char) (h : decode bs = s.map Sym.ok) : bs = utf8 s := by
  induction s generalizing bs with
  | nil =>
    cases bs with
    | nil => rfl
    | cons b bs => rw [decode] at h; simp at h
  | cons c s ih =>
    cases bs with
    | nil => rw [decode] at h; simp at h
    | cons b bs =>
      rw [decode] at h
      simp only [List.map_cons, List.cons.injEq] at h
      have h1 : decodeRune b bs = (.ok c, (decodeRune b bs).2) := Prod.ext h.1 rfl
      have := decodeRune_ok b bs c _ h1
      rw [this]
      simp only [utf8, List.flatMap_cons]
      rw [ih _ h.2]; rfl

theorem validUtf8_iff (bs : List UInt8) : ValidUtf8 bs ↔ ∀ x ∈ decode bs, ∃ c, x = Sym.ok c := by
  constructor
  · rintro ⟨s, rfl⟩ x hx
    rw [decode_utf8] at hx
    simp only [List.mem_map] at hx
    obtain ⟨c, _, rfl⟩ := hx; exact ⟨c, rfl⟩
  · intro h
    have : ∀ l : List Sym, (∀ x ∈ l, ∃ c, x = Sym.ok c) → ∃ s : List Char, l = s.map Sym.ok := by
      intro l
      induction l with
      | nil => intro _; exact ⟨[], rfl⟩
      | cons a l ih =>
        intro h
        obtain ⟨c, rfl⟩ := h a (by simp)
        obtain ⟨s, rfl⟩ := ih (fun x hx => h x (by simp [hx]))
        exact ⟨c :: s, rfl⟩
    obtain ⟨s, hs⟩ := this _ h
    exact ⟨s, utf8_of_decode bs s hs⟩

theorem utf8_inj {a b : List Char} (h : utf8 a = utf8 b) : a = b := by
  have := congrArg decode h
  rw [decode_utf8, decode_utf8] at this
  exact (List.map_inj_right (fun x y h => by simpa using h)).1 this

end Verif.Proof

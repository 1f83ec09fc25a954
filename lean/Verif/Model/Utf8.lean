import Verif.Model.Ast
/-!
# Model of `utf8.DecodeRune` as used by `parser.read` (parse/internal/parser/zparser.go:2162-2178)

The parser looks at its `[]byte` input only through `utf8.DecodeRune(p.data[p.pt.offset:])`, which returns the rune and
its width.  Decoding from offset 0 on always meets the same boundaries, so the input is the list of decoded symbols.
-/
namespace Verif

/-- What `utf8.DecodeRune` yields at one offset: a rune (width 1 to 4), or `utf8.RuneError` with width 1 for an
invalid byte.  (`RuneError` with width 0, end of input, is the empty list of symbols.) (zparser.go:2163) -/
inductive Sym where
  | ok (c : Char)
  | bad (b : UInt8)
  deriving DecidableEq, Repr

/-- The rune `p.pt.rn` (zparser.go:2165): `utf8.RuneError`, i.e. U+FFFD, for an invalid byte. -/
def Sym.rune : Sym → Char
  | .ok c => c
  | .bad _ => '\uFFFD'

/-- A continuation byte: between 0x80 and 0xBF. (for `utf8.DecodeRune`, called at zparser.go:2163) -/
def isCont (b : UInt8) : Bool := 0x80 ≤ b.toNat && b.toNat ≤ 0xBF

/-- `utf8.DecodeRune` (Go standard library, called at zparser.go:2164) on a non-empty byte slice `b0 :: bs`:
the symbol and the bytes after it.  The ranges are those of the library's `first` and `acceptRanges` tables. -/
def decodeRune (b0 : UInt8) (bs : List UInt8) : Sym × List UInt8 :=
  let n0 := b0.toNat
  if n0 < 0x80 then (.ok (Char.ofNat n0), bs)
  else if 0xC2 ≤ n0 ∧ n0 ≤ 0xDF then
    match bs with
    | b1 :: bs' => if isCont b1 then (.ok (Char.ofNat ((n0 - 0xC0) * 64 + (b1.toNat - 0x80))), bs') else (.bad b0, bs)
    | _ => (.bad b0, bs)
  else if 0xE0 ≤ n0 ∧ n0 ≤ 0xEF then
    match bs with
    | b1 :: b2 :: bs' =>
      if isCont b1 ∧ isCont b2 ∧ (n0 = 0xE0 → 0xA0 ≤ b1.toNat) ∧ (n0 = 0xED → b1.toNat ≤ 0x9F) then
        (.ok (Char.ofNat ((n0 - 0xE0) * 4096 + (b1.toNat - 0x80) * 64 + (b2.toNat - 0x80))), bs')
      else (.bad b0, bs)
    | _ => (.bad b0, bs)
  else if 0xF0 ≤ n0 ∧ n0 ≤ 0xF4 then
    match bs with
    | b1 :: b2 :: b3 :: bs' =>
      if isCont b1 ∧ isCont b2 ∧ isCont b3 ∧ (n0 = 0xF0 → 0x90 ≤ b1.toNat) ∧ (n0 = 0xF4 → b1.toNat ≤ 0x8F) then
        (.ok (Char.ofNat ((n0 - 0xF0) * 262144 + (b1.toNat - 0x80) * 4096 + (b2.toNat - 0x80) * 64 + (b3.toNat - 0x80))), bs')
      else (.bad b0, bs)
    | _ => (.bad b0, bs)
  else (.bad b0, bs)

theorem decodeRune_length (b0 : UInt8) (bs : List UInt8) : (decodeRune b0 bs).2.length ≤ bs.length := by
  unfold decodeRune
  simp only []
  by_cases h1 : b0.toNat < 0x80
  · rw [if_pos h1]; exact Nat.le_refl _
  rw [if_neg h1]
  repeat' split
  all_goals simp only [List.length_cons]; omega

/-- The symbols `read` (zparser.go:2162-2178) meets when it advances from offset 0 to the end of `p.data`. -/
def decode : List UInt8 → List Sym
  | [] => []
  | b0 :: bs => (decodeRune b0 bs).1 :: decode (decodeRune b0 bs).2
termination_by bs => bs.length
decreasing_by simpa using Nat.lt_succ_of_le (decodeRune_length b0 bs)

end Verif

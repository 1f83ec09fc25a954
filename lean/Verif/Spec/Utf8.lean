/-!
# Specification of UTF-8

`String.utf8EncodeChar` is Lean's own definition of the UTF-8 encoding of one character.
-/
namespace Verif.Spec

/-- The UTF-8 encoding of a text. -/
def utf8 (s : List Char) : List UInt8 := s.flatMap String.utf8EncodeChar

/-- A byte sequence is valid UTF-8 if it is the encoding of some text. -/
def ValidUtf8 (bs : List UInt8) : Prop := ∃ s, bs = utf8 s

end Verif.Spec

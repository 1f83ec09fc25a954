import Verif.Model.Reader
/-!
# What a reader delivers
-/
namespace Verif.Spec

open Verif

/-- The call follows the rules of `io.Reader`: it reports between 0 and `len(p)` bytes, all of which it has stored. -/
def Fair {σ : Type} (p : List UInt8) (c : ReadCall σ) : Prop := 0 ≤ c.n ∧ c.n ≤ p.length ∧ c.n ≤ c.stored.length

/-- The bytes the call reports. -/
def delivered {σ : Type} (c : ReadCall σ) : List UInt8 := c.stored.take c.n.toNat

/-- The reader `rd` in state `s` **holds** the bytes `bs`, followed by `e`: whatever room it is given, at each call, it delivers the next some of these bytes (none, one, all: as it likes),
it reports `e` with the last of them or after them, and not earlier, and it does get to the end (this is inductive: it cannot go on delivering nothing for ever). -/
inductive Holds {σ : Type} (rd : Reader σ) : σ → List UInt8 → ReadEnd → Prop where
  | intro {s bs e}
      (works : ∀ p, p ≠ [] → ∃ c, rd s p = some c)
      (fair : ∀ p c, p ≠ [] → rd s p = some c → Fair p c)
      (next : ∀ p c, p ≠ [] → rd s p = some c → delivered c <+: bs)
      (goesOn : ∀ p c, p ≠ [] → rd s p = some c → c.err = none → Holds rd c.next (bs.drop (delivered c).length) e)
      (ends : ∀ p c e', p ≠ [] → rd s p = some c → c.err = some e' → e' = e ∧ delivered c = bs) : Holds rd s bs e

/-- One conversation with a reader: it was called, with some room each time, until it reported `e`; put together, it delivered `bs`. -/
inductive Conversation {σ : Type} (rd : Reader σ) : σ → List UInt8 → ReadEnd → Prop where
  | last {s p c e} : p ≠ [] → rd s p = some c → c.err = some e → Conversation rd s (delivered c) e
  | more {s p c bs e} : p ≠ [] → rd s p = some c → c.err = none → Conversation rd c.next bs e → Conversation rd s (delivered c ++ bs) e

/-- The reader `rd`, except that it panics when it is called without room, or once more after it has reported an error. -/
def strict {σ : Type} (rd : Reader σ) : Reader (σ × Bool) := fun s p =>
  if p = [] ∨ s.2 = true then none
  else (rd s.1 p).map fun c => ⟨c.stored, c.n, c.err, (c.next, c.err.isSome)⟩

/-- The outcome of a call that returns sooner or later: `r` after enough rounds, and never anything else. -/
def Returns {α : Type} (f : Nat → Option α) (r : α) : Prop := (∃ k, f k = some r) ∧ ∀ k r', f k = some r' → r' = r

/-- The call does not return. -/
def NeverReturns {α : Type} (f : Nat → Option α) : Prop := ∀ k, f k = none

end Verif.Spec

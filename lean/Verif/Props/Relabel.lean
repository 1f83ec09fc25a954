import Verif.Proof.Relabel
import Verif.Props.Expand
/-!
# Property C68: expansion looks at nothing but opcodes and shapes
-/
namespace Verif.Props

open Verif Verif.Spec

/-- C68.  Whatever is put in the place of variables, Go expressions, bindings, types, AuxInt, Aux, ellipsis, trailing, conditions and blocks (they may be removed, added or
exchanged): if `ExpandAlternates` succeeds, it succeeds on the changed file, and its result is changed in the same way; otherwise it fails with the same
error, or panics likewise.  (In particular, reading the Go expressions as pointers: every expanded rule has the Go expressions of the rule it comes from.) -/
theorem C68_opcodes_only (L : Relabelling) (f : File) :
    (∀ g, expandAlternates f = .ok g → expandAlternates (L.file f) = .ok (L.file g)) ∧
    (∀ e, expandAlternates f = .err e → expandAlternates (L.file f) = .err e) ∧
    (expandAlternates f = .panic → expandAlternates (L.file f) = .panic) := by
  rw [expand_relabel]
  refine ⟨fun g h => ?_, fun e h => ?_, fun h => ?_⟩ <;> rw [h] <;> rfl

/-- All variables become `v`, everything else is removed, but there is a block. -/
def bareLabels : Relabelling where
  var _ := ['v']
  expr := id
  binding _ := []
  type _ := []
  auxInt _ := none
  aux _ := none
  ellipsis _ := false
  trailing _ := false
  condition _ := none
  block _ := ['b']

example :
    ∃ g, expandAlternates ⟨[altRule, plainRule]⟩ = .ok g ∧ g.rules.length = 3 ∧
      expandAlternates (bareLabels.file ⟨[altRule, plainRule]⟩) = .ok (bareLabels.file g) ∧
      (bareLabels.file g).rules[1]? = some { «match» := .sexpr { op := .opcode "Add16".toList } [.var ['v'], .sexpr { op := .opcode "Neg16".toList } [.var ['v']]], result := .sexpr { op := .opcode "Sub16".toList } [.var ['v'], .var ['v']], block := ['b'] } :=
  ⟨_, rfl, rfl, rfl, rfl⟩

end Verif.Props

import Verif.Proof.GenError
/-!
# What the errors of the SMT generator say (C56)
-/
namespace Verif.Props

open Verif Verif.Spec Verif.Spec.Smt Verif.Spec.Ssa

private def op (o : String) (args : List Value) : Value := .sexpr { op := .opcode o.toList } args
private def x : Value := .var ['x']
private def y : Value := .var ['y']

/-- C56.  `Generate` fails with a message exactly when that message is the specified account of the first obstacle in the rule (`Spec.Ssa.NoScript`):
an unprintable part; a match that is a single variable; trouble in the match; a condition; a block; trouble in the result.  In particular the messages about
inconsistent types of a variable and about a result type that cannot be inferred never occur. -/
theorem C56_error_iff (r : Rule) (msg : Str) : (∃ e, generate r = .err e ∧ e.text = msg) ↔ NoScript r msg := generate_err_iff r msg

/-- C56.  Every rule outside the supported fragment has exactly one such account, and no rule inside has one. -/
theorem C56_one_reason (r : Rule) : (¬ ∃ so, RuleFragment so r) ↔ ∃ msg, NoScript r msg ∧ ∀ msg', NoScript r msg' → msg' = msg := by
  constructor
  · intro h
    obtain ⟨e, _, k⟩ := generate_err (fun s hs => h ⟨s, hs⟩)
    exact ⟨_, k, fun _ k' => noScript_unique k' k⟩
  · rintro ⟨msg, k, _⟩ ⟨s, hs⟩
    exact noScript_not_fragment k s hs

/-- C56.  The opcodes and argument numbers in a message about trouble in a value lead to the value that is wrong: following them from the outermost
opcode, one meets just these opcodes and arrives at a value with the stated fault. -/
theorem C56_points_at (s : Srt) (v : Value) (p : List (Str × Nat)) (c : Cause) (h : Trouble s v p c) : ∃ w, argAt v p = some w ∧ Wrong s w c :=
  trouble_argAt h

/-- C56.  Such messages are unambiguous: from the text one can recover the path and the fault. -/
theorem C56_readable (s s' : Srt) (v v' : Value) (p p' : List (Str × Nat)) (c c' : Cause) (h : Trouble s v p c) (h' : Trouble s' v' p' c')
    (e : say p c = say p' c') : p = p' ∧ c = c' := say_inj h h' e

/-- `(Sub8 y (Neg8 (Add16 x y))) => x`: the message, and the account behind it. -/
example : ∃ e, generate { «match» := op "Sub8" [y, op "Neg8" [op "Add16" [x, y]]], result := x } = .err e ∧
    e.text = "Sub8: evaluate argument 1: Neg8: evaluate argument 0: Add16: invalid return type int8".toList :=
  ⟨.other _, rfl, by decide +kernel⟩
example : Trouble (.bv 8) (op "Sub8" [y, op "Neg8" [op "Add16" [x, y]]]) [("Sub8".toList, 1), ("Neg8".toList, 0)] (.sort "Add16".toList (.bv 8)) :=
  have b (o : Op) : bareHdr { op := o } := ⟨rfl, rfl, rfl, rfl, rfl, rfl⟩
  .inside (before := [y]) (m := .bin 8 fun x y => x - y) (b _) rfl rfl rfl rfl (.cons (.var _) .nil)
    (.inside (before := []) (m := .un 8 fun x => -x) (b _) rfl rfl rfl rfl .nil
      (.here (.sort (m := .bin 16 fun x y => x + y) (b _) rfl rfl (by decide))))
/-- `(Add8 x) => x`, and a rule with a block whose result is wrong too: the block is reported. -/
example : ∃ e, generate { «match» := op "Add8" [x], result := x } = .err e ∧ e.text = "Add8: expect 2 arguments got 1".toList :=
  ⟨.other _, rfl, by decide +kernel⟩
example : NoScript { «match» := op "Add8" [x, y], block := ['a'], result := op "Add16" [x, y] } "not supported: rule blocks".toList :=
  (C56_error_iff _ _).1 ⟨.notSupported _, rfl, by decide +kernel⟩

end Verif.Props

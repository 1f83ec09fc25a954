import Verif.Spec.Count
import Verif.Proof.CountLinear
import Verif.Props.Parse
/-!
# C59: the work of the parser

`exprCnt lib bs` is the number of calls of `parseExpr` (the parser's statistic `ExprCnt`) while `parse.String` reads `bs`: every attempt to match an expression of the
grammar counts, also those given up when the machine backtracks.
-/
namespace Verif.Props

open Verif Verif.Spec Verif.Proof

/-- The machine that counts is the machine. -/
theorem C59_counts_the_run (lib : GoLib) (n : Nat) (e : PExpr) (s : St) :
    (runN (ruleGrammar lib) n e s).map Prod.fst = run (ruleGrammar lib) n e s :=
  (Count.runN_fst (ruleGrammar lib) n).1 e s

/-- The number is that of a finished run. -/
theorem C59_counted (lib : GoLib) (bs : List UInt8) :
    ∃ o, run (ruleGrammar lib) (depthBound bs.length) gFile (push (initSt (decode bs))) = some o ∧
      runN (ruleGrammar lib) (depthBound bs.length) gFile (push (initSt (decode bs))) = some (o, exprCnt lib bs) := by
  have h1 := C59_counts_the_run lib (depthBound bs.length) gFile (push (initSt (decode bs)))
  have h2 := (Count.runN_sim (ruleGrammar lib) (depthBound bs.length)).1 gFile (push (initSt (decode bs))) _ rfl
  have h3 := Count.idle_ends lib bs
  unfold exprCnt
  show ∃ o, _ ∧ _ = some (o, (match runN (ruleGrammar lib) (depthBound bs.length) gFile (push (initSt (decode bs))) with | some (_, c) => c | none => 0))
  generalize runN (ruleGrammar lib) (depthBound bs.length) gFile (push (initSt (decode bs))) = x at *
  generalize runN (Count.idle (ruleGrammar lib)) (depthBound bs.length) gFile (push (initSt (decode bs))) = y at *
  rcases x with _ | ⟨o, c⟩
  · exact absurd (by rcases y with _ | ⟨_ | _ | _, k⟩ <;> first | rfl | exact h2.elim) h3
  · exact ⟨o, h1.symm, rfl⟩

/-- The number is that of the evaluations the grammar prescribes for the text (Spec/Count.lean), or less if an action panics, which ends the parse. -/
theorem C59_evaluations (lib : GoLib) (bs : List UInt8) :
    ∃ r k, Ev gRules (.e gFile) ((decode bs).map Sym.rune) r k ∧
      (exprCnt lib bs = k ∨ exprCnt lib bs ≤ k ∧ ∃ s, run (ruleGrammar lib) (depthBound bs.length) gFile (push (initSt (decode bs))) = some (.panic s)) := by
  obtain ⟨o, h1, h2⟩ := C59_counted lib bs
  have hpos : (push (initSt (decode bs))).pos = decode bs := initSt_pos _
  cases o with
  | ok v s =>
    have := Count.runN_real h2
    rw [hpos] at this
    exact ⟨_, _, this, .inl rfl⟩
  | fail s =>
    have := (Count.runN_realFail h2).2
    rw [hpos] at this
    exact ⟨_, _, this, .inl rfl⟩
  | panic s =>
    obtain ⟨r, k, h, hk⟩ := Count.exprCnt_ev lib bs
    exact ⟨r, k, h, .inr ⟨hk, s, h1⟩⟩

/-- The grammar prescribes one number. -/
theorem C59_one_number {rules : RuleName → PExpr} {e l r r' k k'} (h : Ev rules (.e e) l r k) (h' : Ev rules (.e e) l r' k') : r = r' ∧ k = k' :=
  Count.ev_det h' h

/-- C59.  The work is linear in the size of the input, accepted or not: backtracking never adds up. -/
theorem C59_linear {lib : GoLib} (hl : RejectsComment lib) (bs : List UInt8) : exprCnt lib bs ≤ 250 * bs.length + 710 :=
  Count.exprCnt_linear hl bs

/-- Whatever the Go parser accepts, the work is linear but for the square of the last line, if that is not terminated. -/
theorem C59_any_go_parser (lib : GoLib) (bs : List UInt8) : exprCnt lib bs ≤ 250 * bs.length + (lastLine bs).length ^ 2 + 710 := by
  have h := Count.exprCnt_le lib bs
  have e : (lastLine bs).length = Count.after 10 bs := by simp only [lastLine, Count.after, List.length_reverse]
  rw [e, Nat.pow_two]; exact h

/-- A small count by hand: the text `a` against the choice of `ab` and `a` takes three evaluations, the choice and its two alternatives. -/
example : Ev gRules (.e (.choice [.lit ['a', 'b'], .lit ['a']])) ['a'] (some []) 3 :=
  .choice (.alt_next (r := some []) (k := 1) (k' := 1) (.lit (v := ['a', 'b'])) (.alt_ok (.lit (v := ['a']) (l := ['a']))))

/-! The hypothesis of `C59_linear` is met by the stand-in of the examples, and the numbers are those of the program: -/

example : RejectsComment demoLib := demoLib_rejects
example : exprCnt demoLib [] = 40 := by decide +kernel
example : exprCnt demoLib (utf8 demoText) = 543 := by decide +kernel
example : exprCnt demoLib (utf8 "(A (A (A x))) => y".toList) = 408 := by decide +kernel

end Verif.Props

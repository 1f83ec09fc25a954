import Verif.Proof.Peg
import Verif.Model.Parse
/-! # Termination of the PEG machine: a static check of the grammar gives a linear bound on the recursion depth -/
namespace Verif.Proof
open Verif

mutual
/-- May the expression match without consuming input? (`nul` says so for rules.) -/
def nullable (nul : RuleName → Bool) : PExpr → Bool
  | .action _ e => nullable nul e
  | .any => false
  | .cls .. => false
  | .choice es => nullableAny nul es
  | .labeled _ e => nullable nul e
  | .lit v => v.isEmpty
  | .not _ => true
  | .oneOrMore e => nullable nul e
  | .ruleRef r => nul r
  | .seq es => nullableAll nul es
  | .zeroOrMore _ => true
  | .zeroOrOne _ => true
def nullableAny (nul : RuleName → Bool) : List PExpr → Bool
  | [] => false
  | e :: es => nullable nul e || nullableAny nul es
def nullableAll (nul : RuleName → Bool) : List PExpr → Bool
  | [] => true
  | e :: es => nullable nul e && nullableAll nul es
end

mutual
/-- Size, as fuel. -/
def psize : PExpr → Nat
  | .action _ e => psize e + 1
  | .any => 1
  | .cls .. => 1
  | .choice es => psizes es + 1
  | .labeled _ e => psize e + 1
  | .lit _ => 1
  | .not e => psize e + 1
  | .oneOrMore e => psize e + 2
  | .ruleRef _ => 1
  | .seq es => psizes es + 1
  | .zeroOrMore e => psize e + 2
  | .zeroOrOne e => psize e + 1
def psizes : List PExpr → Nat
  | [] => 1
  | e :: es => max (psize e) (psizes es) + 1
end

/-- Static data for the check: nullability and rank of rules, a strict bound on ranks. -/
structure Static where
  nul : RuleName → Bool
  rank : RuleName → Nat
  top : Nat

mutual
/-- Rule references that can be reached without consuming input have a rank below `r` (below `top` elsewhere), and loop bodies consume. -/
def wf (S : Static) (r : Nat) : PExpr → Bool
  | .action _ e => wf S r e
  | .any => true
  | .cls .. => true
  | .choice es => wfAll S r es
  | .labeled _ e => wf S r e
  | .lit _ => true
  | .not e => wf S r e
  | .oneOrMore e => wf S r e && !nullable S.nul e
  | .ruleRef n => S.rank n < r
  | .seq es => wfSeq S r es
  | .zeroOrMore e => wf S r e && !nullable S.nul e
  | .zeroOrOne e => wf S r e
def wfAll (S : Static) (r : Nat) : List PExpr → Bool
  | [] => true
  | e :: es => wf S r e && wfAll S r es
def wfSeq (S : Static) (r : Nat) : List PExpr → Bool
  | [] => true
  | e :: es => wf S r e && (if nullable S.nul e then wfSeq S r es else wfSeq S S.top es)
end

/-- The whole table passes the check, with `M` above the size of every rule. -/
structure Checked (G : Grammar) (S : Static) (M : Nat) : Prop where
  nul : ∀ r, nullable S.nul (G.rules r) = true → S.nul r = true
  wf : ∀ r, wf S (S.rank r) (G.rules r) = true
  size : ∀ r, psize (G.rules r) < M
  top : ∀ r, S.rank r < S.top

theorem run_suffix {G n e s o} (h : run G n e s = some o) : After (fun s s' => s'.pos <:+ s.pos) s o :=
  ((step_suffix G).run n).1 e s o h

theorem popTo_ok {o : Option POut} {fr v s'} (h : o.map (popTo fr) = some (.ok v s')) :
    ∃ s'', o = some (.ok v s'') ∧ s' = { s'' with frame := fr } := by
  cases o with
  | none => simp at h
  | some x =>
    cases x with
    | ok v' s'' => simp [popTo] at h; obtain ⟨rfl, rfl⟩ := h; exact ⟨s'', rfl, rfl⟩
    | fail _ => simp [popTo] at h
    | panic _ => simp [popTo] at h

theorem popTo_fail {o : Option POut} {fr s'} (h : o.map (popTo fr) = some (.fail s')) :
    ∃ s'', o = some (.fail s'') ∧ s' = { s'' with frame := fr } := by
  cases o with
  | none => simp at h
  | some x =>
    cases x with
    | ok v' s'' => simp [popTo] at h
    | fail s'' => simp [popTo] at h; subst h; exact ⟨s'', rfl, rfl⟩
    | panic _ => simp [popTo] at h

theorem suffix_len {a b : List Sym} (h : a <:+ b) : a.length ≤ b.length := h.length_le

theorem litLoop_ok {start : List Sym} {val : List Char} {s : St} {v s'} (h : litLoop start val s = .ok v s') :
    s'.pos.length + val.length = s.pos.length := by
  induction val generalizing s with
  | nil => simp [litLoop] at h; obtain ⟨_, rfl⟩ := h; rfl
  | cons c cs ih =>
    rw [litLoop] at h
    split at h
    · simp at h
    · rename_i x l hp
      split at h
      · have := ih h
        obtain ⟨e, he⟩ := read_eq s
        rw [he] at this; simp only [hp, List.tail_cons, List.length_cons] at this ⊢; omega
      · simp at h

theorem read_len (s : St) (x l) (hp : s.pos = x :: l) : (read s).pos.length < s.pos.length := by
  obtain ⟨e, he⟩ := read_eq s; rw [he, hp]; simp

/-- An expression that is not nullable consumes input when it matches. -/
theorem progress {G : Grammar} {S : Static} {M : Nat} (C : Checked G S M) (n : Nat) :
    (∀ e s v s', nullable S.nul e = false → run G n e s = some (.ok v s') → s'.pos.length < s.pos.length) ∧
    (∀ es s v s', nullableAny S.nul es = false → runChoice G n es s = some (.ok v s') → s'.pos.length < s.pos.length) ∧
    (∀ st es vs s v s', nullableAll S.nul es = false → runSeq G n st es vs s = some (.ok v s') → s'.pos.length < s.pos.length) ∧
    (∀ e s v s', nullable S.nul e = false → runLoop G n e true [] s = some (.ok v s') → s'.pos.length < s.pos.length) := by
  induction n with
  | zero => simp [run, runChoice, runSeq, runLoop]
  | succ n ih =>
    obtain ⟨ih1, ih2, ih3, ih4⟩ := ih
    refine ⟨?_, ?_, ?_, ?_⟩
    · intro e s v s' hn h
      cases e with
      | action a e =>
        simp only [run] at h
        cases hr : run G n e s with
        | none => rw [hr] at h; simp at h
        | some x =>
          rw [hr] at h
          cases x with
          | fail s' => simp at h
          | panic s' => simp at h
          | ok w s1 =>
            simp only [Option.some.injEq] at h
            obtain ⟨l, m, rfl⟩ := runAction_ok h
            have := ih1 _ _ _ _ (by simpa [nullable] using hn) hr
            exact this
      | any =>
        simp only [run, Option.some.injEq] at h
        unfold parseAny at h; split at h
        · simp at h
        · rename_i hp; simp at h; obtain ⟨_, rfl⟩ := h; exact read_len _ _ _ hp
      | cls chars ranges inv =>
        simp only [run, Option.some.injEq] at h
        unfold parseCls at h; split at h
        · simp at h
        · rename_i hp
          repeat' split at h
          all_goals (simp at h <;> (obtain ⟨_, rfl⟩ := h; exact read_len _ _ _ hp))
      | choice es => simp only [run] at h; exact ih2 _ _ _ _ (by simpa [nullable] using hn) h
      | labeled l e =>
        simp only [run] at h
        cases hr : (run G n e (push s)).map (popTo s.frame) with
        | none => rw [hr] at h; simp at h
        | some x =>
          rw [hr] at h
          cases x with
          | fail s' => simp at h
          | panic s' => simp at h
          | ok w s1 =>
            simp at h; obtain ⟨_, rfl⟩ := h
            obtain ⟨s2, h2, rfl⟩ := popTo_ok hr
            have := ih1 _ _ _ _ (by simpa [nullable] using hn) h2
            exact this
      | lit v =>
        simp only [run, Option.some.injEq] at h
        have := litLoop_ok h
        cases v with
        | nil => simp [nullable] at hn
        | cons c cs => simp at this; omega
      | not e => simp [nullable] at hn
      | oneOrMore e => simp only [run] at h; exact ih4 _ _ _ _ (by simpa [nullable] using hn) h
      | ruleRef r =>
        simp only [run] at h
        obtain ⟨s2, h2, rfl⟩ := popTo_ok h
        have hnr : nullable S.nul (G.rules r) = false := by
          cases hc : nullable S.nul (G.rules r) with
          | false => rfl
          | true => have := C.nul r hc; simp [nullable, this] at hn
        have := ih1 (G.rules r) _ _ _ hnr h2
        exact this
      | seq es => simp only [run] at h; exact ih3 _ _ _ _ _ _ (by simpa [nullable] using hn) h
      | zeroOrMore e => simp [nullable] at hn
      | zeroOrOne e => simp [nullable] at hn
    · intro es s v s' hn h
      cases es with
      | nil => simp [runChoice] at h
      | cons e es =>
        simp only [nullableAny, Bool.or_eq_false_iff] at hn
        rw [runChoice] at h
        cases hr : (run G n e (push s)).map (popTo s.frame) with
        | none => rw [hr] at h; simp at h
        | some x =>
          rw [hr] at h
          cases x with
          | fail s1 =>
            simp only [] at h
            have := ih2 _ _ _ _ hn.2 h
            obtain ⟨s2, h2, rfl⟩ := popTo_fail hr
            have h3 := run_suffix h2
            have := suffix_len h3
            simp only [push] at *
            omega
          | ok w s1 =>
            simp at h; obtain ⟨_, rfl⟩ := h
            obtain ⟨s2, h2, rfl⟩ := popTo_ok hr
            have := ih1 _ _ _ _ hn.1 h2
            exact this
          | panic s' => simp at h
    · intro st es vs s v s' hn h
      cases es with
      | nil => simp [nullableAll] at hn
      | cons e es =>
        simp only [nullableAll, Bool.and_eq_false_iff] at hn
        rw [runSeq] at h
        cases hr : run G n e s with
        | none => rw [hr] at h; simp at h
        | some x =>
          rw [hr] at h
          cases x with
          | fail s1 => simp at h
          | panic s' => simp at h
          | ok w s1 =>
            simp only [] at h
            have hs1 := suffix_len (run_suffix hr)
            have hs2 : s'.pos.length ≤ s1.pos.length := by
              have h1 : run G (n+1) (.seq es) s1 = runSeq G n s1.pos es [] s1 := rfl
              have := ((step_suffix G).run n).2.2.1 { s1 with pos := s1.pos } es (vs ++ [w]) s1
              -- the start position only matters on failure
              have key : ∀ m a b es vs s, ∀ v s', runSeq G m a es vs s = some (.ok v s') → runSeq G m b es vs s = some (.ok v s') := by
                intro m
                induction m with
                | zero => simp [runSeq]
                | succ m ihm =>
                  intro a b es vs s v s' h
                  cases es with
                  | nil => simpa [runSeq] using h
                  | cons e es =>
                    rw [runSeq] at h ⊢
                    cases hr : run G m e s with
                    | none => rw [hr] at h; simp at h
                    | some x =>
                      rw [hr] at h
                      cases x with
                      | ok w s1 => exact ihm _ _ _ _ _ _ _ h
                      | fail s1 => simp at h
                      | panic s1 => simp at h
              exact suffix_len (this _ (List.suffix_refl _) (key _ _ _ _ _ _ _ _ h))
            rcases hn with hn | hn
            · have := ih1 _ _ _ _ hn hr; omega
            · have := ih3 _ _ _ _ _ _ hn h; omega
    · intro e s v s' hn h
      rw [runLoop] at h
      cases hr : (run G n e (push s)).map (popTo s.frame) with
      | none => rw [hr] at h; simp at h
      | some x =>
        rw [hr] at h
        cases x with
        | fail s1 => simp at h
        | panic s1 => simp at h
        | ok w s1 =>
          simp only [] at h
          obtain ⟨s2, h2, rfl⟩ := popTo_ok hr
          have a := ih1 _ _ _ _ hn h2
          have b := suffix_len (((step_suffix G).run n).2.2.2 _ _ _ _ _ h)
          simp only [push] at a b; omega

/-- The depth bound: `M` and `K ≥ top * M` from the check. -/
theorem terminates {G : Grammar} {S : Static} {M K : Nat} (C : Checked G S M) (hK : S.top * M ≤ K) (f : Nat) :
    (∀ e s r, wf S r e = true → s.pos.length * K + r * M + psize e ≤ f → run G f e s ≠ none) ∧
    (∀ es s r, wfAll S r es = true → s.pos.length * K + r * M + psizes es ≤ f → runChoice G f es s ≠ none) ∧
    (∀ st es vs s r, wfSeq S r es = true → s.pos.length * K + r * M + psizes es ≤ f → runSeq G f st es vs s ≠ none) ∧
    (∀ e need vs s r, wf S r e = true → nullable S.nul e = false → s.pos.length * K + r * M + (psize e + 1) ≤ f →
      runLoop G f e need vs s ≠ none) := by
  induction f with
  | zero =>
    refine ⟨?_, ?_, ?_, ?_⟩
    · intro e s r _ h; have : 0 < psize e := by cases e <;> simp [psize]
      omega
    · intro es s r _ h; have : 0 < psizes es := by cases es <;> simp [psizes]
      omega
    · intro st es vs s r _ h; have : 0 < psizes es := by cases es <;> simp [psizes]
      omega
    · intro e need vs s r _ _ h; omega
  | succ f ih =>
    obtain ⟨ih1, ih2, ih3, ih4⟩ := ih
    have hmap : ∀ e s r fr, wf S r e = true → s.pos.length * K + r * M + psize e ≤ f → (run G f e (push s)).map (popTo fr) ≠ none := by
      intro e s r fr h1 h2
      have := ih1 e (push s) r h1 h2
      simpa using this
    refine ⟨?_, ?_, ?_, ?_⟩
    · intro e s r hw hf
      cases e with
      | action a e =>
        simp only [run]
        have := ih1 e s r (by simpa [wf] using hw) (by simp only [psize] at hf; omega)
        cases hr : run G f e s with
        | none => exact absurd hr this
        | some x => cases x <;> simp
      | any => simp [run]
      | cls => simp [run]
      | choice es => simp only [run]; exact ih2 _ _ r (by simpa [wf] using hw) (by simp only [psize] at hf; omega)
      | labeled l e =>
        simp only [run]
        have := hmap e s r s.frame (by simpa [wf] using hw) (by simp only [psize] at hf; omega)
        cases hr : (run G f e (push s)).map (popTo s.frame) with
        | none => exact absurd hr this
        | some x => cases x <;> simp
      | lit v => simp [run]
      | not e =>
        simp only [run]
        have := hmap e s r s.frame (by simpa [wf] using hw) (by simp only [psize] at hf; omega)
        cases hr : (run G f e (push s)).map (popTo s.frame) with
        | none => exact absurd hr this
        | some x => cases x <;> simp
      | oneOrMore e =>
        simp only [run]
        simp only [wf, Bool.and_eq_true, Bool.not_eq_true'] at hw
        exact ih4 _ _ _ _ r hw.1 hw.2 (by simp only [psize] at hf; omega)
      | ruleRef n =>
        simp only [run]
        simp only [wf, decide_eq_true_eq] at hw
        refine hmap _ _ (S.rank n) _ (C.wf n) ?_
        have h1 := C.size n
        have h2 : (S.rank n + 1) * M ≤ r * M := Nat.mul_le_mul_right _ hw
        rw [Nat.add_mul] at h2
        simp only [psize] at hf
        omega
      | seq es => simp only [run]; exact ih3 _ _ _ _ r (by simpa [wf] using hw) (by simp only [psize] at hf; omega)
      | zeroOrMore e =>
        simp only [run]
        simp only [wf, Bool.and_eq_true, Bool.not_eq_true'] at hw
        exact ih4 _ _ _ _ r hw.1 hw.2 (by simp only [psize] at hf; omega)
      | zeroOrOne e =>
        simp only [run]
        have := hmap e s r s.frame (by simpa [wf] using hw) (by simp only [psize] at hf; omega)
        cases hr : (run G f e (push s)).map (popTo s.frame) with
        | none => exact absurd hr this
        | some x => cases x <;> simp
    · intro es s r hw hf
      cases es with
      | nil => simp [runChoice]
      | cons e es =>
        rw [runChoice]
        simp only [wfAll, Bool.and_eq_true] at hw
        simp only [psizes] at hf
        have := hmap e s r s.frame hw.1 (by omega)
        cases hr : (run G f e (push s)).map (popTo s.frame) with
        | none => exact absurd hr this
        | some x =>
          cases x with
          | ok v s' => simp
          | panic s' => simp
          | fail s' =>
            obtain ⟨s2, h2, rfl⟩ := popTo_fail hr
            have h3 := suffix_len (run_suffix h2)
            simp only [push] at h3
            refine ih2 _ _ r hw.2 ?_
            have := Nat.mul_le_mul_right K h3
            simp only; omega
    · intro st es vs s r hw hf
      cases es with
      | nil => simp [runSeq]
      | cons e es =>
        rw [runSeq]
        simp only [wfSeq, Bool.and_eq_true] at hw
        simp only [psizes] at hf
        have := ih1 e s r hw.1 (by omega)
        cases hr : run G f e s with
        | none => exact absurd hr this
        | some x =>
          cases x with
          | fail s' => simp
          | panic s' => simp
          | ok v s' =>
            have h3 := suffix_len (run_suffix hr)
            by_cases hn : nullable S.nul e = true
            · have hw2 := hw.2; rw [if_pos hn] at hw2
              refine ih3 _ _ _ _ r hw2 ?_
              have := Nat.mul_le_mul_right K h3
              omega
            · have hw2 := hw.2; rw [if_neg hn] at hw2
              have h4 := (progress C f).1 _ _ _ _ (by simpa using hn) hr
              refine ih3 _ _ _ _ S.top hw2 ?_
              have := Nat.mul_le_mul_right K (Nat.succ_le_of_lt h4)
              rw [Nat.succ_mul] at this
              omega
    · intro e need vs s r hw hn hf
      rw [runLoop]
      have := hmap e s r s.frame hw (by omega)
      cases hr : (run G f e (push s)).map (popTo s.frame) with
      | none => exact absurd hr this
      | some x =>
        cases x with
        | panic s' => simp
        | fail s' => simp only []; split <;> simp
        | ok v s' =>
          obtain ⟨s2, h2, rfl⟩ := popTo_ok hr
          have h4 := (progress C f).1 _ _ _ _ hn h2
          simp only [push] at h4
          refine ih4 _ _ _ _ r hw hn ?_
          have h5 := Nat.mul_le_mul_right K (Nat.succ_le_of_lt h4)
          have h6 : 0 < S.top := by have := C.top .File; omega
          have h7 : 0 < M := by have := C.size .File; omega
          have h8 : 0 < S.top * M := Nat.mul_pos h6 h7
          rw [Nat.succ_mul] at h5
          simp only; omega

/-! ## The rule grammar passes the check -/

/-- Only `File` can match the empty input; ranks order the rules by left reachability. -/
def ruleStatic : Static where
  nul := fun r => r == .File
  rank := fun
    | .Call => 0 | .Expr => 1 | .SExpr => 0 | .Value => 2 | .Operand => 3 | .Rule => 3 | .File => 4
  top := 5

theorem rule_checked (lib : GoLib) : Checked (ruleGrammar lib) ruleStatic 40 where
  nul r := by
    show nullable ruleStatic.nul (gRules r) = true → ruleStatic.nul r = true
    cases r <;> decide
  wf r := by
    show wf ruleStatic (ruleStatic.rank r) (gRules r) = true
    cases r <;> decide
  size r := by
    show psize (gRules r) < 40
    cases r <;> decide
  top r := by cases r <;> decide

theorem decode_length (bs : List UInt8) : (decode bs).length ≤ bs.length := by
  induction h : bs.length using Nat.strongRecOn generalizing bs with
  | ind n ih =>
    cases bs with
    | nil => simp [decode]
    | cons b bs =>
      rw [decode]
      simp only [List.length_cons] at h ⊢
      have h1 := decodeRune_length b bs
      have := ih _ (by omega) (decodeRune b bs).2 rfl
      omega

theorem noteBad_pos (s : St) : (noteBad s).pos = s.pos := by
  obtain ⟨l, hl⟩ := noteBad_eq s; rw [hl]

theorem initSt_pos (d : List Sym) : (initSt d).pos = d := by
  unfold initSt; rw [noteBad_pos]

/-- The machine started on `File` returns when allowed a depth linear in the number of bytes. -/
theorem file_terminates (lib : GoLib) (bs : List UInt8) (n : Nat) (hn : 200 * bs.length + 201 ≤ n) :
    run (ruleGrammar lib) n (.ruleRef .File) (initSt (decode bs)) ≠ none := by
  refine ((terminates (rule_checked lib) (K := 200) (by decide) n).1 _ _ 5 (by decide) ?_)
  rw [initSt_pos]
  have := decode_length bs
  simp only [psize]
  omega

end Verif.Proof

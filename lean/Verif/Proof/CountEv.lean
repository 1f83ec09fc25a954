import Verif.Model.PegCount
import Verif.Spec.Count
import Verif.Proof.PegTerm
/-!
# Counting calls: from the machine to a relation

`Ev` is in Spec/Count.lean.
-/
namespace Verif.Proof.Count
open Verif Verif.Spec

abbrev rns (l : List Sym) : List Char := l.map Sym.rune

/-- The machine with actions that do nothing. -/
def idle (G : Grammar) : Grammar := { G with act := fun _ _ _ => .ok .nil }

/-- How an outcome (of `k` calls) is described by a relation between texts. -/
def Ends (R : List Char → Option (List Char) → Nat → Prop) (s : St) : Option (POut × Nat) → Prop
  | some (.ok _ s', k) => R (rns s.pos) (some (rns s'.pos)) k
  | some (.fail s', k) => s'.pos = s.pos ∧ R (rns s.pos) none k
  | some (.panic _, _) => False
  | none => True

theorem read_pos' (s : St) : (Verif.read s).pos = s.pos.tail := by
  unfold Verif.read; rw [noteBad_pos]

theorem lit_ends {start : List Sym} (s : St) (v : List Char) :
    match litLoop start v s with
    | .ok _ s' => litRest v (rns s.pos) = some (rns s'.pos)
    | .fail s' => s'.pos = start ∧ litRest v (rns s.pos) = none
    | .panic _ => False := by
  induction v generalizing s with
  | nil => simp [litLoop, litRest]
  | cons a v ih =>
    cases hp : s.pos with
    | nil => simp [litLoop, hp, litRest]
    | cons x l =>
      simp only [litLoop, hp]
      by_cases hx : x.rune = a
      · simp only [hx, if_true]
        have := ih (Verif.read s)
        rw [read_pos', hp] at this
        simp only [List.tail_cons] at this
        revert this
        cases litLoop start v (Verif.read s) <;> simp [litRest, hx]
      · simp [hx, litRest]

theorem ends_pop {R s o} (h : Ends R (push s) o) : Ends R s (popToN s.frame o) := by
  rcases o with _ | ⟨o, k⟩
  · trivial
  · cases o <;> simpa [Ends, popToN, popTo, push] using h

theorem ends_add {R R' : List Char → Option (List Char) → Nat → Prop} {s o n} (h : Ends R s o) (hR : ∀ l r k, R l r k → R' l r (n + k)) : Ends R' s (addCalls n o) := by
  rcases o with _ | ⟨o, k⟩
  · trivial
  · cases o
    · exact hR _ _ _ h
    · exact ⟨h.1, hR _ _ _ h.2⟩
    · exact h

theorem runN_ev (G : Grammar) (n : Nat) :
    (∀ p s, Ends (Ev G.rules (.e p)) s (runN (idle G) n p s)) ∧
    (∀ ps s, Ends (Ev G.rules (.alt ps)) s (runNChoice (idle G) n ps s)) ∧
    (∀ ps vs s start, match runNSeq (idle G) n start ps vs s with
      | some (.ok _ s', k) => Ev G.rules (.seq ps) (rns s.pos) (some (rns s'.pos)) k
      | some (.fail s', k) => s'.pos = start ∧ Ev G.rules (.seq ps) (rns s.pos) none k
      | some (.panic _, _) => False
      | none => True) ∧
    (∀ p need vs s, match runNLoop (idle G) n p need vs s with
      | some (.ok _ s', k) => (need = true ∧ vs = [] → ∃ l' k1 k2, k = k1 + k2 ∧ Ev G.rules (.e p) (rns s.pos) (some l') k1 ∧ Ev G.rules (.loop p) l' (some (rns s'.pos)) k2) ∧
          Ev G.rules (.loop p) (rns s.pos) (some (rns s'.pos)) k
      | some (.fail s', k) => s'.pos = s.pos ∧ need = true ∧ vs = [] ∧ Ev G.rules (.e p) (rns s.pos) none k
      | some (.panic _, _) => False
      | none => True) := by
  induction n with
  | zero => exact ⟨fun _ _ => trivial, fun _ _ => trivial, fun _ _ _ _ => trivial, fun _ _ _ _ => trivial⟩
  | succ n ih =>
    obtain ⟨i1, i2, i3, i4⟩ := ih
    refine ⟨?_, ?_, ?_, ?_⟩
    · intro p s
      cases p with
      | action a e =>
        have h := i1 e s
        simp only [runN]
        generalize runN (idle G) n e s = o at h
        match o, h with
        | none, _ => trivial
        | some (.ok v s', k), h => exact .action h
        | some (.fail s', k), h => exact ⟨h.1, by have := Ev.action (a := a) h.2; rwa [Nat.add_comm] at this⟩
      | any =>
        simp only [runN, parseAny]
        cases hp : s.pos with
        | nil => simp only [Ends]; rw [hp]; exact ⟨trivial, .any_end⟩
        | cons x l => simp only [Ends]; rw [read_pos', hp]; exact .any_ok
      | cls cs rs i =>
        simp only [runN, parseCls]
        cases hp : s.pos with
        | nil => simp only [Ends]; rw [hp]; exact ⟨trivial, .cls_end⟩
        | cons x l =>
          by_cases hc : inClass cs rs x.rune
          · cases i
            · simp only [hc, if_true, Bool.false_eq_true, if_false, Ends]; rw [read_pos', hp]; exact .cls_ok (by simp [clsHas, hc])
            · simp only [hc, if_true, Ends]; rw [hp]; exact ⟨trivial, .cls_bad (by simp [clsHas, hc])⟩
          · cases i
            · simp only [hc, Bool.false_eq_true, if_false, Ends]; rw [hp]; exact ⟨trivial, .cls_bad (by simp [clsHas, hc])⟩
            · simp only [hc, Bool.false_eq_true, if_true, if_false, Ends]; rw [read_pos', hp]; exact .cls_ok (by simp [clsHas, hc])
      | choice es =>
        simp only [runN]
        exact ends_add (i2 es s) fun l r k h => by have := Ev.choice h; rwa [Nat.add_comm] at this
      | labeled a e =>
        have h := ends_pop (i1 e (push s))
        simp only [runN]
        generalize popToN s.frame (runN (idle G) n e (push s)) = o at h
        match o, h with
        | none, _ => trivial
        | some (.ok v s', k), h => exact .labeled h
        | some (.fail s', k), h => exact ⟨h.1, by have := Ev.labeled (a := a) h.2; rwa [Nat.add_comm] at this⟩
      | lit v =>
        have h := lit_ends (start := s.pos) s v
        simp only [runN]
        generalize litLoop s.pos v s = o at h
        match o, h with
        | .ok v s', h => show Ev _ _ _ _ _; rw [← h]; exact .lit
        | .fail s', h => exact ⟨h.1, by rw [← h.2]; exact .lit⟩
      | «not» e =>
        have h := ends_pop (i1 e (push s))
        simp only [runN]
        generalize popToN s.frame (runN (idle G) n e (push s)) = o at h
        match o, h with
        | none, _ => trivial
        | some (.ok v s', k), h => exact ⟨rfl, .not_bad h⟩
        | some (.fail s', k), h => exact .not_ok h.2
      | oneOrMore e =>
        have h := i4 e true [] s
        simp only [runN]
        generalize runNLoop (idle G) n e true [] s = o at h
        match o, h with
        | none, _ => trivial
        | some (.ok v s', k), h =>
          obtain ⟨l', k1, k2, rfl, h1, h2⟩ := h.1 ⟨rfl, rfl⟩
          show Ev _ _ _ _ _
          rw [Nat.add_comm]
          exact .plus_ok h1 h2
        | some (.fail s', k), h => exact ⟨h.1, by have := Ev.plus_bad h.2.2.2; rwa [Nat.add_comm] at this⟩
      | ruleRef x =>
        simp only [runN]
        exact ends_add (ends_pop (i1 (G.rules x) (push s))) fun l r k h => by have := Ev.ruleRef h; rwa [Nat.add_comm] at this
      | seq es =>
        have h := i3 es [] s s.pos
        simp only [runN]
        generalize runNSeq (idle G) n s.pos es [] s = o at h
        match o, h with
        | none, _ => trivial
        | some (.ok v s', k), h => show Ev _ _ _ _ _; rw [Nat.add_comm]; exact .seq h
        | some (.fail s', k), h => exact ⟨h.1, by have := Ev.seq h.2; rwa [Nat.add_comm] at this⟩
      | zeroOrMore e =>
        have h := i4 e false [] s
        simp only [runN]
        generalize runNLoop (idle G) n e false [] s = o at h
        match o, h with
        | none, _ => trivial
        | some (.ok v s', k), h => show Ev _ _ _ _ _; rw [Nat.add_comm]; exact .star h.2
        | some (.fail s', k), h => exact absurd h.2.1 (by simp)
      | zeroOrOne e =>
        have h := ends_pop (i1 e (push s))
        simp only [runN]
        generalize popToN s.frame (runN (idle G) n e (push s)) = o at h
        match o, h with
        | none, _ => trivial
        | some (.ok v s', k), h => show Ev _ _ _ _ _; rw [Nat.add_comm]; exact .opt_some h
        | some (.fail s', k), h => show Ev _ _ _ _ _; rw [h.1]; exact .opt_none h.2
    · intro ps s
      cases ps with
      | nil => exact ⟨rfl, .alt_nil⟩
      | cons p ps =>
        have h := ends_pop (i1 p (push s))
        simp only [runNChoice]
        generalize popToN s.frame (runN (idle G) n p (push s)) = o at h
        match o, h with
        | none, _ => trivial
        | some (.ok v s', k), h => exact .alt_ok h
        | some (.fail s', k), h =>
          have h2 := i2 ps s'
          simp only
          generalize runNChoice (idle G) n ps s' = o at h2
          match o, h2 with
          | none, _ => trivial
          | some (.ok v s'', k'), h2 => exact .alt_next h.2 (by rw [← h.1]; exact h2)
          | some (.fail s'', k'), h2 => exact ⟨h2.1.trans h.1, .alt_next h.2 (by rw [← h.1]; exact h2.2)⟩
    · intro ps vs s start
      cases ps with
      | nil => exact .seq_nil
      | cons p ps =>
        have h := i1 p s
        simp only [runNSeq]
        generalize runN (idle G) n p s = o at h
        match o, h with
        | none, _ => trivial
        | some (.ok v s', k), h =>
          have h2 := i3 ps (vs ++ [v]) s' start
          simp only
          generalize runNSeq (idle G) n start ps (vs ++ [v]) s' = o at h2
          match o, h2 with
          | none, _ => trivial
          | some (.ok v s'', k'), h2 => exact .seq_ok h h2
          | some (.fail s'', k'), h2 => exact ⟨h2.1, .seq_ok h h2.2⟩
        | some (.fail s', k), h => exact ⟨rfl, .seq_bad h.2⟩
    · intro p need vs s
      have h := ends_pop (i1 p (push s))
      simp only [runNLoop]
      generalize popToN s.frame (runN (idle G) n p (push s)) = o at h
      match o, h with
      | none, _ => trivial
      | some (.ok v s', k), h =>
        have h2 := i4 p need (vs ++ [v]) s'
        simp only
        generalize runNLoop (idle G) n p need (vs ++ [v]) s' = o at h2
        match o, h2 with
        | none, _ => trivial
        | some (.ok v s'', k'), h2 => exact ⟨fun _ => ⟨_, _, _, rfl, h, h2.2⟩, .loop_more h h2.2⟩
        | some (.fail s'', k'), h2 => exact absurd h2.2.2.1 (by simp)
      | some (.fail s', k), h =>
        simp only
        by_cases hc : (need && vs.isEmpty) = true
        · simp only [hc, if_true]
          simp only [Bool.and_eq_true, List.isEmpty_iff] at hc
          exact ⟨h.1, hc.1, hc.2, h.2⟩
        · simp only [hc, if_false, Bool.false_eq_true]
          simp only [Bool.and_eq_true, List.isEmpty_iff] at hc
          refine ⟨fun hh => absurd hh hc, ?_⟩
          rw [h.1]; exact .loop_end h.2

end Verif.Proof.Count

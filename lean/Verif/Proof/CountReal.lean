import Verif.Proof.CountFile
import Verif.Proof.ParseRule
import Verif.Proof.PegErrRoot
/-!
# Counting calls: the actions end a parse early
-/
namespace Verif.Proof.Count
open Verif Verif.Spec

theorem ev_det {R j l r k} (h : Ev R j l r k) : ∀ {r' k'}, Ev R j l r' k' → r' = r ∧ k' = k := by
  induction h with
  | any_ok => intro r' k' g; cases g; exact ⟨rfl, rfl⟩
  | any_end => intro r' k' g; cases g; exact ⟨rfl, rfl⟩
  | cls_ok h => intro r' k' g; cases g <;> simp_all
  | cls_bad h => intro r' k' g; cases g <;> simp_all
  | cls_end => intro r' k' g; cases g; exact ⟨rfl, rfl⟩
  | lit => intro r' k' g; cases g; exact ⟨rfl, rfl⟩
  | action h ih => intro r' k' g; cases g with | action g => obtain ⟨rfl, rfl⟩ := ih g; exact ⟨rfl, rfl⟩
  | labeled h ih => intro r' k' g; cases g with | labeled g => obtain ⟨rfl, rfl⟩ := ih g; exact ⟨rfl, rfl⟩
  | ruleRef h ih => intro r' k' g; cases g with | ruleRef g => obtain ⟨rfl, rfl⟩ := ih g; exact ⟨rfl, rfl⟩
  | not_ok h ih => intro r' k' g; cases g with
    | not_ok g => obtain ⟨-, rfl⟩ := ih g; exact ⟨rfl, rfl⟩
    | not_bad g => obtain ⟨e, -⟩ := ih g; cases e
  | not_bad h ih => intro r' k' g; cases g with
    | not_bad g => obtain ⟨-, rfl⟩ := ih g; exact ⟨rfl, rfl⟩
    | not_ok g => obtain ⟨e, -⟩ := ih g; cases e
  | opt_some h ih => intro r' k' g; cases g with
    | opt_some g => obtain ⟨e, rfl⟩ := ih g; cases e; exact ⟨rfl, rfl⟩
    | opt_none g => obtain ⟨e, -⟩ := ih g; cases e
  | opt_none h ih => intro r' k' g; cases g with
    | opt_none g => obtain ⟨-, rfl⟩ := ih g; exact ⟨rfl, rfl⟩
    | opt_some g => obtain ⟨e, -⟩ := ih g; cases e
  | choice h ih => intro r' k' g; cases g with | choice g => obtain ⟨rfl, rfl⟩ := ih g; exact ⟨rfl, rfl⟩
  | seq h ih => intro r' k' g; cases g with | seq g => obtain ⟨rfl, rfl⟩ := ih g; exact ⟨rfl, rfl⟩
  | star h ih => intro r' k' g; cases g with | star g => obtain ⟨e, rfl⟩ := ih g; cases e; exact ⟨rfl, rfl⟩
  | plus_ok h h' ih ih' => intro r' k' g; cases g with
    | plus_ok g g' => obtain ⟨e, rfl⟩ := ih g; cases e; obtain ⟨e, rfl⟩ := ih' g'; cases e; exact ⟨rfl, rfl⟩
    | plus_bad g => obtain ⟨e, -⟩ := ih g; cases e
  | plus_bad h ih => intro r' k' g; cases g with
    | plus_ok g g' => obtain ⟨e, rfl⟩ := ih g; cases e
    | plus_bad g => obtain ⟨-, rfl⟩ := ih g; exact ⟨rfl, rfl⟩
  | alt_nil => intro r' k' g; cases g; exact ⟨rfl, rfl⟩
  | alt_ok h ih => intro r' k' g; cases g with
    | alt_ok g => obtain ⟨e, rfl⟩ := ih g; cases e; exact ⟨rfl, rfl⟩
    | alt_next g _ => obtain ⟨e, -⟩ := ih g; cases e
  | alt_next h h' ih ih' => intro r' k' g; cases g with
    | alt_ok g => obtain ⟨e, rfl⟩ := ih g; cases e
    | alt_next g g' => obtain ⟨-, rfl⟩ := ih g; obtain ⟨rfl, rfl⟩ := ih' g'; exact ⟨rfl, rfl⟩
  | seq_nil => intro r' k' g; cases g; exact ⟨rfl, rfl⟩
  | seq_ok h h' ih ih' => intro r' k' g; cases g with
    | seq_ok g g' => obtain ⟨e, rfl⟩ := ih g; cases e; obtain ⟨rfl, rfl⟩ := ih' g'; exact ⟨rfl, rfl⟩
    | seq_bad g => obtain ⟨e, -⟩ := ih g; cases e
  | seq_bad h ih => intro r' k' g; cases g with
    | seq_ok g g' => obtain ⟨e, rfl⟩ := ih g; cases e
    | seq_bad g => obtain ⟨-, rfl⟩ := ih g; exact ⟨rfl, rfl⟩
  | loop_more h h' ih ih' => intro r' k' g; cases g with
    | loop_more g g' => obtain ⟨e, rfl⟩ := ih g; cases e; obtain ⟨rfl, rfl⟩ := ih' g'; exact ⟨rfl, rfl⟩
    | loop_end g => obtain ⟨e, -⟩ := ih g; cases e
  | loop_end h ih => intro r' k' g; cases g with
    | loop_more g g' => obtain ⟨e, rfl⟩ := ih g; cases e
    | loop_end g => obtain ⟨-, rfl⟩ := ih g; exact ⟨rfl, rfl⟩

/-- What the machine matches. -/
theorem runN_real {lib n p s v s' k} (h : runN (ruleGrammar lib) n p s = some (.ok v s', k)) : Ev gRules (.e p) (rns s.pos) (some (rns s'.pos)) k := by
  have h1 := (runN_sim (ruleGrammar lib) n).1 p s s rfl
  have h2 := (runN_ev (ruleGrammar lib) n).1 p s
  rw [h] at h1
  revert h1 h2
  rcases runN (idle (ruleGrammar lib)) n p s with _ | ⟨⟨v, t'⟩ | t' | t', k'⟩ <;> intro h1 h2
  · exact h1.elim
  · obtain ⟨rfl, e⟩ := h1; rw [e]; exact h2
  · exact h1.elim
  · exact h2.elim

theorem runN_realFail {lib n p s s' k} (h : runN (ruleGrammar lib) n p s = some (.fail s', k)) : s'.pos = s.pos ∧ Ev gRules (.e p) (rns s.pos) none k := by
  have h1 := (runN_sim (ruleGrammar lib) n).1 p s s rfl
  have h2 := (runN_ev (ruleGrammar lib) n).1 p s
  rw [h] at h1
  revert h1 h2
  rcases runN (idle (ruleGrammar lib)) n p s with _ | ⟨⟨v, t'⟩ | t' | t', k'⟩ <;> intro h1 h2
  · exact h1.elim
  · exact h1.elim
  · obtain ⟨rfl, e⟩ := h1; rw [e]; exact h2
  · exact h2.elim

/-! ## Frames -/

theorem addCalls_ok {c x v s k} (h : addCalls c x = some (.ok v s, k)) : ∃ k', x = some (.ok v s, k') := by
  rcases x with _ | ⟨o, d⟩
  · cases h
  · simp only [addCalls, Option.some.injEq, Prod.mk.injEq] at h
    obtain ⟨rfl, -⟩ := h
    exact ⟨d, rfl⟩

theorem popToN_ok {fr x v s k} (h : popToN fr x = some (.ok v s, k)) : ∃ s0, x = some (.ok v s0, k) ∧ s = { s0 with frame := fr } := by
  rcases x with _ | ⟨⟨w, s0⟩ | _ | _, d⟩
  · cases h
  · simp only [popToN, popTo, Option.some.injEq, Prod.mk.injEq, POut.ok.injEq] at h
    obtain ⟨⟨rfl, rfl⟩, rfl⟩ := h
    exact ⟨_, rfl, rfl⟩
  · simp [popToN, popTo] at h
  · simp [popToN, popTo] at h

theorem popToN_fail {fr x s k} (h : popToN fr x = some (.fail s, k)) : ∃ s0, x = some (.fail s0, k) ∧ s = { s0 with frame := fr } := by
  rcases x with _ | ⟨⟨w, s0⟩ | _ | _, d⟩
  · cases h
  · simp [popToN, popTo] at h
  · simp only [popToN, popTo, Option.some.injEq, Prod.mk.injEq, POut.fail.injEq] at h
    obtain ⟨rfl, rfl⟩ := h
    exact ⟨_, rfl, rfl⟩
  · simp [popToN, popTo] at h

variable {G : Grammar} {n : Nat} {s s' : St} {v : Dyn} {k : Nat}

theorem rn_action {a e} (h : runN G n (.action a e) s = some (.ok v s', k)) :
    ∃ m w s1 k1, n = m + 1 ∧ runN G m e s = some (.ok w s1, k1) ∧ runAction G a s.pos s1 = .ok v s' := by
  cases n with
  | zero => simp [runN] at h
  | succ n =>
    simp only [runN] at h
    generalize ho : runN G n e s = o at h
    rcases o with _ | ⟨⟨w, s1⟩ | s1 | s1, k1⟩
    · simp [addCalls] at h
    · simp only [Option.some.injEq, Prod.mk.injEq] at h
      exact ⟨n, w, s1, k1, rfl, ho, h.1⟩
    · simp [addCalls] at h
    · simp [addCalls] at h

theorem rn_labeled {l e} (h : runN G n (.labeled l e) s = some (.ok v s', k)) :
    ∃ m s1 k1, n = m + 1 ∧ runN G m e (push s) = some (.ok v s1, k1) ∧ s' = { s1 with frame := s.frame.set l v } := by
  cases n with
  | zero => simp [runN] at h
  | succ n =>
    simp only [runN] at h
    generalize ho : popToN s.frame (runN G n e (push s)) = o at h
    rcases o with _ | ⟨⟨w, s1⟩ | s1 | s1, k1⟩
    · simp [addCalls] at h
    · simp only [Option.some.injEq, Prod.mk.injEq, POut.ok.injEq] at h
      obtain ⟨s0, h1, rfl⟩ := popToN_ok ho
      obtain ⟨⟨rfl, rfl⟩, -⟩ := h
      exact ⟨n, s0, k1, rfl, h1, rfl⟩
    · simp [addCalls] at h
    · simp [addCalls] at h

theorem rn_opt {e} (h : runN G n (.zeroOrOne e) s = some (.ok v s', k)) :
    ∃ m k1, n = m + 1 ∧ ((∃ s1, runN G m e (push s) = some (.ok v s1, k1) ∧ s' = { s1 with frame := s.frame }) ∨
      (∃ s1, runN G m e (push s) = some (.fail s1, k1) ∧ v = .nil ∧ s' = { s1 with frame := s.frame })) := by
  cases n with
  | zero => simp [runN] at h
  | succ n =>
    simp only [runN] at h
    generalize ho : popToN s.frame (runN G n e (push s)) = o at h
    rcases o with _ | ⟨⟨w, s1⟩ | s1 | s1, k1⟩
    · simp [addCalls] at h
    · simp only [addCalls, Option.some.injEq, Prod.mk.injEq, POut.ok.injEq] at h
      obtain ⟨s0, h1, rfl⟩ := popToN_ok ho
      obtain ⟨⟨rfl, rfl⟩, -⟩ := h
      exact ⟨n, k1, rfl, .inl ⟨s0, h1, rfl⟩⟩
    · simp only [Option.some.injEq, Prod.mk.injEq, POut.ok.injEq] at h
      obtain ⟨s0, h1, rfl⟩ := popToN_fail ho
      obtain ⟨⟨rfl, rfl⟩, -⟩ := h
      exact ⟨n, k1, rfl, .inr ⟨s0, h1, rfl, rfl⟩⟩
    · simp [addCalls] at h

theorem rn_ref {x} (h : runN G n (.ruleRef x) s = some (.ok v s', k)) :
    ∃ m s1 k1, n = m + 1 ∧ runN G m (G.rules x) (push s) = some (.ok v s1, k1) ∧ s' = { s1 with frame := s.frame } := by
  cases n with
  | zero => simp [runN] at h
  | succ n =>
    simp only [runN] at h
    obtain ⟨k1, h1⟩ := addCalls_ok h
    obtain ⟨s0, h2, rfl⟩ := popToN_ok h1
    exact ⟨n, s0, k1, rfl, h2, rfl⟩

theorem rn_seqe {es} (h : runN G n (.seq es) s = some (.ok v s', k)) : ∃ m k1, n = m + 1 ∧ runNSeq G m s.pos es [] s = some (.ok v s', k1) := by
  cases n with
  | zero => simp [runN] at h
  | succ n =>
    simp only [runN] at h
    obtain ⟨k1, h1⟩ := addCalls_ok h
    exact ⟨n, k1, rfl, h1⟩

/-- An element of a sequence that has matched. -/
theorem rn_seq {st p ps vs} (h : runNSeq G n st (p :: ps) vs s = some (.ok v s', k)) :
    ∃ m v1 s1 k1 k2, n = m + 1 ∧ runN G m p s = some (.ok v1 s1, k1) ∧ runNSeq G m st ps (vs ++ [v1]) s1 = some (.ok v s', k2) := by
  cases n with
  | zero => simp [runNSeq] at h
  | succ n =>
    simp only [runNSeq] at h
    generalize ho : runN G n p s = o at h
    match o, h with
    | some (.ok v1 s1, k1), h =>
      obtain ⟨k2, h2⟩ := addCalls_ok h
      exact ⟨n, v1, s1, k1, k2, rfl, ho, h2⟩
    | some (.fail _, _), h => simp at h
    | some (.panic _, _), h => simp at h
    | none, h => simp at h

theorem rn_seq_nil {st vs} (h : runNSeq G n st [] vs s = some (.ok v s', k)) : v = .list vs ∧ s' = s := by
  cases n with
  | zero => simp [runNSeq] at h
  | succ n => simp only [runNSeq, Option.some.injEq, Prod.mk.injEq, POut.ok.injEq] at h; exact ⟨h.1.1.symm, h.1.2.symm⟩

theorem read_fr (s : St) : (Verif.read s).frame = s.frame := by
  obtain ⟨l, h⟩ := read_eq s; rw [h]

theorem lit_fr {start : List Sym} (val : List Char) : ∀ {s s' v}, litLoop start val s = .ok v s' → s'.frame = s.frame := by
  induction val with
  | nil => intro s s' v h; simp only [litLoop, POut.ok.injEq] at h; rw [h.2]
  | cons a val ih =>
    intro s s' v h
    simp only [litLoop] at h
    split at h
    · cases h
    · split at h
      · rw [ih h, read_fr]
      · cases h

/-- Labels an expression does not set keep their values. -/
theorem frame_keep (G : Grammar) (l : Label) (n : Nat) :
    (∀ e s v s' k, runN G n e s = some (.ok v s', k) → l ∉ labs e → s'.frame l = s.frame l) ∧
    (∀ es s v s' k, runNChoice G n es s = some (.ok v s', k) → s'.frame = s.frame) ∧
    (∀ st es vs s v s' k, runNSeq G n st es vs s = some (.ok v s', k) → l ∉ labss es → s'.frame l = s.frame l) ∧
    (∀ e need vs s v s' k, runNLoop G n e need vs s = some (.ok v s', k) → s'.frame = s.frame) := by
  induction n with
  | zero => exact ⟨fun _ _ _ _ _ h => by simp [runN] at h, fun _ _ _ _ _ h => by simp [runNChoice] at h, fun _ _ _ _ _ _ _ h => by simp [runNSeq] at h, fun _ _ _ _ _ _ _ h => by simp [runNLoop] at h⟩
  | succ n ih =>
    obtain ⟨i1, i2, i3, i4⟩ := ih
    refine ⟨?_, ?_, ?_, ?_⟩
    · intro e s v s' k h hl
      cases e with
      | action a e =>
        obtain ⟨m, w, s1, k1, e', h1, h2⟩ := rn_action h
        cases e'
        have h3 := i1 _ _ _ _ _ h1 (by simpa [labs] using hl)
        unfold runAction at h2
        simp only at h2
        split at h2
        · cases h2; exact h3
        · cases h2; exact h3
        · cases h2
      | any =>
        simp only [runN, parseAny, Option.some.injEq, Prod.mk.injEq] at h
        obtain ⟨h, -⟩ := h
        split at h
        · cases h
        · cases h; rw [read_fr]
      | cls a b c =>
        simp only [runN, parseCls, Option.some.injEq, Prod.mk.injEq] at h
        obtain ⟨h, -⟩ := h
        split at h
        · cases h
        · split at h
          · split at h
            · cases h
            · cases h; rw [read_fr]
          · split at h
            · cases h; rw [read_fr]
            · cases h
      | choice es =>
        simp only [runN] at h
        obtain ⟨k1, h1⟩ := addCalls_ok h
        rw [i2 _ _ _ _ _ h1]
      | labeled x e =>
        obtain ⟨m, s1, k1, e', h1, rfl⟩ := rn_labeled h
        simp only [labs, List.mem_singleton] at hl
        simp [Frame.set, hl]
      | lit val =>
        simp only [runN, Option.some.injEq, Prod.mk.injEq] at h
        rw [lit_fr val h.1]
      | not e =>
        simp only [runN] at h
        generalize ho : popToN s.frame (runN G n e (push s)) = o at h
        rcases o with _ | ⟨⟨w, s1⟩ | s1 | s1, k1⟩
        · simp [addCalls] at h
        · simp at h
        · simp only [Option.some.injEq, Prod.mk.injEq, POut.ok.injEq] at h
          obtain ⟨s0, h1, rfl⟩ := popToN_fail ho
          obtain ⟨⟨rfl, rfl⟩, -⟩ := h
          rfl
        · simp [addCalls] at h
      | oneOrMore e =>
        simp only [runN] at h
        obtain ⟨k1, h1⟩ := addCalls_ok h
        rw [i4 _ _ _ _ _ _ _ h1]
      | ruleRef x =>
        obtain ⟨m, s1, k1, e', h1, rfl⟩ := rn_ref h
        rfl
      | seq es =>
        obtain ⟨m, k1, e', h1⟩ := rn_seqe h
        cases e'
        exact i3 _ _ _ _ _ _ _ h1 (by simpa [labs] using hl)
      | zeroOrMore e =>
        simp only [runN] at h
        obtain ⟨k1, h1⟩ := addCalls_ok h
        rw [i4 _ _ _ _ _ _ _ h1]
      | zeroOrOne e =>
        obtain ⟨m, k1, e', ⟨s1, -, rfl⟩ | ⟨s1, -, -, rfl⟩⟩ := rn_opt h <;> rfl
    · intro es s v s' k h
      cases es with
      | nil => simp [runNChoice] at h
      | cons e es =>
        simp only [runNChoice] at h
        generalize ho : popToN s.frame (runN G n e (push s)) = o at h
        rcases o with _ | ⟨⟨w, s1⟩ | s1 | s1, k1⟩
        · simp at h
        · simp only [Option.some.injEq, Prod.mk.injEq, POut.ok.injEq] at h
          obtain ⟨s0, h1, rfl⟩ := popToN_ok ho
          obtain ⟨⟨rfl, rfl⟩, -⟩ := h
          rfl
        · obtain ⟨k2, h2⟩ := addCalls_ok h
          obtain ⟨s0, h1, rfl⟩ := popToN_fail ho
          rw [i2 _ _ _ _ _ h2]
        · simp at h
    · intro st es vs s v s' k h hl
      cases es with
      | nil => rw [(rn_seq_nil h).2]
      | cons e es =>
        obtain ⟨m, v1, s1, k1, k2, e', h1, h2⟩ := rn_seq h
        cases e'
        simp only [labss, List.mem_append, not_or] at hl
        rw [i3 _ _ _ _ _ _ _ h2 hl.2, i1 _ _ _ _ _ h1 hl.1]
    · intro e need vs s v s' k h
      simp only [runNLoop] at h
      generalize ho : popToN s.frame (runN G n e (push s)) = o at h
      rcases o with _ | ⟨⟨w, s1⟩ | s1 | s1, k1⟩
      · simp at h
      · obtain ⟨k2, h2⟩ := addCalls_ok h
        obtain ⟨s0, h1, rfl⟩ := popToN_ok ho
        rw [i4 _ _ _ _ _ _ _ h2]
      · obtain ⟨s0, h1, rfl⟩ := popToN_fail ho
        simp only at h
        split at h
        · simp at h
        · simp only [Option.some.injEq, Prod.mk.injEq, POut.ok.injEq] at h
          rw [← h.1.2]
      · simp at h

/-! ## A rule that has matched -/

theorem comment_no_go {lib : GoLib} (hl : RejectsComment lib) {raw : Str} (hn : '\n' ∉ '/' :: '/' :: raw) {e} (hgo : goexprParse lib (conditionText ('/' :: '/' :: raw)) = .ok e) : False := by
  have ht := trimmed_trim (nlToBlank ('/' :: '/' :: raw))
  have hmap : nlToBlank ('/' :: '/' :: raw) = '/' :: '/' :: raw := by
    have := List.map_congr_left (l := '/' :: '/' :: raw) (f := fun d => if d = '\n' then ' ' else d) (g := id)
      (fun d hd => by
        have : d ≠ '\n' := fun h => hn (h ▸ hd)
        simp [this])
    rw [List.map_id] at this
    exact this
  unfold conditionText at hgo
  generalize trimSpace (nlToBlank ('/' :: '/' :: raw)) = t at ht hgo
  rw [hmap] at ht
  obtain ⟨pre, post, h1, h2, -, -⟩ := ht
  have hsl : ∀ c ∈ pre ++ post, c ≠ '/' := by
    rintro c hc rfl; have := h2 _ hc; revert this; decide
  have hpre : pre = [] := by
    cases pre with
    | nil => rfl
    | cons p ps =>
      simp only [List.cons_append, List.cons.injEq] at h1
      exact absurd h1.1.symm (hsl p (by simp))
  subst hpre
  match t, h1, hgo with
  | [], h1, _ => simp at h1; exact hsl '/' (by rw [← h1]; simp) rfl
  | [a], h1, _ => simp at h1; exact hsl '/' (by rw [← h1.2]; simp) rfl
  | a :: b :: t, h1, hgo =>
    simp only [List.nil_append, List.cons_append, List.cons.injEq] at h1
    obtain ⟨rfl, rfl, rfl⟩ := h1
    exact hl t (by intro h; apply hn; simp [h]) ⟨e, goexprParse_ok_iff.1 hgo⟩

theorem sk_comment {t : List Char} (h : '\n' ∉ '/' :: t) : sk ('/' :: t) = '/' :: t := by
  apply sk_none
  cases t with
  | nil => rfl
  | cons d t =>
    by_cases hd : d = '/'
    · subst hd
      have hdw : t.dropWhile (clsHas ['\n'] [] true) = [] := by
        have : ∀ u : List Char, '\n' ∉ u → u.dropWhile (clsHas ['\n'] [] true) = [] := by
          intro u hu
          induction u with
          | nil => rfl
          | cons x u ih =>
            simp only [List.mem_cons, not_or] at hu
            rw [List.dropWhile_cons_of_pos (by rw [nlHas]; simpa using fun h => hu.1 h.symm)]
            exact ih hu.2
        apply this
        simp only [List.mem_cons, not_or] at h
        exact h.2.2
      simp [skip1, hdw]
    · simp [skip1, hd]

/-- The condition of a rule that has matched is no comment. -/
theorem rule_fine {lib : GoLib} (hl : RejectsComment lib) (h : runN (ruleGrammar lib) n (.ruleRef .Rule) s = some (.ok v s', k)) {c} (hc : CondIn (rns s.pos) c) : pen c = 0 := by
  apply Classical.byContradiction
  intro hpen
  obtain ⟨a, y, x, j1, j2, hv, ⟨l1, l2, i1, i2, i3, i4, g1, g2, g3, g4⟩, ha⟩ := hc
  obtain ⟨m, s1, k1, rfl, h1, -⟩ := rn_ref h
  obtain ⟨m, w, s2, k1, rfl, h2, hact⟩ := rn_action (show runN (ruleGrammar lib) m gRule (push s) = _ from h1)
  obtain ⟨m, k2, rfl, h3⟩ := rn_seqe h2
  obtain ⟨m, d1, t1, _, _, rfl, r1, h4⟩ := rn_seq h3
  obtain ⟨m, d2, t2, _, _, rfl, r2, h5⟩ := rn_seq h4
  have hkeep : s2.frame .cond = t2.frame .cond := (frame_keep (ruleGrammar lib) .cond m).2.2.1 _ _ _ _ _ _ _ h5 (by decide)
  obtain ⟨_, -, e1⟩ := inv_labeled (runN_real r1)
  obtain ⟨e, -⟩ := ev_det hv e1
  cases e
  obtain ⟨m', u1, _, rfl, r3, rfl⟩ := rn_labeled r2
  have hcond : s2.frame .cond = d2 := by rw [hkeep]; simp [Frame.set]
  obtain ⟨m', k3, rfl, ⟨u2, r4, -⟩ | ⟨u2, r4, -⟩⟩ := rn_opt r3
  rotate_left
  · obtain ⟨-, e⟩ := runN_realFail r4
    have := ev_det e (.seq (.seq_ok g1 (.seq_ok g2 (.seq_ok g3 (.seq_ok g4 .seq_nil)))))
    cases this.1
  obtain ⟨m', k4, rfl, q0⟩ := rn_seqe r4
  obtain ⟨m', w1, p1, _, _, rfl, q1, q0⟩ := rn_seq q0
  obtain ⟨m', w2, p2, _, _, rfl, q2, q0⟩ := rn_seq q0
  obtain ⟨m', w3, p3, _, _, rfl, q3, q0⟩ := rn_seq q0
  obtain ⟨m', w4, p4, _, _, rfl, q4, q0⟩ := rn_seq q0
  obtain ⟨rfl, -⟩ := rn_seq_nil q0
  have e2 := runN_real q1
  obtain ⟨e, -⟩ := ev_det g1 e2
  cases e
  obtain ⟨e, -⟩ := ev_det g2 (runN_real q2)
  cases e
  obtain ⟨e, -⟩ := ev_det g3 (runN_real q3)
  cases e
  have hy : rns p4.pos = y := by
    obtain ⟨e, -⟩ := ev_det g4 (runN_real q4)
    cases e; rfl
  obtain ⟨m', w5, p5, _, rfl, q5, q6⟩ := rn_action q4
  -- the text of the condition
  have hpos : p4.pos = p5.pos := by
    unfold runAction at q6
    simp only at q6
    split at q6 <;> cases q6 <;> rfl
  have hsuf : y <:+ rns p3.pos := ev_suffix g4 _ rfl
  have hlt : y.length < (rns p3.pos).length := by
    rcases condition_ev g4 with ⟨_, e, hlt, -⟩ | ⟨e, -⟩
    · cases e; exact hlt
    · cases e
  obtain ⟨t, ht⟩ := pen_slash hpen
  have hnl := pen_pos hpen
  have hhead : (sk y).head? = some '=' := by
    rcases arrow_ev ha with ⟨e, -⟩ | ⟨hh, -⟩
    · cases e
    · exact hh
  obtain ⟨pre, hpre⟩ := hsuf
  have htext : sliceFrom p3.pos p5.pos = pre := by
    have hlen : p3.pos.length - p5.pos.length = pre.length := by
      have e1 : (rns p3.pos).length = p3.pos.length := List.length_map ..
      have e2 : y.length = p5.pos.length := by rw [← hy, hpos]; exact List.length_map ..
      rw [← e1, ← e2, ← hpre, List.length_append]; omega
    unfold sliceFrom
    rw [List.map_take, hlen]
    show (rns p3.pos).take pre.length = pre
    rw [← hpre, List.take_left]
  obtain ⟨raw, rfl⟩ : ∃ raw, pre = '/' :: '/' :: raw := by
    rw [ht] at hpre
    rcases pre with _ | ⟨x1, _ | ⟨x2, raw⟩⟩
    · rw [ht] at hlt; simp only [List.nil_append] at hpre; rw [hpre] at hlt; omega
    · exfalso
      simp only [List.cons_append, List.nil_append, List.cons.injEq] at hpre
      obtain ⟨-, rfl⟩ := hpre
      rw [sk_comment (by rw [ht] at hnl; simp only [List.mem_cons, not_or] at hnl ⊢; exact hnl.2)] at hhead
      simp at hhead
    · simp only [List.cons_append, List.cons.injEq] at hpre
      obtain ⟨rfl, rfl, -⟩ := hpre
      exact ⟨raw, rfl⟩
  have hnr : '\n' ∉ '/' :: '/' :: raw := by
    intro hm; apply hnl; rw [← hpre]; exact List.mem_append_left _ hm
  have hw4 : w4 = .nil := by
    unfold runAction at q6
    simp only [htext] at q6
    have hg : (ruleGrammar lib).act .onRule25 p5.frame ('/' :: '/' :: raw) = viaGo lib (conditionText ('/' :: '/' :: raw)) .expr := rfl
    rw [hg] at q6
    unfold viaGo at q6
    cases hgo : goexprParse lib (conditionText ('/' :: '/' :: raw)) with
    | ok e => exact (comment_no_go hl hnr hgo).elim
    | err e => rw [hgo] at q6; simp only at q6; cases q6; rfl
    | panic => rw [hgo] at q6; simp only at q6; cases q6
  subst hw4
  unfold runAction at hact
  simp only at hact
  have hg : ∀ f t, (ruleGrammar lib).act .onRule1 f t = onRule1 (f .m) (f .cond) (f .block) (f .r) := fun _ _ => rfl
  rw [hg, hcond] at hact
  have hp : ∀ a b d, onRule1 a (.list [w1, w2, w3, .nil]) b d = .panic := by
    intro a b d
    unfold onRule1
    cases a.asValue <;> cases d.asValue <;> rfl
  simp only [List.nil_append, List.cons_append] at hact
  rw [hp] at hact
  cases hact

end Verif.Proof.Count

import Verif.Proof.CountEv
/-!
# Counting calls: the counting machine is the machine, and panics only make it stop earlier
-/
namespace Verif.Proof.Count
open Verif Verif.Spec

theorem addCalls_fst (k : Nat) (o : Option (POut × Nat)) : (addCalls k o).map (·.1) = o.map (·.1) := by
  rcases o with _ | ⟨o, c⟩ <;> rfl

theorem popToN_fst (fr : Frame) (o : Option (POut × Nat)) : (popToN fr o).map (·.1) = (o.map (·.1)).map (popTo fr) := by
  rcases o with _ | ⟨o, c⟩ <;> rfl

theorem runN_fst (G : Grammar) (n : Nat) :
    (∀ p s, (runN G n p s).map (·.1) = run G n p s) ∧
    (∀ ps s, (runNChoice G n ps s).map (·.1) = runChoice G n ps s) ∧
    (∀ st ps vs s, (runNSeq G n st ps vs s).map (·.1) = runSeq G n st ps vs s) ∧
    (∀ p need vs s, (runNLoop G n p need vs s).map (·.1) = runLoop G n p need vs s) := by
  induction n with
  | zero => exact ⟨fun _ _ => by simp [runN, run], fun _ _ => by simp [runNChoice, runChoice], fun _ _ _ _ => by simp [runNSeq, runSeq], fun _ _ _ _ => by simp [runNLoop, runLoop]⟩
  | succ n ih =>
    obtain ⟨i1, i2, i3, i4⟩ := ih
    refine ⟨?_, ?_, ?_, ?_⟩
    · intro p s
      cases p with
      | action a e =>
        simp only [runN, run, ← i1 e s]
        rcases runN G n e s with _ | ⟨_ | _ | _, k⟩ <;> rfl
      | any => simp [runN, run]
      | cls => simp [runN, run]
      | lit => simp [runN, run]
      | choice es => simp only [runN, run, addCalls_fst, i2]
      | labeled a e =>
        simp only [runN, run, ← i1 e (push s), ← popToN_fst]
        rcases popToN s.frame (runN G n e (push s)) with _ | ⟨_ | _ | _, k⟩ <;> rfl
      | «not» e =>
        simp only [runN, run, ← i1 e (push s), ← popToN_fst]
        rcases popToN s.frame (runN G n e (push s)) with _ | ⟨_ | _ | _, k⟩ <;> rfl
      | oneOrMore e => simp only [runN, run, addCalls_fst, i4]
      | ruleRef x => simp only [runN, run, addCalls_fst, popToN_fst, i1]
      | seq es => simp only [runN, run, addCalls_fst, i3]
      | zeroOrMore e => simp only [runN, run, addCalls_fst, i4]
      | zeroOrOne e =>
        simp only [runN, run, ← i1 e (push s), ← popToN_fst]
        rcases popToN s.frame (runN G n e (push s)) with _ | ⟨_ | _ | _, k⟩ <;> rfl
    · intro ps s
      cases ps with
      | nil => simp [runNChoice, runChoice]
      | cons p ps =>
        simp only [runNChoice, runChoice, ← i1 p (push s), ← popToN_fst]
        rcases popToN s.frame (runN G n p (push s)) with _ | ⟨_ | s' | _, k⟩
        · rfl
        · rfl
        · simp only [Option.map_some, addCalls_fst, i2]
        · rfl
    · intro st ps vs s
      cases ps with
      | nil => simp [runNSeq, runSeq]
      | cons p ps =>
        simp only [runNSeq, runSeq, ← i1 p s]
        rcases runN G n p s with _ | ⟨⟨v, s'⟩ | s' | _, k⟩
        · rfl
        · simp only [Option.map_some, addCalls_fst, i3]
        · rfl
        · rfl
    · intro p need vs s
      simp only [runNLoop, runLoop, ← i1 p (push s), ← popToN_fst]
      rcases popToN s.frame (runN G n p (push s)) with _ | ⟨⟨v, s'⟩ | s' | _, k⟩
      · rfl
      · simp only [Option.map_some, addCalls_fst, i4]
      · simp only [Option.map_some]; split <;> rfl
      · rfl

/-- `a` behaves like `b`, or panics before. -/
def SimN : Option (POut × Nat) → Option (POut × Nat) → Prop
  | none, none => True
  | some (.panic _, _), none => True
  | some (.ok _ s, k), some (.ok _ t, k') => k = k' ∧ s.pos = t.pos
  | some (.fail s, k), some (.fail t, k') => k = k' ∧ s.pos = t.pos
  | some (.panic _, k), some (_, k') => k ≤ k'
  | _, _ => False

theorem SimN.pop {a b fr fr'} (h : SimN a b) : SimN (popToN fr a) (popToN fr' b) := by
  rcases a with _ | ⟨_ | _ | _, k⟩ <;> rcases b with _ | ⟨_ | _ | _, k'⟩ <;> first | trivial | exact h

theorem SimN.add {a b k} (h : SimN a b) : SimN (addCalls k a) (addCalls k b) := by
  rcases a with _ | ⟨_ | _ | _, c⟩ <;> rcases b with _ | ⟨_ | _ | _, c'⟩ <;> first
    | trivial
    | exact h
    | (obtain ⟨h1, h2⟩ := h; exact ⟨by rw [h1], h2⟩)
    | exact Nat.add_le_add_left h k

/-- A panic, followed by more on the other side. -/
theorem SimN.panic_add {s k b c} (h : k ≤ c) : SimN (some (.panic s, k)) (addCalls c b) := by
  rcases b with _ | ⟨_ | _ | _, c'⟩ <;> first | trivial | exact Nat.le_trans h (Nat.le_add_right _ _)

theorem lit_sim (st st' : List Sym) (hst : st = st') (v : List Char) (s t : St) (h : s.pos = t.pos) : SimN (some (litLoop st v s, 1)) (some (litLoop st' v t, 1)) := by
  subst hst
  induction v generalizing s t with
  | nil => exact ⟨rfl, h⟩
  | cons a v ih =>
    simp only [litLoop]
    cases hp : s.pos with
    | nil => rw [hp] at h; rw [← h]; exact ⟨rfl, rfl⟩
    | cons x l =>
      rw [hp] at h; rw [← h]
      simp only
      by_cases hx : x.rune = a
      · simp only [hx, if_true]
        exact ih _ _ (by rw [read_pos', read_pos', hp, ← h])
      · simp only [hx, if_false]; exact ⟨rfl, rfl⟩

theorem runN_sim (G : Grammar) (n : Nat) :
    (∀ p s t, s.pos = t.pos → SimN (runN G n p s) (runN (idle G) n p t)) ∧
    (∀ ps s t, s.pos = t.pos → SimN (runNChoice G n ps s) (runNChoice (idle G) n ps t)) ∧
    (∀ st ps vs vs' s t, s.pos = t.pos → SimN (runNSeq G n st ps vs s) (runNSeq (idle G) n st ps vs' t)) ∧
    (∀ p need vs vs' s t, vs.isEmpty = vs'.isEmpty → s.pos = t.pos → SimN (runNLoop G n p need vs s) (runNLoop (idle G) n p need vs' t)) := by
  induction n with
  | zero =>
    refine ⟨?_, ?_, ?_, ?_⟩
    · intro p s t _; simp [runN, SimN]
    · intro p s t _; simp [runNChoice, SimN]
    · intro st ps vs vs' s t _; simp [runNSeq, SimN]
    · intro p need vs vs' s t _ _; simp [runNLoop, SimN]
  | succ n ih =>
    obtain ⟨i1, i2, i3, i4⟩ := ih
    refine ⟨?_, ?_, ?_, ?_⟩
    · intro p s t h
      cases p with
      | action a e =>
        have i := i1 e s t h
        simp only [runN]
        generalize runN G n e s = x at i
        generalize runN (idle G) n e t = y at i
        rcases y with _ | ⟨⟨v, t'⟩ | t' | t', k'⟩ <;> rcases x with _ | ⟨⟨w, s'⟩ | s' | s', k⟩
        all_goals first
          | trivial
          | exact i.elim
          | exact SimN.add i
          | skip
        · simp only [runAction]
          cases G.act a { s' with asked := s'.asked ++ (G.asks a (sliceFrom s.pos s'.pos)).toList }.frame (sliceFrom s.pos s'.pos) with
          | ok v => exact ⟨by rw [i.1], i.2⟩
          | err e => exact ⟨by rw [i.1], i.2⟩
          | panic =>
            show k + 1 ≤ k' + 1
            rw [i.1]; exact Nat.le_refl _
        · have i : k ≤ k' := i
          show 1 + k ≤ k' + 1
          omega
      | any =>
        simp only [runN, parseAny]
        cases hp : s.pos with
        | nil => rw [hp] at h; rw [← h]; exact ⟨rfl, by rw [hp, h]⟩
        | cons x l => rw [hp] at h; rw [← h]; exact ⟨rfl, by rw [read_pos', read_pos', hp, ← h]⟩
      | cls cs rs i =>
        simp only [runN, parseCls]
        cases hp : s.pos with
        | nil => rw [hp] at h; rw [← h]; exact ⟨rfl, by rw [hp, h]⟩
        | cons x l =>
          rw [hp] at h; rw [← h]
          simp only
          have e : (Verif.read s).pos = (Verif.read t).pos := by rw [read_pos', read_pos', hp, ← h]
          by_cases hc : inClass cs rs x.rune = true <;> cases i <;> simp only [hc, if_true, if_false, Bool.false_eq_true] <;>
            first | exact ⟨rfl, e⟩ | exact ⟨rfl, by rw [hp, h]⟩
      | lit v =>
        simp only [runN]
        exact lit_sim _ _ h v s t h
      | choice es => simp only [runN]; exact (i2 es s t h).add
      | labeled a e =>
        have i := (i1 e (push s) (push t) h).pop (fr := s.frame) (fr' := t.frame)
        simp only [runN]
        generalize popToN s.frame (runN G n e (push s)) = x at i
        generalize popToN t.frame (runN (idle G) n e (push t)) = y at i
        rcases y with _ | ⟨⟨v, t'⟩ | t' | t', k'⟩ <;> rcases x with _ | ⟨⟨w, s'⟩ | s' | s', k⟩
        all_goals first
          | trivial
          | exact i.elim
          | exact SimN.add i
          | (exact ⟨by rw [i.1], i.2⟩)
          | (have i : k ≤ k' := i; show 1 + k ≤ k' + 1; omega)
      | «not» e =>
        have i := (i1 e (push s) (push t) h).pop (fr := s.frame) (fr' := t.frame)
        simp only [runN]
        generalize popToN s.frame (runN G n e (push s)) = x at i
        generalize popToN t.frame (runN (idle G) n e (push t)) = y at i
        rcases y with _ | ⟨⟨v, t'⟩ | t' | t', k'⟩ <;> rcases x with _ | ⟨⟨w, s'⟩ | s' | s', k⟩
        all_goals first
          | trivial
          | exact i.elim
          | (exact ⟨by rw [i.1], h⟩)
          | (have i : k ≤ k' := i; show 1 + k ≤ k' + 1; omega)
          | exact SimN.add i
      | oneOrMore e => simp only [runN]; exact (i4 e true [] [] s t rfl h).add
      | ruleRef x => simp only [runN]; exact ((i1 (G.rules x) (push s) (push t) h).pop).add
      | seq es => simp only [runN]; rw [h]; exact (i3 t.pos es [] [] s t h).add
      | zeroOrMore e => simp only [runN]; exact (i4 e false [] [] s t rfl h).add
      | zeroOrOne e =>
        have i := (i1 e (push s) (push t) h).pop (fr := s.frame) (fr' := t.frame)
        simp only [runN]
        generalize popToN s.frame (runN G n e (push s)) = x at i
        generalize popToN t.frame (runN (idle G) n e (push t)) = y at i
        rcases y with _ | ⟨⟨v, t'⟩ | t' | t', k'⟩ <;> rcases x with _ | ⟨⟨w, s'⟩ | s' | s', k⟩
        all_goals first
          | trivial
          | exact i.elim
          | exact SimN.add i
          | (exact ⟨by rw [i.1], i.2⟩)
          | (have i : k ≤ k' := i; show 1 + k ≤ k' + 1; omega)
    · intro ps s t h
      cases ps with
      | nil => simp only [runNChoice]; exact ⟨rfl, h⟩
      | cons p ps =>
        have i := (i1 p (push s) (push t) h).pop (fr := s.frame) (fr' := t.frame)
        simp only [runNChoice]
        generalize popToN s.frame (runN G n p (push s)) = x at i
        generalize popToN t.frame (runN (idle G) n p (push t)) = y at i
        rcases y with _ | ⟨⟨v, t'⟩ | t' | t', k'⟩ <;> rcases x with _ | ⟨⟨w, s'⟩ | s' | s', k⟩
        all_goals first
          | trivial
          | exact i.elim
          | exact i
          | skip
        · obtain ⟨rfl, e⟩ := i
          exact (i2 ps s' t' e).add
        · exact SimN.panic_add i
    · intro st ps vs vs' s t h
      cases ps with
      | nil => simp only [runNSeq]; exact ⟨rfl, h⟩
      | cons p ps =>
        have i := i1 p s t h
        simp only [runNSeq]
        generalize runN G n p s = x at i
        generalize runN (idle G) n p t = y at i
        rcases y with _ | ⟨⟨v, t'⟩ | t' | t', k'⟩ <;> rcases x with _ | ⟨⟨w, s'⟩ | s' | s', k⟩
        all_goals first
          | trivial
          | exact i.elim
          | (obtain ⟨rfl, e⟩ := i; exact (i3 st ps _ _ s' t' e).add)
          | exact SimN.panic_add i
          | (exact ⟨i.1, rfl⟩)
          | exact i
    · intro p need vs vs' s t hv h
      have i := (i1 p (push s) (push t) h).pop (fr := s.frame) (fr' := t.frame)
      simp only [runNLoop]
      generalize popToN s.frame (runN G n p (push s)) = x at i
      generalize popToN t.frame (runN (idle G) n p (push t)) = y at i
      rcases y with _ | ⟨⟨v, t'⟩ | t' | t', k'⟩ <;> rcases x with _ | ⟨⟨w, s'⟩ | s' | s', k⟩
      all_goals first
        | trivial
        | exact i.elim
        | (obtain ⟨rfl, e⟩ := i; exact (i4 p need (vs ++ [w]) (vs' ++ [v]) s' t' (by cases vs <;> cases vs' <;> rfl) e).add)
        | exact SimN.panic_add i
        | (rw [hv]; simp only; split <;> exact i)
        | exact i
        | (simp only; split <;> exact i)

theorem idle_ends (lib : GoLib) (bs : List UInt8) : runN (idle (ruleGrammar lib)) (depthBound bs.length) gFile (push (initSt (decode bs))) ≠ none := by
  intro h
  have h1 := (runN_fst (idle (ruleGrammar lib)) (depthBound bs.length)).1 gFile (push (initSt (decode bs)))
  rw [h] at h1
  have C : Checked (idle (ruleGrammar lib)) ruleStatic 40 := ⟨(rule_checked lib).nul, (rule_checked lib).wf, (rule_checked lib).size, (rule_checked lib).top⟩
  refine (terminates C (K := 200) (by decide) (depthBound bs.length)).1 gFile (push (initSt (decode bs))) 4 (by decide) ?_ h1.symm
  show (initSt (decode bs)).pos.length * 200 + 4 * 40 + psize gFile ≤ _
  rw [initSt_pos]
  have := decode_length bs
  have : psize gFile < 40 := by decide
  unfold depthBound
  omega

/-- The number of calls is that of the machine with idle actions, or less. -/
theorem exprCnt_ev (lib : GoLib) (bs : List UInt8) :
    ∃ r k, Ev gRules (.e gFile) ((decode bs).map Sym.rune) r k ∧ exprCnt lib bs ≤ k := by
  have hne := idle_ends lib bs
  have hev := (runN_ev (ruleGrammar lib) (depthBound bs.length)).1 gFile (push (initSt (decode bs)))
  have hsim := (runN_sim (ruleGrammar lib) (depthBound bs.length)).1 gFile (push (initSt (decode bs))) (push (initSt (decode bs))) rfl
  have hpos : (push (initSt (decode bs))).pos = decode bs := initSt_pos _
  unfold exprCnt
  show ∃ r k, _ ∧ (match runN (ruleGrammar lib) (depthBound bs.length) gFile (push (initSt (decode bs))) with | some (_, c) => c | none => 0) ≤ k
  generalize runN (idle (ruleGrammar lib)) (depthBound bs.length) gFile (push (initSt (decode bs))) = y at *
  generalize runN (ruleGrammar lib) (depthBound bs.length) gFile (push (initSt (decode bs))) = x at *
  rcases y with _ | ⟨⟨v, t'⟩ | t' | t', k'⟩
  · exact absurd rfl hne
  · refine ⟨_, k', by rw [← hpos]; exact hev, ?_⟩
    rcases x with _ | ⟨⟨w, s'⟩ | s' | s', k⟩
    · exact hsim.elim
    · exact Nat.le_of_eq hsim.1
    · exact hsim.elim
    · exact hsim
  · refine ⟨_, k', by rw [← hpos]; exact hev.2, ?_⟩
    rcases x with _ | ⟨⟨w, s'⟩ | s' | s', k⟩
    · exact hsim.elim
    · exact hsim.elim
    · exact Nat.le_of_eq hsim.1
    · exact hsim
  · exact hev.elim

end Verif.Proof.Count

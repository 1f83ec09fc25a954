import Verif.Model.Peg
/-! # Generic facts about the PEG machine, for every grammar -/
namespace Verif.Proof
open Verif

/-! ## More fuel does not change the outcome -/

theorem run_mono (G : Grammar) (n : Nat) :
    (∀ e s o, run G n e s = some o → run G (n+1) e s = some o) ∧
    (∀ es s o, runChoice G n es s = some o → runChoice G (n+1) es s = some o) ∧
    (∀ st es vs s o, runSeq G n st es vs s = some o → runSeq G (n+1) st es vs s = some o) ∧
    (∀ e need vs s o, runLoop G n e need vs s = some o → runLoop G (n+1) e need vs s = some o) := by
  induction n with
  | zero => simp [run, runChoice, runSeq, runLoop]
  | succ n ih =>
    obtain ⟨ih1, ih2, ih3, ih4⟩ := ih
    have map1 : ∀ e s fr o, (run G n e s).map (popTo fr) = some o → (run G (n+1) e s).map (popTo fr) = some o := by
      intro e s fr o h
      rw [Option.map_eq_some_iff] at h ⊢
      obtain ⟨a, ha, rfl⟩ := h
      exact ⟨a, ih1 _ _ _ ha, rfl⟩
    refine ⟨?_, ?_, ?_, ?_⟩
    · intro e s o h
      cases e with
      | action a e =>
        simp only [run] at h ⊢
        cases hr : run G n e s with
        | none => rw [hr] at h; simp at h
        | some x => rw [ih1 _ _ _ hr]; rw [hr] at h; exact h
      | any => simpa [run] using h
      | cls => simpa [run] using h
      | choice es => simp only [run] at h ⊢; exact ih2 _ _ _ h
      | labeled l e =>
        simp only [run] at h ⊢
        cases hr : (run G n e (push s)).map (popTo s.frame) with
        | none => rw [hr] at h; simp at h
        | some x => rw [map1 _ _ _ _ hr]; rw [hr] at h; exact h
      | lit v => simpa [run] using h
      | not e =>
        simp only [run] at h ⊢
        cases hr : (run G n e (push s)).map (popTo s.frame) with
        | none => rw [hr] at h; simp at h
        | some x => rw [map1 _ _ _ _ hr]; rw [hr] at h; exact h
      | oneOrMore e => simp only [run] at h ⊢; exact ih4 _ _ _ _ _ h
      | ruleRef r => simp only [run] at h ⊢; exact map1 _ _ _ _ h
      | seq es => simp only [run] at h ⊢; exact ih3 _ _ _ _ _ h
      | zeroOrMore e => simp only [run] at h ⊢; exact ih4 _ _ _ _ _ h
      | zeroOrOne e =>
        simp only [run] at h ⊢
        cases hr : (run G n e (push s)).map (popTo s.frame) with
        | none => rw [hr] at h; simp at h
        | some x => rw [map1 _ _ _ _ hr]; rw [hr] at h; exact h
    · intro es s o h
      cases es with
      | nil => simpa [runChoice] using h
      | cons e es =>
        rw [runChoice] at h ⊢
        cases hr : (run G n e (push s)).map (popTo s.frame) with
        | none => rw [hr] at h; simp at h
        | some x =>
          rw [map1 _ _ _ _ hr]; rw [hr] at h
          cases x with
          | fail s' => exact ih2 _ _ _ h
          | ok v s' => exact h
          | panic s' => exact h
    · intro st es vs s o h
      cases es with
      | nil => simpa [runSeq] using h
      | cons e es =>
        rw [runSeq] at h ⊢
        cases hr : run G n e s with
        | none => rw [hr] at h; simp at h
        | some x =>
          rw [ih1 _ _ _ hr]; rw [hr] at h
          cases x with
          | fail s' => exact h
          | ok v s' => exact ih3 _ _ _ _ _ h
          | panic s' => exact h
    · intro e need vs s o h
      rw [runLoop] at h ⊢
      cases hr : (run G n e (push s)).map (popTo s.frame) with
      | none => rw [hr] at h; simp at h
      | some x =>
        rw [map1 _ _ _ _ hr]; rw [hr] at h
        cases x with
        | fail s' => exact h
        | ok v s' => exact ih4 _ _ _ _ _ h
        | panic s' => exact h

theorem run_mono_le (G : Grammar) {n m : Nat} (hnm : n ≤ m) {e : PExpr} {s : St} {o : POut} (h : run G n e s = some o) :
    run G m e s = some o := by
  induction hnm with
  | refl => exact h
  | step _ ih => exact (run_mono G _).1 _ _ _ ih

theorem run_det (G : Grammar) {n m : Nat} {e : PExpr} {s : St} {o o' : POut} (h : run G n e s = some o)
    (h' : run G m e s = some o') : o = o' := by
  have a := run_mono_le G (Nat.le_max_left n m) h
  have b := run_mono_le G (Nat.le_max_right n m) h'
  rw [a] at b; exact Option.some.inj b

/-! ## Relations between the state before and after -/

/-- A relation kept by every step of the machine. -/
structure Step (G : Grammar) (R : St → St → Prop) : Prop where
  refl : ∀ s, R s s
  trans : ∀ a b c, R a b → R b c → R a c
  frameL : ∀ s s' fr, R { s with frame := fr } s' → R s s'
  frameR : ∀ s s' fr, R s s' → R s { s' with frame := fr }
  read : ∀ s x l, s.pos = x :: l → R s (read s)
  restore : ∀ s s', R s s' → R s { s' with pos := s.pos }
  action : ∀ a st s v s', runAction G a st s = .ok v s' → R s s'

/-- `R s ·` holds of the state in a (non-panic) outcome. -/
def After (R : St → St → Prop) (s : St) : POut → Prop
  | .ok _ s' => R s s'
  | .fail s' => R s s'
  | .panic _ => True

theorem Step.litLoop {G R} (H : Step G R) (start : St) (val : List Char) (s : St) (h : R start s) :
    After R start (litLoop start.pos val s) := by
  induction val generalizing s with
  | nil => simpa [Verif.litLoop, After] using h
  | cons c cs ih =>
    rw [Verif.litLoop]
    split
    · exact H.restore _ _ h
    · rename_i x l hp
      split
      · exact ih _ (H.trans _ _ _ h (H.read _ _ _ hp))
      · exact H.restore _ _ h

theorem Step.pop {G R} (H : Step G R) (s : St) (o : POut) (h : After R (push s) o) (fr) : After R s (popTo fr o) := by
  cases o with
  | ok v s' => exact H.frameR _ _ _ (H.frameL _ _ _ h)
  | fail s' => exact H.frameR _ _ _ (H.frameL _ _ _ h)
  | panic s' => trivial

theorem Step.trans' {G R} (H : Step G R) (a b : St) (o : POut) (h : R a b) (h' : After R b o) : After R a o := by
  cases o with
  | ok v s' => exact H.trans _ _ _ h h'
  | fail s' => exact H.trans _ _ _ h h'
  | panic s' => trivial

theorem Step.run {G R} (H : Step G R) (n : Nat) :
    (∀ e s o, run G n e s = some o → After R s o) ∧
    (∀ es s o, runChoice G n es s = some o → After R s o) ∧
    (∀ (s0 : St) es vs s o, R s0 s → runSeq G n s0.pos es vs s = some o → After R s0 o) ∧
    (∀ e need vs s o, runLoop G n e need vs s = some o → After R s o) := by
  induction n with
  | zero => simp [Verif.run, runChoice, runSeq, runLoop]
  | succ n ih =>
    obtain ⟨ih1, ih2, ih3, ih4⟩ := ih
    have map1 : ∀ e s o fr, (Verif.run G n e (push s)).map (popTo fr) = some o → After R s o := by
      intro e s o fr h
      rw [Option.map_eq_some_iff] at h
      obtain ⟨a, ha, rfl⟩ := h
      exact H.pop _ _ (ih1 _ _ _ ha) _
    refine ⟨?_, ?_, ?_, ?_⟩
    · intro e s o h
      cases e with
      | action a e =>
        simp only [Verif.run] at h
        cases hr : Verif.run G n e s with
        | none => rw [hr] at h; simp at h
        | some x =>
          rw [hr] at h
          have hx := ih1 _ _ _ hr
          cases x with
          | fail s' => simp at h; subst h; exact hx
          | panic s' => simp at h; subst h; exact hx
          | ok v s' =>
            simp at h; subst h
            cases hra : runAction G a s.pos s' with
            | ok v s'' => exact H.trans _ _ _ hx (H.action _ _ _ _ _ hra)
            | panic s'' => trivial
            | fail s'' =>
              exfalso; unfold runAction at hra; simp only [] at hra; split at hra <;> simp at hra
      | any =>
        simp only [Verif.run, Option.some.injEq] at h; subst h
        unfold parseAny; split
        · exact H.refl _
        · rename_i hp; exact H.read _ _ _ hp
      | cls chars ranges inv =>
        simp only [Verif.run, Option.some.injEq] at h; subst h
        unfold parseCls; split
        · exact H.refl _
        · rename_i hp
          repeat' split
          all_goals first | exact H.refl _ | exact H.read _ _ _ hp
      | choice es => simp only [Verif.run] at h; exact ih2 _ _ _ h
      | labeled l e =>
        simp only [Verif.run] at h
        cases hr : (Verif.run G n e (push s)).map (popTo s.frame) with
        | none => rw [hr] at h; simp at h
        | some x =>
          rw [hr] at h
          have hx := map1 _ _ _ _ hr
          cases x with
          | fail s' => simp at h; subst h; exact hx
          | panic s' => simp at h; subst h; exact hx
          | ok v s' => simp at h; subst h; exact H.frameR _ _ _ hx
      | lit v => simp only [Verif.run, Option.some.injEq] at h; subst h; exact H.litLoop _ _ _ (H.refl _)
      | not e =>
        simp only [Verif.run] at h
        cases hr : (Verif.run G n e (push s)).map (popTo s.frame) with
        | none => rw [hr] at h; simp at h
        | some x =>
          rw [hr] at h
          have hx := map1 _ _ _ _ hr
          cases x with
          | fail s' => simp at h; subst h; exact H.restore _ _ hx
          | panic s' => simp at h; subst h; exact hx
          | ok v s' => simp at h; subst h; exact H.restore _ _ hx
      | oneOrMore e => simp only [Verif.run] at h; exact ih4 _ _ _ _ _ h
      | ruleRef r => simp only [Verif.run] at h; exact map1 _ _ _ _ h
      | seq es => simp only [Verif.run] at h; exact ih3 _ _ _ _ _ (H.refl _) h
      | zeroOrMore e => simp only [Verif.run] at h; exact ih4 _ _ _ _ _ h
      | zeroOrOne e =>
        simp only [Verif.run] at h
        cases hr : (Verif.run G n e (push s)).map (popTo s.frame) with
        | none => rw [hr] at h; simp at h
        | some x =>
          rw [hr] at h
          have hx := map1 _ _ _ _ hr
          cases x with
          | fail s' => simp at h; subst h; exact hx
          | panic s' => simp at h; subst h; exact hx
          | ok v s' => simp at h; subst h; exact hx
    · intro es s o h
      cases es with
      | nil => simp only [runChoice, Option.some.injEq] at h; subst h; exact H.refl _
      | cons e es =>
        rw [runChoice] at h
        cases hr : (Verif.run G n e (push s)).map (popTo s.frame) with
        | none => rw [hr] at h; simp at h
        | some x =>
          rw [hr] at h
          have hx := map1 _ _ _ _ hr
          cases x with
          | fail s' => exact H.trans' _ _ _ hx (ih2 _ _ _ h)
          | ok v s' => simp at h; subst h; exact hx
          | panic s' => simp at h; subst h; exact hx
    · intro s0 es vs s o hs h
      cases es with
      | nil => simp only [runSeq, Option.some.injEq] at h; subst h; exact hs
      | cons e es =>
        rw [runSeq] at h
        cases hr : Verif.run G n e s with
        | none => rw [hr] at h; simp at h
        | some x =>
          rw [hr] at h
          have hx := ih1 _ _ _ hr
          cases x with
          | fail s' => simp at h; subst h; exact H.restore _ _ (H.trans _ _ _ hs hx)
          | ok v s' => exact ih3 _ _ _ _ _ (H.trans _ _ _ hs hx) h
          | panic s' => simp at h; subst h; exact hx
    · intro e need vs s o h
      rw [runLoop] at h
      cases hr : (Verif.run G n e (push s)).map (popTo s.frame) with
      | none => rw [hr] at h; simp at h
      | some x =>
        rw [hr] at h
        have hx := map1 _ _ _ _ hr
        cases x with
        | fail s' =>
          simp only [] at h
          split at h <;> (simp at h; subst h; exact hx)
        | ok v s' => exact H.trans' _ _ _ hx (ih4 _ _ _ _ _ h)
        | panic s' => simp at h; subst h; exact hx

theorem noteBad_eq (s : St) : ∃ l, noteBad s = { s with errs := s.errs ++ l } := by
  unfold noteBad; split
  · exact ⟨_, rfl⟩
  · exact ⟨[], by simp⟩

theorem read_eq (s : St) : ∃ l, read s = { s with pos := s.pos.tail, errs := s.errs ++ l } := by
  unfold read
  obtain ⟨l, hl⟩ := noteBad_eq { s with pos := s.pos.tail }
  exact ⟨l, hl⟩

theorem runAction_ok {G a st s v s'} (h : runAction G a st s = .ok v s') :
    ∃ l m, s' = { s with errs := s.errs ++ l, asked := s.asked ++ m } := by
  unfold runAction at h
  simp only [] at h
  split at h
  · simp at h; obtain ⟨_, rfl⟩ := h; exact ⟨[], (G.asks a (sliceFrom st s.pos)).toList, by simp⟩
  · simp at h; obtain ⟨_, rfl⟩ := h; exact ⟨_, _, rfl⟩
  · simp at h

/-- Errors are only ever added. -/
theorem step_errs (G : Grammar) : Step G (fun s s' => ∃ l, s'.errs = s.errs ++ l) where
  refl s := ⟨[], by simp⟩
  trans a b c := by rintro ⟨l, h⟩ ⟨m, h'⟩; exact ⟨l ++ m, by rw [h', h]; simp⟩
  frameL s s' fr h := h
  frameR s s' fr h := h
  read s x l hp := by obtain ⟨l, hl⟩ := read_eq s; exact ⟨l, by rw [hl]⟩
  restore s s' h := h
  action a st s v s' h := by obtain ⟨l, m, rfl⟩ := runAction_ok h; exact ⟨l, rfl⟩

/-- The remaining input is a suffix of the input. -/
theorem step_suffix (G : Grammar) : Step G (fun s s' => s'.pos <:+ s.pos) where
  refl s := List.suffix_refl _
  trans a b c h h' := List.IsSuffix.trans h' h
  frameL s s' fr h := h
  frameR s s' fr h := h
  read s x l hp := by obtain ⟨l, hl⟩ := read_eq s; rw [hl]; exact List.tail_suffix _
  restore s s' h := List.suffix_refl _
  action a st s v s' h := by obtain ⟨l, m, rfl⟩ := runAction_ok h; exact List.suffix_refl _

/-- Is the byte an invalid one? -/
def isBad : Sym → Bool
  | .bad _ => true
  | .ok _ => false

/-- The invalid bytes up to and including the current position have been reported: if one of them was consumed or is
current now (and the current one was not so before), there is an error. -/
theorem step_bad (G : Grammar) : Step G (fun s s' => (∃ l, s'.errs = s.errs ++ l) ∧
    ∃ l, s.pos = l ++ s'.pos ∧ ((s.pos.head?.any isBad = true → s.errs ≠ []) → (l.any isBad = true ∨ s'.pos.head?.any isBad = true) → s'.errs ≠ [])) where
  refl s := ⟨⟨[], by simp⟩, [], by simp, fun h h' => by
    rcases h' with h' | h'
    · simp at h'
    · exact h h'⟩
  trans a b c := by
    rintro ⟨⟨e1, he1⟩, l, hl, h⟩ ⟨⟨e2, he2⟩, m, hm, h'⟩
    refine ⟨⟨e1 ++ e2, by rw [he2, he1]; simp⟩, l ++ m, by rw [hl, hm]; simp, fun hh hbad => ?_⟩
    have hne : b.errs ≠ [] → c.errs ≠ [] := by rw [he2]; intro h h2; simp at h2; exact h h2.1
    have hb : b.pos.head?.any isBad = true → b.errs ≠ [] := fun hx => h hh (Or.inr hx)
    simp only [List.any_append, Bool.or_eq_true] at hbad
    rcases hbad with (hbad | hbad) | hbad
    · exact hne (h hh (Or.inl hbad))
    · exact h' hb (Or.inl hbad)
    · exact h' hb (Or.inr hbad)
  frameL s s' fr h := h
  frameR s s' fr h := h
  read s x l hp := by
    refine ⟨by obtain ⟨l, hl⟩ := read_eq s; exact ⟨l, by rw [hl]⟩, [x], ?_, ?_⟩
    · obtain ⟨l, hl⟩ := read_eq s; rw [hl, hp]; rfl
    · intro h1 h2
      rcases h2 with h2 | h2
      · simp at h2
        have := h1 (by rw [hp]; simpa using h2)
        obtain ⟨l, hl⟩ := read_eq s; rw [hl]; simp [this]
      · unfold Verif.read noteBad at h2 ⊢
        rw [hp] at h2 ⊢
        simp only [List.tail_cons] at h2 ⊢
        cases l with
        | nil => simp at h2
        | cons y l =>
          cases y with
          | ok c => simp [isBad] at h2
          | bad b => simp
  restore s s' := by
    rintro ⟨⟨e, he⟩, l, hl, h⟩
    refine ⟨⟨e, he⟩, [], by simp, fun h1 h2 => ?_⟩
    rcases h2 with h2 | h2
    · simp at h2
    · have := h1 h2; simp only [he]; simp [this]
  action a st s v s' h := by
    obtain ⟨l, m, rfl⟩ := runAction_ok h
    refine ⟨⟨l, rfl⟩, [], by simp, fun h1 h2 => ?_⟩
    rcases h2 with h2 | h2
    · simp at h2
    · have := h1 h2; simp [this]

end Verif.Proof

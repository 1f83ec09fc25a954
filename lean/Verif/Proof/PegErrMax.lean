import Verif.Proof.PegErrTrue
/-! # The farthest failure -/
namespace Verif.Proof
open Verif Verif.Spec

/-! ## More fuel -/

theorem dRun_mono (G : Grammar) (n : Nat) :
    (∀ e s o, dRun G n e s = some o → dRun G (n+1) e s = some o) ∧
    (∀ es s o, dChoice G n es s = some o → dChoice G (n+1) es s = some o) ∧
    (∀ st es vs s o, dSeq G n st es vs s = some o → dSeq G (n+1) st es vs s = some o) ∧
    (∀ e need vs s o, dLoop G n e need vs s = some o → dLoop G (n+1) e need vs s = some o) := by
  induction n with
  | zero => simp [dRun, dChoice, dSeq, dLoop]
  | succ n ih =>
    obtain ⟨ih1, ih2, ih3, ih4⟩ := ih
    have map1' : ∀ e s (f : DOut → DOut) o, (dRun G n e s).map f = some o → (dRun G (n+1) e s).map f = some o := by
      intro e s f o h
      rw [Option.map_eq_some_iff] at h ⊢
      obtain ⟨a, ha, rfl⟩ := h
      exact ⟨a, ih1 _ _ _ ha, rfl⟩
    refine ⟨?_, ?_, ?_, ?_⟩
    · intro e s o h
      cases e with
      | action a e =>
        simp only [dRun] at h ⊢
        cases hr : dRun G n e s with
        | none => rw [hr] at h; simp at h
        | some x => rw [ih1 _ _ _ hr]; rw [hr] at h; exact h
      | any => simpa [dRun] using h
      | cls => simpa [dRun] using h
      | choice es => simp only [dRun] at h ⊢; exact ih2 _ _ _ h
      | labeled l e =>
        simp only [dRun] at h ⊢
        cases hr : (dRun G n e s.push).map (dPop s.frame) with
        | none => rw [hr] at h; simp at h
        | some x => rw [map1' _ _ _ _ hr]; rw [hr] at h; exact h
      | lit v => simpa [dRun] using h
      | not e =>
        simp only [dRun] at h ⊢
        cases hr : (dRun G n e s.push.flip).map (dPop s.frame) with
        | none => rw [hr] at h; simp at h
        | some x => rw [map1' _ _ _ _ hr]; rw [hr] at h; exact h
      | oneOrMore e => simp only [dRun] at h ⊢; exact ih4 _ _ _ _ _ h
      | ruleRef r => simp only [dRun] at h ⊢; exact map1' _ _ _ _ h
      | seq es => simp only [dRun] at h ⊢; exact ih3 _ _ _ _ _ h
      | zeroOrMore e => simp only [dRun] at h ⊢; exact ih4 _ _ _ _ _ h
      | zeroOrOne e =>
        simp only [dRun] at h ⊢
        cases hr : (dRun G n e s.push).map (dPop s.frame) with
        | none => rw [hr] at h; simp at h
        | some x => rw [map1' _ _ _ _ hr]; rw [hr] at h; exact h
    · intro es s o h
      cases es with
      | nil => simpa [dChoice] using h
      | cons e es =>
        rw [dChoice] at h ⊢
        cases hr : (dRun G n e s.push).map (dPop s.frame) with
        | none => rw [hr] at h; simp at h
        | some x =>
          rw [map1' _ _ _ _ hr]; rw [hr] at h
          cases x with
          | fail s' => exact ih2 _ _ _ h
          | ok v s' => exact h
          | panic s' => exact h
    · intro st es vs s o h
      cases es with
      | nil => simpa [dSeq] using h
      | cons e es =>
        rw [dSeq] at h ⊢
        cases hr : dRun G n e s with
        | none => rw [hr] at h; simp at h
        | some x =>
          rw [ih1 _ _ _ hr]; rw [hr] at h
          cases x with
          | fail s' => exact h
          | ok v s' => exact ih3 _ _ _ _ _ h
          | panic s' => exact h
    · intro e need vs s o h
      rw [dLoop] at h ⊢
      cases hr : (dRun G n e s.push).map (dPop s.frame) with
      | none => rw [hr] at h; simp at h
      | some x =>
        rw [map1' _ _ _ _ hr]; rw [hr] at h
        cases x with
        | fail s' => exact h
        | ok v s' => exact ih4 _ _ _ _ _ h
        | panic s' => exact h

theorem dRun_mono_le (G : Grammar) {n m : Nat} (hnm : n ≤ m) {e : PExpr} {s : DSt} {o : DOut} (h : dRun G n e s = some o) :
    dRun G m e s = some o := by
  induction hnm with
  | refl => exact h
  | step _ ih => exact (dRun_mono G _).1 _ _ _ ih

/-! ## The farthest failure is at a place of the input, and nothing expected is there -/

/-- What is expected is missing, before `expectedList` renames `!.`. -/
def RawMissing (rest : List Sym) (want : Str) : Prop := Terminal rest false want ∨ ∃ w, want = '!' :: w ∧ Terminal rest true w

def MaxAt (data : List Sym) (s : DSt) : Prop :=
  PtAt data s.pt ∧ ∃ pt, PtAt data pt ∧ s.maxFailPos.offset = pt.pos.offset ∧ (s.maxFailPos = pt.pos ∨ s.maxFailPos = ⟨1, 1, 0⟩) ∧
    ∀ w ∈ s.maxFailExpected, RawMissing pt.rest w

theorem maxAt_inv (G : Grammar) (hG : ∀ r, plainE (G.rules r) = true) (data : List Sym) : DInv G data (MaxAt data) where
  plain := hG
  at_ := fun s h => h.1
  failAt := by
    intro s pt b w ⟨h0, p, hp, ho, hq, hw⟩ hpt ht
    refine ⟨by simpa using h0, ?_⟩
    have hmiss : b = s.invert → RawMissing pt.rest (if s.invert then '!' :: w else w) := by
      intro hb
      cases hi : s.invert with
      | true => simp only [if_true]; rw [hi] at hb; subst hb; exact .inr ⟨w, rfl, ht⟩
      | false => rw [hi] at hb; subst hb; exact .inl ht
    unfold DSt.failAt
    split
    · rename_i hb
      simp only
      split
      · exact ⟨p, hp, ho, hq, hw⟩
      · rename_i hlt
        by_cases hgt : pt.pos.offset > s.maxFailPos.offset
        · simp only [hgt, if_true]
          refine ⟨pt, hpt, rfl, .inl rfl, ?_⟩
          intro v hv
          simp only [List.nil_append, List.mem_singleton] at hv
          subst hv
          exact hmiss hb
        · simp only [hgt, if_false]
          refine ⟨p, hp, ho, hq, ?_⟩
          intro v hv
          rw [List.mem_append, List.mem_singleton] at hv
          rcases hv with hv | rfl
          · exact hw v hv
          · have : p = pt := ptAt_unique hp hpt (by omega)
            subst this
            exact hmiss hb
    · exact ⟨p, hp, ho, hq, hw⟩
  read := by
    intro s ⟨h0, h1⟩ hne
    exact ⟨by simpa using ptAt_advance h0 hne, by simpa using h1⟩
  pt := fun s pt h hp => ⟨hp, h.2⟩
  frame := fun s fr h => h
  flip := fun s h => h
  rstack := fun s rs h => h
  action := fun n r rs a e s v s' _ _ _ _ _ h' x _ => h'

theorem maxAt_init (data : List Sym) : MaxAt data (dInit data) := by
  refine ⟨dInit_at data, ⟨place data 0, data⟩, ⟨[], rfl, rfl⟩, ?_, .inr ?_, ?_⟩
  · simp [dInit, place]
  · simp [dInit]
  · simp [dInit]

/-! ## Every failure is recorded -/

/-- The expressions that match one terminal. -/
def isTerm : PExpr → Bool
  | .any => true
  | .cls .. => true
  | .lit v => v.length ≤ 3
  | _ => false

mutual
/-- Literals have at most three characters, only terminals are negated, and there are no empty choices. -/
def simpleE : PExpr → Bool
  | .action _ e => simpleE e
  | .any => true
  | .cls .. => true
  | .choice es => !es.isEmpty && simpleEs es
  | .labeled _ e => simpleE e
  | .lit v => v.length ≤ 3
  | .not e => isTerm e
  | .oneOrMore e => simpleE e
  | .ruleRef _ => true
  | .seq es => simpleEs es
  | .zeroOrMore e => simpleE e
  | .zeroOrOne e => simpleE e
def simpleEs : List PExpr → Bool
  | [] => true
  | e :: es => simpleE e && simpleEs es
end

theorem simple_rules (r : RuleName) : simpleE (gRules r) = true := by cases r <;> decide

/-- No failure is recorded beyond the start without something expected. -/
structure Tidy (data : List Sym) (s : DSt) : Prop where
  at_ : PtAt data s.pt
  invert : s.invert = false
  zero : s.maxFailExpected = [] → s.maxFailPos.offset = 0

/-- From `s` to `s'`. -/
structure Far (data : List Sym) (s s' : DSt) : Prop where
  tidy : Tidy data s'
  max : s.maxFailPos.offset ≤ s'.maxFailPos.offset
  exp : s.maxFailExpected ≠ [] → s'.maxFailExpected ≠ []
  pt : s.pt.pos.offset ≤ s'.pt.pos.offset

/-- The state records a failure not before `o`. -/
def Seen (o : Nat) (s : DSt) : Prop := o ≤ s.maxFailPos.offset ∧ s.maxFailExpected ≠ []

def FarPost (data : List Sym) (s : DSt) : Option DOut → Prop
  | some (.ok _ s') => Far data s s'
  | some (.fail s') => Far data s s' ∧ s'.pt = s.pt ∧ Seen s.pt.pos.offset s'
  | _ => True

variable {G : Grammar} {data : List Sym}

theorem Far.refl {s} (h : Tidy data s) : Far data s s := ⟨h, Nat.le_refl _, id, Nat.le_refl _⟩

theorem Far.trans {s s' s''} (h : Far data s s') (h' : Far data s' s'') : Far data s s'' :=
  ⟨h'.1, Nat.le_trans h.2 h'.2, fun k => h'.3 (h.3 k), Nat.le_trans h.4 h'.4⟩

theorem Seen.far {o s s'} (h : Seen o s) (h' : Far data s s') : Seen o s' := ⟨Nat.le_trans h.1 h'.2, h'.3 h.2⟩

theorem Seen.le {o o' s} (h : Seen o s) (h' : o' ≤ o) : Seen o' s := ⟨Nat.le_trans h' h.1, h.2⟩

/-- What `failAt` does to the farthest failure. -/
theorem failAt_cases (s : DSt) (b : Bool) (pos : Position) (w : Str) (h0 : s.maxFailExpected = [] → s.maxFailPos.offset = 0) :
    s.maxFailPos.offset ≤ (s.failAt b pos w).maxFailPos.offset ∧
    (s.maxFailExpected ≠ [] → (s.failAt b pos w).maxFailExpected ≠ []) ∧
    ((s.failAt b pos w).maxFailExpected = [] → (s.failAt b pos w).maxFailPos.offset = 0) ∧
    (b = s.invert → Seen pos.offset (s.failAt b pos w)) := by
  unfold DSt.failAt
  split
  · rename_i hb
    simp only
    split
    · rename_i hlt
      refine ⟨Nat.le_refl _, id, h0, fun _ => ⟨Nat.le_of_lt hlt, fun k => ?_⟩⟩
      have := h0 k
      omega
    · by_cases hgt : pos.offset > s.maxFailPos.offset
      · simp only [hgt, if_true]
        exact ⟨Nat.le_of_lt hgt, by simp, by simp, fun _ => ⟨Nat.le_refl _, by simp⟩⟩
      · simp only [hgt, if_false]
        exact ⟨Nat.le_refl _, by simp, by simp, fun _ => ⟨by simp; omega, by simp⟩⟩
  · rename_i hb
    exact ⟨Nat.le_refl _, id, h0, fun k => absurd k hb⟩

theorem far_failAt {s : DSt} (h : Tidy data s) (b w) (pos : Position) : Far data s (s.failAt b pos w) := by
  obtain ⟨h1, h2, h3, -⟩ := failAt_cases s b pos w h.3
  exact ⟨⟨by simpa using h.1, by simpa using h.2, h3⟩, h1, h2, by simp⟩

theorem seen_failAt {s : DSt} (h : Tidy data s) (w) (pos : Position) : Seen pos.offset (s.failAt false pos w) :=
  (failAt_cases s false pos w h.3).2.2.2 h.2.symm

theorem far_read {s : DSt} (h : Tidy data s) (hne : s.pt.rest ≠ []) : Far data s s.read := by
  have ha := ptAt_advance h.1 hne
  refine ⟨⟨by simpa using ha, by simpa using h.2, by simpa using h.3⟩, by simp, by simp, ?_⟩
  rw [dread_pt, ptAt_le h.1 ha, advance_rest]
  simp

theorem far_restore {s s' : DSt} (hs : PtAt data s.pt) (h : Far data s s') : Far data s (s'.restore s.pt) ∧ (s'.restore s.pt).pt = s.pt := by
  rw [restore_eq h.1.1 hs]
  exact ⟨⟨⟨hs, h.1.2, h.1.3⟩, h.2, h.3, Nat.le_refl _⟩, rfl⟩

theorem seen_restore {s : DSt} {o p} (h : Seen o s) : Seen o (s.restore p) := by
  unfold DSt.restore
  split <;> exact h

theorem far_cls (a b c) {s : DSt} (h : Tidy data s) : FarPost data s (some (dCls a b c s)) := by
  unfold dCls
  simp only
  have hf : ∀ w, FarPost data s (some (.fail (s.failAt false s.pt.pos w))) := fun w =>
    ⟨far_failAt h _ _ _, by simp, seen_failAt h _ _⟩
  cases hr : s.pt.rest with
  | nil => exact hf _
  | cons x r =>
    have hk : ∀ w, Far data s (s.read.failAt true s.pt.pos w) := fun w =>
      (far_read h (by simp [hr])).trans (far_failAt (far_read h (by simp [hr])).1 _ _ _)
    simp only []
    split <;> split
    · exact hf _
    · exact hk _
    · exact hk _
    · exact hf _

theorem far_any {s : DSt} (h : Tidy data s) : FarPost data s (some (dAny s)) := by
  unfold dAny
  simp only
  cases hr : s.pt.rest with
  | nil => exact ⟨far_failAt h _ _ _, by simp, seen_failAt h _ _⟩
  | cons x r => exact (far_read h (by simp [hr])).trans (far_failAt (far_read h (by simp [hr])).1 _ _ _)

theorem far_lit {start : DSt} (hp : PtAt data start.pt) (want : Str) (val : List Char) : ∀ {s : DSt}, Far data start s →
    FarPost data start (some (dLit start.pt want val s)) := by
  induction val with
  | nil => intro s h; simp only [dLit]; exact h.trans (far_failAt h.1 _ _ _)
  | cons w val ih =>
    intro s h
    have hf : FarPost data start (some (.fail ((s.failAt false start.pt.pos want).restore start.pt))) := by
      have := far_restore hp (h.trans (far_failAt h.1 false want start.pt.pos))
      exact ⟨this.1, this.2, seen_restore (seen_failAt h.1 _ _)⟩
    simp only [dLit]
    cases hr : s.pt.rest with
    | nil => exact hf
    | cons x r =>
      simp only []
      split
      · exact ih (h.trans (far_read h.1 (by simp [hr])))
      · exact hf

/-! Terminals under negation. -/

/-- A terminal under negation: recorded if it matches. -/
def NotPost (data : List Sym) (s0 : DSt) : DOut → Prop
  | .ok _ s' => Seen s0.pt.pos.offset s' ∧ s0.maxFailPos.offset ≤ s'.maxFailPos.offset ∧ s'.invert = true ∧ PtAt data s'.pt
  | .fail s' => s'.maxFailPos = s0.maxFailPos ∧ s'.maxFailExpected = s0.maxFailExpected ∧ s'.invert = true ∧ PtAt data s'.pt
  | .panic _ => False

theorem failAt_inverted {s : DSt} (hi : s.invert = true) (pos w) : s.failAt false pos w = s := by
  unfold DSt.failAt; rw [if_neg (by simp [hi])]

theorem not_lit {data} {start : DSt} (hp : PtAt data start.pt) (want : Str) (val : List Char) : ∀ {s : DSt}, PtAt data s.pt → s.invert = true →
    (s.maxFailExpected = [] → s.maxFailPos.offset = 0) → s.maxFailPos = start.maxFailPos → s.maxFailExpected = start.maxFailExpected →
    NotPost data start (dLit start.pt want val s) := by
  induction val with
  | nil =>
    intro s hs hi h0 hm he
    simp only [dLit]
    obtain ⟨h1, h2, h3, h4⟩ := failAt_cases s true start.pt.pos want h0
    exact ⟨h4 hi.symm, hm ▸ h1, by simpa using hi, by simpa using hs⟩
  | cons w val ih =>
    intro s hs hi h0 hm he
    simp only [dLit, failAt_inverted hi]
    have hf : NotPost data start (.fail (s.restore start.pt)) := by
      refine ⟨by simpa using hm, by simpa using he, by simpa using hi, ?_⟩
      rw [restore_eq hs hp]
      exact hp
    cases hr : s.pt.rest with
    | nil => exact hf
    | cons x r =>
      simp only []
      by_cases hx : x.rune = w
      · rw [if_pos hx]
        exact ih (s := s.read) (by simpa using ptAt_advance hs (by simp [hr])) (by simpa using hi) (by simpa using h0) (by simpa using hm) (by simpa using he)
      · rw [if_neg hx]
        exact hf

theorem not_read {s : DSt} (hs : PtAt data s.pt) (hi : s.invert = true) (h0 : s.maxFailExpected = [] → s.maxFailPos.offset = 0) (hne : s.pt.rest ≠ []) (v w) :
    NotPost data s (.ok v (s.read.failAt true s.pt.pos w)) := by
  obtain ⟨h1, h2, h3, h4⟩ := failAt_cases s.read true s.pt.pos w (by simpa using h0)
  exact ⟨h4 (by simp [hi]), by simpa using h1, by simpa using hi, by simpa using ptAt_advance hs hne⟩

theorem not_term {n e} {s : DSt} (ht : isTerm e = true) (hs : PtAt data s.pt) (hi : s.invert = true) (h0 : s.maxFailExpected = [] → s.maxFailPos.offset = 0) :
    NotPost data s ((dRun G (n + 1) e s).getD (.panic s)) := by
  have hf : NotPost data s (.fail s) := ⟨rfl, rfl, hi, hs⟩
  cases e with
  | any =>
    simp only [dRun, Option.getD_some, dAny, failAt_inverted hi]
    cases hr : s.pt.rest with
    | nil => exact hf
    | cons x r => exact not_read hs hi h0 (by simp [hr]) _ _
  | cls a b c =>
    simp only [dRun, Option.getD_some, dCls, failAt_inverted hi]
    cases hr : s.pt.rest with
    | nil => exact hf
    | cons x r =>
      simp only []
      split <;> split
      · exact hf
      · exact not_read hs hi h0 (by simp [hr]) _ _
      · exact not_read hs hi h0 (by simp [hr]) _ _
      · exact hf
  | lit v => simp only [dRun, Option.getD_some]; exact not_lit hs _ _ hs hi h0 rfl rfl
  | _ => simp [isTerm] at ht

theorem far_not {n e} {s : DSt} (ht : isTerm e = true) (h : Tidy data s) : FarPost data s (dRun G (n + 1) (.not e) s) := by
  simp only [dRun]
  cases n with
  | zero => simp only [dRun]; trivial
  | succ n =>
    have := not_term (G := G) (n := n) (s := s.push.flip) ht h.1 (by simp [DSt.flip, DSt.push, h.2]) h.3
    generalize dRun G (n + 1) e s.push.flip = x at *
    match x with
    | none => trivial
    | some (.ok v s') =>
      obtain ⟨h1, h2, h3, h4⟩ := this
      have hf : Far data s ({ s' with pt := s.pt, frame := s.frame } : DSt).flip :=
        ⟨⟨h.1, by simp [DSt.flip, h3], fun k => absurd k h1.2⟩, h2, fun _ => h1.2, Nat.le_refl _⟩
      simp only [Option.map, dPop]
      rw [restore_eq (data := data) (by exact h4) h.1]
      exact ⟨hf, rfl, h1⟩
    | some (.fail s') =>
      obtain ⟨h1, h2, h3, h4⟩ := this
      have h1 : s'.maxFailPos = s.maxFailPos := h1
      have h2 : s'.maxFailExpected = s.maxFailExpected := h2
      simp only [Option.map, dPop]
      rw [restore_eq (data := data) (by exact h4) h.1]
      exact ⟨⟨h.1, by simp [DSt.flip, h3], by simp only [DSt.flip, h1, h2]; exact h.3⟩, by simp [DSt.flip, h1], by simp [DSt.flip, h2], Nat.le_refl _⟩
    | some (.panic s') => exact this.elim

theorem Far.frameR {s s' : DSt} (h : Far data s s') (fr) : Far data s { s' with frame := fr } := ⟨⟨h.1.1, h.1.2, h.1.3⟩, h.2, h.3, h.4⟩

theorem far_pop {s s0 : DSt} {o} (fr) (h : FarPost data s o) (h1 : s0.pt = s.pt) (h2 : s0.maxFailPos = s.maxFailPos) (h3 : s0.maxFailExpected = s.maxFailExpected) :
    FarPost data s0 (o.map (dPop fr)) := by
  have key : ∀ s', Far data s s' → Far data s0 { s' with frame := fr } := fun s' k =>
    ⟨⟨k.1.1, k.1.2, k.1.3⟩, by rw [h2]; exact k.2, by rw [h3]; exact k.3, by rw [h1]; exact k.4⟩
  match o with
  | none => trivial
  | some (.ok v s') => exact key _ h
  | some (.fail s') => exact ⟨key _ h.1, by rw [h1]; exact h.2.1, by rw [h1]; exact h.2.2⟩
  | some (.panic s') => trivial

/-- After a loop the failure that ended it is recorded. -/
def LoopPost (data : List Sym) (vs : List Dyn) (s : DSt) : Option DOut → Prop
  | some (.ok _ s') => Far data s s' ∧ Seen s'.pt.pos.offset s'
  | some (.fail s') => vs = [] ∧ Far data s s' ∧ s'.pt = s.pt ∧ Seen s.pt.pos.offset s'
  | _ => True

theorem LoopPost.far {vs s o} (h : LoopPost data vs s o) : FarPost data s o := by
  match o with
  | none => trivial
  | some (.ok v s') => exact h.1
  | some (.fail s') => exact h.2
  | some (.panic s') => trivial

theorem Tidy.push {s : DSt} (h : Tidy data s) : Tidy data s.push := ⟨h.1, h.2, h.3⟩

theorem far_all (G : Grammar) (hG : ∀ r, simpleE (G.rules r) = true) (n : Nat) :
    (∀ e s, simpleE e = true → Tidy data s → FarPost data s (dRun G n e s)) ∧
    (∀ es s, simpleEs es = true → Tidy data s → (es ≠ [] ∨ Seen s.pt.pos.offset s) → FarPost data s (dChoice G n es s)) ∧
    (∀ es vs s0 s, simpleEs es = true → PtAt data s0.pt → Far data s0 s → FarPost data s0 (dSeq G n s0.pt es vs s)) ∧
    (∀ e need vs s, simpleE e = true → Tidy data s → LoopPost data vs s (dLoop G n e need vs s)) := by
  induction n with
  | zero => refine ⟨?_, ?_, ?_, ?_⟩ <;> intros <;> simp only [dRun, dChoice, dSeq, dLoop] <;> trivial
  | succ n ih =>
    obtain ⟨ih1, ih2, ih3, ih4⟩ := ih
    have map1 : ∀ e s, simpleE e = true → Tidy data s → FarPost data s ((dRun G n e s.push).map (dPop s.frame)) := by
      intro e s he h
      exact far_pop _ (ih1 e s.push he h.push) rfl rfl rfl
    refine ⟨?_, ?_, ?_, ?_⟩
    · intro e s he h
      cases e with
      | action a e =>
        have := ih1 e s (by simpa only [simpleE] using he) h
        simp only [dRun]
        generalize dRun G n e s = x at *
        match x with
        | none => trivial
        | some (.ok v s') =>
          simp only [dAction]
          cases G.act a s'.frame (s'.sliceFrom s.pt) with
          | ok v => exact this
          | panic => trivial
          | err e => exact ⟨⟨this.1.1, this.1.2, this.1.3⟩, this.2, this.3, this.4⟩
        | some (.fail s') => exact this
        | some (.panic s') => trivial
      | any => simp only [dRun]; exact far_any h
      | cls => simp only [dRun]; exact far_cls _ _ _ h
      | choice es =>
        simp only [dRun]
        simp only [simpleE, Bool.and_eq_true, Bool.not_eq_true', List.isEmpty_eq_false_iff] at he
        exact ih2 es s he.2 h (.inl he.1)
      | labeled l e =>
        simp only [dRun]
        have := map1 e s (by simpa only [simpleE] using he) h
        generalize (dRun G n e s.push).map (dPop s.frame) = x at *
        match x with
        | none => trivial
        | some (.ok v s') => exact Far.frameR (s' := s') this _
        | some (.fail s') => exact this
        | some (.panic s') => trivial
      | lit v => simp only [dRun]; exact far_lit h.1 _ _ (Far.refl h)
      | not e => exact far_not (by simpa only [simpleE] using he) h
      | oneOrMore e => simp only [dRun]; exact (ih4 e _ _ s (by simpa only [simpleE] using he) h).far
      | ruleRef q =>
        simp only [dRun]
        have := ih1 (G.rules q) { s.push with rstack := q :: s.rstack } (hG q) ⟨h.1, h.2, h.3⟩
        generalize dRun G n (G.rules q) { s.push with rstack := q :: s.rstack } = x at *
        match x with
        | none => trivial
        | some (.ok v s') => exact ⟨⟨this.1.1, this.1.2, this.1.3⟩, this.2, this.3, this.4⟩
        | some (.fail s') => exact ⟨⟨⟨this.1.1.1, this.1.1.2, this.1.1.3⟩, this.1.2, this.1.3, this.1.4⟩, this.2⟩
        | some (.panic s') => trivial
      | seq es => simp only [dRun]; exact ih3 es [] s s (by simpa only [simpleE] using he) h.1 (Far.refl h)
      | zeroOrMore e => simp only [dRun]; exact (ih4 e _ _ s (by simpa only [simpleE] using he) h).far
      | zeroOrOne e =>
        simp only [dRun]
        have := map1 e s (by simpa only [simpleE] using he) h
        generalize (dRun G n e s.push).map (dPop s.frame) = x at *
        match x with
        | none => trivial
        | some (.ok v s') => exact this
        | some (.fail s') => exact this.1
        | some (.panic s') => trivial
    · intro es s he h hne
      cases es with
      | nil => simp only [dChoice]; exact ⟨Far.refl h, rfl, hne.resolve_left (by simp)⟩
      | cons e es =>
        rw [dChoice]
        simp only [simpleEs, Bool.and_eq_true] at he
        have := map1 e s he.1 h
        generalize (dRun G n e s.push).map (dPop s.frame) = x at *
        match x with
        | none => trivial
        | some (.ok v s') => exact this
        | some (.fail s') =>
          obtain ⟨t1, t2, t3⟩ := this
          have := ih2 es s' he.2 t1.1 (.inr (t2 ▸ t3))
          show FarPost data s (dChoice G n es s')
          generalize dChoice G n es s' = y at *
          match y with
          | none => trivial
          | some (.ok v s'') => exact t1.trans this
          | some (.fail s'') => exact ⟨t1.trans this.1, this.2.1.trans t2, t3.far this.1⟩
          | some (.panic s'') => trivial
        | some (.panic s') => trivial
    · intro es vs s0 s he hp h
      cases es with
      | nil => simp only [dSeq]; exact h
      | cons e es =>
        rw [dSeq]
        simp only [simpleEs, Bool.and_eq_true] at he
        have := ih1 e s he.1 h.1
        generalize dRun G n e s = x at *
        match x with
        | none => trivial
        | some (.ok v s') => exact ih3 es _ s0 s' he.2 hp (h.trans this)
        | some (.fail s') =>
          obtain ⟨t1, t2, t3⟩ := this
          have := far_restore hp (h.trans t1)
          exact ⟨this.1, this.2, seen_restore (t3.le h.4)⟩
        | some (.panic s') => trivial
    · intro e need vs s he h
      rw [dLoop]
      have := map1 e s he h
      generalize (dRun G n e s.push).map (dPop s.frame) = x at *
      match x with
      | none => trivial
      | some (.ok v s') =>
        have k := ih4 e need (vs ++ [v]) s' he this.1
        show LoopPost data vs s (dLoop G n e need (vs ++ [v]) s')
        generalize dLoop G n e need (vs ++ [v]) s' = y at *
        match y with
        | none => trivial
        | some (.ok v s'') => exact ⟨Far.trans this k.1, k.2⟩
        | some (.fail s'') => exact absurd k.1 (by simp)
        | some (.panic s'') => trivial
      | some (.fail s') =>
        show LoopPost data vs s (if (need && vs.isEmpty) = true then some (.fail s') else some (.ok (.list vs) s'))
        split
        · rename_i hc
          simp only [Bool.and_eq_true, List.isEmpty_iff] at hc
          exact ⟨hc.2, this⟩
        · exact ⟨this.1, this.2.1 ▸ this.2.2⟩
      | some (.panic s') => trivial

theorem tidy_init (data : List Sym) : Tidy data (dInit data) := ⟨dInit_at data, by simp [dInit], by simp [dInit]⟩

/-! ## A newline at the start -/

theorem skip_nl {n s o r} (hr : s.pt.rest = .ok '\n' :: r) (h : dRun G n gSkip s = some o) : ∃ v s', o = .ok v s' ∧ s'.pt.rest = r := by
  have h := dRun_mono_le G (Nat.le_add_right n 6) h
  have e1 : s.push.pt.rest = .ok '\n' :: r := hr
  have hx : ¬ (Sym.rune (.ok '\n') = '/') := by decide
  have hc : inClass [' ', '\t', '\r', '\n'] [] (Sym.rune (.ok '\n')) = true := by decide
  simp only [gSkip, dRun, dChoice, dSeq, dLit, e1, if_neg hx, Option.map, dPop] at h
  have e2 : (((s.push.failAt false s.push.pt.pos (litWant ['/', '/'])).restore s.push.pt).restore s.push.pt).pt.rest = .ok '\n' :: r := by
    unfold DSt.restore
    split
    · simpa using e1
    · split <;> simpa using e1
  generalize ((s.push.failAt false s.push.pt.pos (litWant ['/', '/'])).restore s.push.pt).restore s.push.pt = t at *
  have e3 : ({ t with frame := s.frame } : DSt).push.pt.rest = .ok '\n' :: r := e2
  simp only [dCls, e3, hc, if_true] at h
  injection h with h
  refine ⟨_, _, h.symm, ?_⟩
  simp [advance_rest, DSt.push, e2]

theorem dLoop_some {n e need vs s o} (h : dLoop G n e need vs s = some o) : ∃ m x, n = m + 1 ∧ dRun G m e s.push = some x ∧
    (∀ v s', x = .ok v s' → dLoop G m e need (vs ++ [v]) { s' with frame := s.frame } = some o) ∧
    (∀ s', x = .fail s' → o = .fail { s' with frame := s.frame } ∨ o = .ok (.list vs) { s' with frame := s.frame }) ∧
    (∀ s', x = .panic s' → o = .panic s') := by
  cases n with
  | zero => simp [dLoop] at h
  | succ n =>
    rw [dLoop] at h
    match hx : dRun G n e s.push with
    | none => rw [hx] at h; simp at h
    | some (.ok v s1) => rw [hx] at h; exact ⟨n, _, rfl, hx, by (rintro v s' k; cases k; exact h), by (rintro s' k; cases k), by (rintro s' k; cases k)⟩
    | some (.fail s1) =>
      rw [hx] at h
      simp only [Option.map, dPop] at h
      refine ⟨n, _, rfl, hx, ?_, ?_, by (intro s' k; cases k)⟩
      · intro v s' k; cases k
      · rintro s' k
        cases k
        split at h
        · cases h; exact .inl rfl
        · cases h; exact .inr rfl
    | some (.panic s1) => rw [hx] at h; cases h; exact ⟨n, _, rfl, hx, by (intro v s' k; cases k), by (intro s' k; cases k), by (intro s' k; cases k; rfl)⟩

theorem dRun_some {n e s o} (h : dRun G n e s = some o) : ∃ m, n = m + 1 := by
  cases n with
  | zero => simp [dRun] at h
  | succ n => exact ⟨n, rfl⟩

theorem dSeq_some {n st e es vs s o} (h : dSeq G n st (e :: es) vs s = some o) : ∃ m x, n = m + 1 ∧ dRun G m e s = some x ∧
    (∀ v s', x = .ok v s' → dSeq G m st es (vs ++ [v]) s' = some o) ∧ (∀ s', x = .fail s' → o = .fail (s'.restore st)) ∧ (∀ s', x = .panic s' → o = .panic s') := by
  cases n with
  | zero => simp [dSeq] at h
  | succ n =>
    rw [dSeq] at h
    match hx : dRun G n e s with
    | none => rw [hx] at h; simp at h
    | some (.ok v s1) => rw [hx] at h; exact ⟨n, _, rfl, hx, by (rintro v s' k; cases k; exact h), by (rintro s' k; cases k), by (rintro s' k; cases k)⟩
    | some (.fail s1) => rw [hx] at h; cases h; exact ⟨n, _, rfl, hx, by (rintro v s' k; cases k), by (rintro s' k; cases k; rfl), by (rintro s' k; cases k)⟩
    | some (.panic s1) => rw [hx] at h; cases h; exact ⟨n, _, rfl, hx, by (rintro v s' k; cases k), by (rintro s' k; cases k), by (rintro s' k; cases k; rfl)⟩

/-- After white space that starts with a newline the farthest failure is beyond it. -/
theorem blank_nl (hG : ∀ r, simpleE (G.rules r) = true) {n s o r} (h : Tidy data s) (hr : s.pt.rest = .ok '\n' :: r) (hrun : dRun G n g_ s = some o) :
    (∃ v s', o = .ok v s' ∧ Far data s s' ∧ 1 ≤ s'.maxFailPos.offset) ∨ ∃ s', o = .panic s' := by
  have hfar := (far_all (data := data) G hG n).1 g_ s (by decide) h
  rw [hrun] at hfar
  obtain ⟨n, rfl⟩ := dRun_some hrun
  rw [g_] at hrun
  simp only [dRun] at hrun
  obtain ⟨m, x, rfl, hx, hok, -, -⟩ := dLoop_some hrun
  obtain ⟨v, s1, rfl, hs1⟩ := skip_nl (s := s.push) hr hx
  have hf1 := (far_all (data := data) G hG m).1 gSkip s.push (by decide) h.push
  rw [hx] at hf1
  have hlt : ¬ s1.pt.pos.offset ≤ s.pt.pos.offset := by
    rw [ptAt_le hf1.1.1 h.1, hs1, hr]
    simp
  have hl := (far_all (data := data) G hG m).2.2.2 gSkip false ([] ++ [v]) { s1 with frame := s.frame } (by decide) ⟨hf1.1.1, hf1.1.2, hf1.1.3⟩
  rw [hok v s1 rfl] at hl
  match o with
  | .ok v' s' =>
    refine .inl ⟨v', s', rfl, hfar, ?_⟩
    have a := hl.1.pt
    have b := hl.2.1
    simp only at a
    omega
  | .fail s' => exact absurd hl.1 (by simp)
  | .panic s' => exact .inr ⟨s', rfl⟩

/-- The farthest failure only moves forward. -/
theorem beyond_inv (G : Grammar) (hG : ∀ r, plainE (G.rules r) = true) (data : List Sym) (k : Nat) : DInv G data (fun s => PtAt data s.pt ∧ k ≤ s.maxFailPos.offset) where
  plain := hG
  at_ := fun s h => h.1
  failAt := by
    intro s pt b w ⟨h0, h1⟩ _ _
    refine ⟨by simpa using h0, ?_⟩
    unfold DSt.failAt
    split
    · simp only
      split
      · exact h1
      · by_cases hgt : pt.pos.offset > s.maxFailPos.offset
        · simp only [hgt, if_true]; omega
        · simp only [hgt, if_false]; exact h1
    · exact h1
  read := fun s h hne => ⟨by simpa using ptAt_advance h.1 hne, by simpa using h.2⟩
  pt := fun s pt h hp => ⟨hp, h.2⟩
  frame := fun s fr h => h
  flip := fun s h => h
  rstack := fun s rs h => h
  action := fun n r rs a e s v s' _ _ _ _ _ h' x _ => h'

/-- Unless the outcome is a panic, the farthest failure is not at the start. -/
def Post1 : DOut → Prop
  | .ok _ s' => 1 ≤ s'.maxFailPos.offset
  | .fail s' => 1 ≤ s'.maxFailPos.offset
  | .panic _ => True

theorem post1_of {s o} (h : DPost (fun s => PtAt data s.pt ∧ 1 ≤ s.maxFailPos.offset) s (some o)) : Post1 o := by
  match o with
  | .ok _ s' => exact h.1.2
  | .fail s' => exact h.1.2
  | .panic _ => trivial

theorem post1_loop {n e need vs s o} (h : dLoop G n e need vs s = some o)
    (H : ∀ m v s', n = m + 1 → dRun G m e s.push = some (.ok v s') → ∀ o, dLoop G m e need (vs ++ [v]) { s' with frame := s.frame } = some o → Post1 o)
    (H' : ∀ m x, n = m + 1 → dRun G m e s.push = some x → Post1 x) : Post1 o := by
  obtain ⟨m, x, rfl, hx, hok, hfail, hpanic⟩ := dLoop_some h
  match x with
  | .ok v s' => exact H m v s' rfl hx o (hok v s' rfl)
  | .fail s' =>
    have := H' m _ rfl hx
    rcases hfail s' rfl with rfl | rfl <;> exact this
  | .panic s' => rw [hpanic s' rfl]; trivial

theorem post1_seq {n st e es vs s o} (h : dSeq G n st (e :: es) vs s = some o)
    (H : ∀ m v s', n = m + 1 → dRun G m e s = some (.ok v s') → ∀ o, dSeq G m st es (vs ++ [v]) s' = some o → Post1 o)
    (H' : ∀ m x, n = m + 1 → dRun G m e s = some x → Post1 x) : Post1 o := by
  obtain ⟨m, x, rfl, hx, hok, hfail, hpanic⟩ := dSeq_some h
  match x with
  | .ok v s' => exact H m v s' rfl hx o (hok v s' rfl)
  | .fail s' =>
    have := H' m _ rfl hx
    rw [hfail s' rfl]
    simpa [Post1] using this
  | .panic s' => rw [hpanic s' rfl]; trivial

/-- If the input starts with a newline and the parse fails, the farthest failure is beyond it. -/
theorem file_nl {lib : GoLib} {n s s' r} (h : Tidy data s) (hr : s.pt.rest = .ok '\n' :: r)
    (hrun : dRun (ruleGrammar lib) n (.ruleRef .File) s = some (.fail s')) : 1 ≤ s'.maxFailPos.offset := by
  have far := far_all (data := data) (ruleGrammar lib) simple_rules
  have bey := fun n => (beyond_inv (ruleGrammar lib) plain_rules data 1).all n
  obtain ⟨n, rfl⟩ := dRun_some hrun
  simp only [dRun] at hrun
  obtain ⟨x, hx, e⟩ := Option.map_eq_some_iff.1 hrun
  obtain ⟨s1, rfl, rfl⟩ : ∃ s1, x = .fail s1 ∧ s' = { s1 with frame := s.frame, rstack := s.rstack } := by
    cases x with
    | ok v s1 => cases e
    | panic s1 => cases e
    | fail s1 => cases e; exact ⟨s1, rfl, rfl⟩
  show Post1 (.fail s1)
  clear hrun e
  have h : Tidy data { s.push with rstack := .File :: s.rstack } := ⟨h.1, h.2, h.3⟩
  have hr : ({ s.push with rstack := .File :: s.rstack } : DSt).pt.rest = .ok '\n' :: r := hr
  have hrs : ({ s.push with rstack := .File :: s.rstack } : DSt).rstack = .File :: s.rstack := rfl
  generalize ({ s.push with rstack := .File :: s.rstack } : DSt) = t at *
  obtain ⟨n, rfl⟩ := dRun_some hx
  have hx : dRun (ruleGrammar lib) (n + 1) gFile t = some (.fail s1) := hx
  rw [gFile] at hx
  simp only [dRun] at hx
  have hx : dRun (ruleGrammar lib) n (.seq [.labeled .rs (.zeroOrMore (.seq [g_, .ruleRef .Rule, g_])), .not .any]) t = some (.fail s1) := by
    generalize dRun (ruleGrammar lib) n (.seq [.labeled .rs (.zeroOrMore (.seq [g_, .ruleRef .Rule, g_])), .not .any]) t = y at hx
    match y with
    | none => cases hx
    | some (.ok v s2) => simp only [dAction] at hx; split at hx <;> cases hx
    | some (.fail s2) => exact hx
    | some (.panic s2) => cases hx
  obtain ⟨n, rfl⟩ := dRun_some hx
  simp only [dRun] at hx
  have stack : ∀ n e t v s2, plainE e = true → t.rstack = .File :: s.rstack → actsOf e ⊆ actsOf ((ruleGrammar lib).rules .File) → Tidy data t → dRun (ruleGrammar lib) n e t = some (.ok v s2) →
      s2.rstack = .File :: s.rstack ∧ PtAt data s2.pt := by
    intro n e t v s2 hpl h0 ha ht he
    have := ((beyond_inv (ruleGrammar lib) plain_rules data 0).all n).1 .File s.rstack e t hpl ha h0 ⟨ht.1, Nat.zero_le _⟩
    rw [he] at this
    exact ⟨this.2.trans h0, this.1.1⟩
  have L : ∀ m x, dRun (ruleGrammar lib) m (.labeled .rs (.zeroOrMore (.seq [g_, .ruleRef .Rule, g_]))) t = some x → Post1 x := by
    intro m x hx
    obtain ⟨m, rfl⟩ := dRun_some hx
    simp only [dRun] at hx
    have Z : ∀ m x, dRun (ruleGrammar lib) m (.zeroOrMore (.seq [g_, .ruleRef .Rule, g_])) t.push = some x → Post1 x := by
      intro m x hx
      obtain ⟨m, rfl⟩ := dRun_some hx
      simp only [dRun] at hx
      have I : ∀ m x, dRun (ruleGrammar lib) m (.seq [g_, .ruleRef .Rule, g_]) t.push.push = some x → Post1 x := by
        intro m x hx
        obtain ⟨m, rfl⟩ := dRun_some hx
        simp only [dRun] at hx
        have U : ∀ m x, dRun (ruleGrammar lib) m g_ t.push.push = some x → Post1 x := by
          intro m x hx
          rcases blank_nl simple_rules (data := data) (s := t.push.push) h.push.push hr hx with ⟨v2, s2, rfl, hf2, ho2⟩ | ⟨s2, rfl⟩
          · exact ho2
          · trivial
        refine post1_seq hx ?_ (fun m x _ => U m x)
        intro k v s2 hm hk o ho
        have := U k _ hk
        have hs := stack k g_ t.push.push v s2 (by decide) hrs (by simp [actsOf, actsOfs, g_, gSkip]) h.push.push hk
        have := (bey k).2.2.1 .File s.rstack t.push.push.pt [.ruleRef .Rule, g_] ([] ++ [v]) s2 (by decide) (by simp [actsOf, actsOfs, g_, gSkip]) hs.1 h.1 ⟨hs.2, this⟩
        rw [ho] at this
        exact post1_of this
      refine post1_loop hx ?_ (fun m x _ => I m x)
      intro k v s2 hm hk o ho
      have := I k _ hk
      have hs := stack k _ t.push.push v s2 (by decide) hrs (by simp [actsOf, actsOfs, g_, gSkip]) h.push.push hk
      have := (bey k).2.2.2 .File s.rstack (.seq [g_, .ruleRef .Rule, g_]) false ([] ++ [v]) { s2 with frame := t.push.frame } (by decide) (by simp [actsOf, actsOfs, g_, gSkip]) hs.1 ⟨hs.2, this⟩
      rw [ho] at this
      exact post1_of this
    match hz : dRun (ruleGrammar lib) m (.zeroOrMore (.seq [g_, .ruleRef .Rule, g_])) t.push with
    | none => rw [hz] at hx; simp at hx
    | some (.ok v s2) => have := Z _ _ hz; rw [hz] at hx; cases hx; exact this
    | some (.fail s2) => have := Z _ _ hz; rw [hz] at hx; cases hx; exact this
    | some (.panic s2) => rw [hz] at hx; cases hx; trivial
  refine post1_seq hx ?_ (fun m x _ => L m x)
  intro k v s2 hm hk o ho
  have := L k _ hk
  have hs := stack k _ t v s2 (by decide) hrs (by simp [actsOf, actsOfs, g_, gSkip]) h hk
  have := (bey k).2.2.1 .File s.rstack t.pt [.not .any] ([] ++ [v]) s2 (by decide) (by simp [actsOf, actsOfs, g_, gSkip]) hs.1 h.1 ⟨hs.2, this⟩
  rw [ho] at this
  exact post1_of this

/-- The position of the final error is a place of the input, at which nothing that is expected is there. -/
theorem file_fail {lib : GoLib} {n data s'} (h : dRun (ruleGrammar lib) n (.ruleRef .File) (dInit data) = some (.fail s')) :
    s'.maxFailExpected ≠ [] ∧ s'.invert = false ∧ s'.rstack = [] ∧
    ∃ k, k ≤ data.length ∧ s'.maxFailPos = place data k ∧ ∀ w ∈ s'.maxFailExpected, RawMissing (data.drop k) w := by
  have h1 := (far_all (data := data) (ruleGrammar lib) simple_rules n).1 (.ruleRef .File) _ rfl (tidy_init data)
  have h2 := (maxAt_inv (ruleGrammar lib) plain_rules data).rule n .File (maxAt_init data)
  rw [h] at h1 h2
  refine ⟨h1.2.2.2, h1.1.1.2, h2.2.trans (by simp [dInit]), ?_⟩
  obtain ⟨⟨-, pt, hp, ho, hq, hw⟩, -⟩ := h2
  obtain ⟨k, hk, hpk, hd⟩ := ptAt_index hp
  refine ⟨k, hk, ?_, by rw [hd]; exact hw⟩
  rcases hq with hq | hq
  · rw [hq, hpk]
  · have hzero : pt.pos.offset = 0 := by rw [← ho, hq]
    have hk0 : k = 0 := by
      have := ptAt_unique hp ⟨[], rfl, rfl⟩ (q := ⟨place data 0, data⟩) (by rw [hzero]; simp [place])
      rw [this] at hd
      have := congrArg List.length hd
      simp at this
      cases k with
      | zero => rfl
      | succ k => omega
    subst hk0
    rw [hq]
    cases hdata : data with
    | nil => simp [place, throughNewline]
    | cons x r =>
      by_cases hx : x = .ok '\n'
      · subst hx
        have := file_nl (tidy_init data) (by rw [dInit_rest]; exact hdata) h
        rw [ho, hzero] at this
        omega
      · have := place_at [] (x :: r)
        rw [List.nil_append, List.length_nil] at this
        rw [this]
        simp [rune_nl, hx, throughNewline]

end Verif.Proof

import Verif.Proof.PegErrPos
import Verif.Proof.PegTerm
/-! # The detailed machine refines the machine -/
namespace Verif.Proof
open Verif Verif.Spec

/-! ## What the helpers leave alone -/

@[simp] theorem addErrAt_pt (s : DSt) (p q) : (s.addErrAt p q).pt = s.pt := rfl
@[simp] theorem addErrAt_frame (s : DSt) (p q) : (s.addErrAt p q).frame = s.frame := rfl
@[simp] theorem addErrAt_errs (s : DSt) (p q) : (s.addErrAt p q).errs = s.errs ++ [⟨p, q, s.rstack.head?⟩] := rfl
@[simp] theorem addErrAt_rstack (s : DSt) (p q) : (s.addErrAt p q).rstack = s.rstack := rfl
@[simp] theorem addErrAt_invert (s : DSt) (p q) : (s.addErrAt p q).invert = s.invert := rfl
@[simp] theorem addErrAt_max (s : DSt) (p q) : (s.addErrAt p q).maxFailPos = s.maxFailPos := rfl
@[simp] theorem addErrAt_exp (s : DSt) (p q) : (s.addErrAt p q).maxFailExpected = s.maxFailExpected := rfl

theorem failAt_eq (s : DSt) (b p w) : ∃ m x, s.failAt b p w = { s with maxFailPos := m, maxFailExpected := x } := by
  unfold DSt.failAt
  split
  · split
    · exact ⟨s.maxFailPos, s.maxFailExpected, rfl⟩
    · by_cases h : p.offset > s.maxFailPos.offset
      · simp only [if_pos h]; exact ⟨_, _, rfl⟩
      · simp only [if_neg h]; exact ⟨_, _, rfl⟩
  · exact ⟨s.maxFailPos, s.maxFailExpected, rfl⟩

@[simp] theorem failAt_pt (s : DSt) (b p w) : (s.failAt b p w).pt = s.pt := by obtain ⟨m, x, h⟩ := failAt_eq s b p w; rw [h]
@[simp] theorem failAt_frame (s : DSt) (b p w) : (s.failAt b p w).frame = s.frame := by obtain ⟨m, x, h⟩ := failAt_eq s b p w; rw [h]
@[simp] theorem failAt_errs (s : DSt) (b p w) : (s.failAt b p w).errs = s.errs := by obtain ⟨m, x, h⟩ := failAt_eq s b p w; rw [h]
@[simp] theorem failAt_rstack (s : DSt) (b p w) : (s.failAt b p w).rstack = s.rstack := by obtain ⟨m, x, h⟩ := failAt_eq s b p w; rw [h]
@[simp] theorem failAt_invert (s : DSt) (b p w) : (s.failAt b p w).invert = s.invert := by obtain ⟨m, x, h⟩ := failAt_eq s b p w; rw [h]

theorem dnoteBad_eq (s : DSt) : ∃ l, s.noteBad = { s with errs := s.errs ++ l } := by
  unfold DSt.noteBad
  split
  · exact ⟨_, rfl⟩
  · exact ⟨[], by simp⟩

@[simp] theorem dnoteBad_pt (s : DSt) : s.noteBad.pt = s.pt := by obtain ⟨l, h⟩ := dnoteBad_eq s; rw [h]
@[simp] theorem dnoteBad_frame (s : DSt) : s.noteBad.frame = s.frame := by obtain ⟨l, h⟩ := dnoteBad_eq s; rw [h]
@[simp] theorem dnoteBad_rstack (s : DSt) : s.noteBad.rstack = s.rstack := by obtain ⟨l, h⟩ := dnoteBad_eq s; rw [h]
@[simp] theorem dnoteBad_invert (s : DSt) : s.noteBad.invert = s.invert := by obtain ⟨l, h⟩ := dnoteBad_eq s; rw [h]
@[simp] theorem dnoteBad_max (s : DSt) : s.noteBad.maxFailPos = s.maxFailPos := by obtain ⟨l, h⟩ := dnoteBad_eq s; rw [h]
@[simp] theorem dnoteBad_exp (s : DSt) : s.noteBad.maxFailExpected = s.maxFailExpected := by obtain ⟨l, h⟩ := dnoteBad_eq s; rw [h]
@[simp] theorem dread_pt (s : DSt) : s.read.pt = s.pt.advance := by simp [DSt.read]
@[simp] theorem dread_frame (s : DSt) : s.read.frame = s.frame := by simp [DSt.read]
@[simp] theorem dread_rstack (s : DSt) : s.read.rstack = s.rstack := by simp [DSt.read]
@[simp] theorem dread_invert (s : DSt) : s.read.invert = s.invert := by simp [DSt.read]
@[simp] theorem dread_max (s : DSt) : s.read.maxFailPos = s.maxFailPos := by simp [DSt.read]
@[simp] theorem dread_exp (s : DSt) : s.read.maxFailExpected = s.maxFailExpected := by simp [DSt.read]

theorem advance_rest (p : Pt) : p.advance.rest = p.rest.tail := by
  unfold Pt.advance
  cases h : p.rest.tail with
  | nil => simp [h]
  | cons x l => simp only [h]; split <;> rfl

theorem restore_eq {data} {s : DSt} {start : Pt} (hs : PtAt data s.pt) (hp : PtAt data start) : s.restore start = { s with pt := start } := by
  unfold DSt.restore
  split
  · rename_i h
    rw [ptAt_unique hp hs h]
  · rfl

/-! ## Refinement -/

/-- The detailed state `s`, at a place of the data, is as the state `t`. -/
structure Rel (data : List Sym) (s : DSt) (t : St) : Prop where
  at_ : PtAt data s.pt
  pos : t.pos = s.pt.rest
  frame : t.frame = s.frame
  errs : t.errs.length = s.errs.length

inductive RelOut (data : List Sym) : Option DOut → Option POut → Prop
  | none : RelOut data none none
  | ok {v s t} : Rel data s t → RelOut data (some (.ok v s)) (some (.ok v t))
  | fail {s t} : Rel data s t → RelOut data (some (.fail s)) (some (.fail t))
  | panic {s t} : Rel data s t → RelOut data (some (.panic s)) (some (.panic t))

variable {data : List Sym}

theorem rel_failAt {s t b p w} (h : Rel data s t) : Rel data (s.failAt b p w) t :=
  ⟨by simpa using h.1, by simpa using h.2, by simpa using h.3, by simpa using h.4⟩

theorem rel_noteBad {s t} (h : Rel data s t) : Rel data s.noteBad (noteBad t) := by
  obtain ⟨h1, h2, h3, h4⟩ := h
  refine ⟨by simpa using h1, ?_, ?_, ?_⟩
  · rw [noteBad_pos]; simpa using h2
  · unfold noteBad; split <;> simpa using h3
  · unfold noteBad DSt.noteBad
    rw [h2]
    generalize s.pt.rest = r
    match r with
    | [] => simpa using h4
    | .ok _ :: _ => simpa using h4
    | .bad _ :: _ => simp [h4]

theorem rel_read {s t} (h : Rel data s t) (hne : s.pt.rest ≠ []) : Rel data s.read (read t) :=
  rel_noteBad ⟨ptAt_advance h.1 hne, by simp [advance_rest, h.2], h.3, h.4⟩

theorem rel_restore {s t start} (h : Rel data s t) (hp : PtAt data start) : Rel data (s.restore start) { t with pos := start.rest } := by
  rw [restore_eq h.1 hp]
  exact ⟨hp, rfl, h.3, h.4⟩

theorem rel_frame {s t} (fr : Frame) (h : Rel data s t) : Rel data { s with frame := fr } { t with frame := fr } := ⟨h.1, h.2, rfl, h.4⟩

theorem rel_lit {start : Pt} (hp : PtAt data start) (want : Str) (val : List Char) : ∀ {s t}, Rel data s t →
    RelOut data (some (dLit start want val s)) (some (litLoop start.rest val t)) := by
  induction val with
  | nil =>
    intro s t h
    have e : (s.failAt true start.pos want).sliceFrom start = sliceFrom start.rest t.pos := by simp [DSt.sliceFrom, h.2]
    simp only [dLit, litLoop, e]
    exact .ok (rel_failAt h)
  | cons w val ih =>
    intro s t h
    simp only [dLit, litLoop, h.2]
    cases hr : s.pt.rest with
    | nil => exact .fail (rel_restore (rel_failAt h) hp)
    | cons x r =>
      simp only []
      split
      · exact ih (rel_read h (by simp [hr]))
      · exact .fail (rel_restore (rel_failAt h) hp)

theorem rel_slice {s t b p w} (h : Rel data s t) (hne : s.pt.rest ≠ []) :
    (s.read.failAt b p w).sliceFrom s.pt = sliceFrom t.pos (read t).pos := by
  simp [DSt.sliceFrom, h.2, (rel_read h hne).2]

theorem rel_cls (a b c) {s t} (h : Rel data s t) : RelOut data (some (dCls a b c s)) (some (parseCls a b c t)) := by
  unfold dCls parseCls
  simp only [h.2]
  cases hr : s.pt.rest with
  | nil => exact .fail (rel_failAt h)
  | cons x r =>
    have hne : s.pt.rest ≠ [] := by simp [hr]
    simp only []
    have e := fun w => rel_slice (b := true) (p := s.pt.pos) (w := w) h hne
    rw [h.2, hr] at e
    split <;> split
    · exact .fail (rel_failAt h)
    · rw [e]; exact .ok (rel_failAt (rel_read h hne))
    · rw [e]; exact .ok (rel_failAt (rel_read h hne))
    · exact .fail (rel_failAt h)

theorem rel_any {s t} (h : Rel data s t) : RelOut data (some (dAny s)) (some (parseAny t)) := by
  unfold dAny parseAny
  simp only [h.2]
  cases hr : s.pt.rest with
  | nil => exact .fail (rel_failAt h)
  | cons x r =>
    have hne : s.pt.rest ≠ [] := by simp [hr]
    simp only []
    have e := fun w => rel_slice (b := true) (p := s.pt.pos) (w := w) h hne
    rw [h.2, hr] at e
    rw [e]; exact .ok (rel_failAt (rel_read h hne))

theorem rel_action (G a) {start : Pt} {s t} (h : Rel data s t) : RelOut data (some (dAction G a start s)) (some (runAction G a start.rest t)) := by
  unfold dAction runAction
  simp only [DSt.sliceFrom, h.2, h.3]
  generalize sliceFrom start.rest s.pt.rest = tx
  cases G.act a s.frame tx with
  | ok v => exact .ok ⟨h.1, rfl, rfl, h.4⟩
  | panic => exact .panic ⟨h.1, rfl, rfl, h.4⟩
  | err e => exact .ok ⟨h.1, rfl, rfl, by simp [h.4]⟩

theorem rel_map {o x} (fr : Frame) (h : RelOut data o x) : RelOut data (o.map (dPop fr)) (x.map (popTo fr)) := by
  cases h with
  | none => exact .none
  | ok h => exact .ok (rel_frame fr h)
  | fail h => exact .fail (rel_frame fr h)
  | panic h => exact .panic h

theorem rel_leave {o x} (fr : Frame) (rs) (h : RelOut data o x) : RelOut data (o.map (dLeave fr rs)) (x.map (popTo fr)) := by
  cases h with
  | none => exact .none
  | ok h => exact .ok ⟨h.1, h.2, rfl, h.4⟩
  | fail h => exact .fail ⟨h.1, h.2, rfl, h.4⟩
  | panic h => exact .panic h

theorem rel_all (G : Grammar) (n : Nat) :
    (∀ e s t, Rel data s t → RelOut data (dRun G n e s) (run G n e t)) ∧
    (∀ es s t, Rel data s t → RelOut data (dChoice G n es s) (runChoice G n es t)) ∧
    (∀ start es vs s t, PtAt data start → Rel data s t → RelOut data (dSeq G n start es vs s) (runSeq G n start.rest es vs t)) ∧
    (∀ e need vs s t, Rel data s t → RelOut data (dLoop G n e need vs s) (runLoop G n e need vs t)) := by
  induction n with
  | zero =>
    refine ⟨?_, ?_, ?_, ?_⟩ <;> intros <;> simp only [dRun, run, dChoice, runChoice, dSeq, runSeq, dLoop, runLoop] <;> exact .none
  | succ n ih =>
    obtain ⟨ih1, ih2, ih3, ih4⟩ := ih
    have map1 : ∀ e s t, Rel data s t → RelOut data ((dRun G n e s.push).map (dPop s.frame)) ((run G n e (push t)).map (popTo t.frame)) := by
      intro e s t h
      rw [h.3]
      exact rel_map _ (ih1 _ _ _ (rel_frame _ h))
    refine ⟨?_, ?_, ?_, ?_⟩
    · intro e s t h
      cases e with
      | action a e =>
        simp only [dRun, run]
        have := ih1 e _ _ h
        generalize dRun G n e s = x at *
        generalize run G n e t = y at *
        cases this with
        | none => exact .none
        | ok k => simp only [h.2]; exact rel_action G a k
        | fail k => exact .fail k
        | panic k => exact .panic k
      | any => simp only [dRun, run]; exact rel_any h
      | cls => simp only [dRun, run]; exact rel_cls _ _ _ h
      | choice es => simp only [dRun, run]; exact ih2 _ _ _ h
      | labeled l e =>
        simp only [dRun, run]
        have := map1 e _ _ h
        generalize (dRun G n e s.push).map (dPop s.frame) = x at *
        generalize (run G n e (push t)).map (popTo t.frame) = y at *
        cases this with
        | none => exact .none
        | ok k => simp only [k.3]; exact .ok (rel_frame _ k)
        | fail k => exact .fail k
        | panic k => exact .panic k
      | lit v => simp only [dRun, run, h.2]; exact rel_lit h.1 _ _ h
      | not e =>
        simp only [dRun, run]
        have : RelOut data ((dRun G n e s.push.flip).map (dPop s.frame)) ((run G n e (push t)).map (popTo t.frame)) := by
          rw [h.3]
          exact rel_map _ (ih1 _ _ _ ⟨h.1, h.2, rfl, h.4⟩)
        generalize (dRun G n e s.push.flip).map (dPop s.frame) = x at *
        generalize (run G n e (push t)).map (popTo t.frame) = y at *
        cases this with
        | none => exact .none
        | ok k => simp only [h.2]; exact .fail (rel_restore (s := DSt.flip _) ⟨k.1, k.2, k.3, k.4⟩ h.1)
        | fail k => simp only [h.2]; exact .ok (rel_restore (s := DSt.flip _) ⟨k.1, k.2, k.3, k.4⟩ h.1)
        | panic k => exact .panic k
      | oneOrMore e => simp only [dRun, run]; exact ih4 _ _ _ _ _ h
      | ruleRef r =>
        simp only [dRun, run]
        rw [h.3]
        exact rel_leave _ _ (ih1 _ _ _ ⟨h.1, h.2, rfl, h.4⟩)
      | seq es => simp only [dRun, run, h.2]; exact ih3 _ _ _ _ _ h.1 h
      | zeroOrMore e => simp only [dRun, run]; exact ih4 _ _ _ _ _ h
      | zeroOrOne e =>
        simp only [dRun, run]
        have := map1 e _ _ h
        generalize (dRun G n e s.push).map (dPop s.frame) = x at *
        generalize (run G n e (push t)).map (popTo t.frame) = y at *
        cases this with
        | none => exact .none
        | ok k => exact .ok k
        | fail k => exact .ok k
        | panic k => exact .panic k
    · intro es s t h
      cases es with
      | nil => simp only [dChoice, runChoice]; exact .fail h
      | cons e es =>
        rw [dChoice, runChoice]
        have := map1 e _ _ h
        generalize (dRun G n e s.push).map (dPop s.frame) = x at *
        generalize (run G n e (push t)).map (popTo t.frame) = y at *
        cases this with
        | none => exact .none
        | ok k => exact .ok k
        | fail k => exact ih2 _ _ _ k
        | panic k => exact .panic k
    · intro start es vs s t hp h
      cases es with
      | nil => simp only [dSeq, runSeq]; exact .ok h
      | cons e es =>
        rw [dSeq, runSeq]
        have := ih1 e _ _ h
        generalize dRun G n e s = x at *
        generalize run G n e t = y at *
        cases this with
        | none => exact .none
        | ok k => exact ih3 _ _ _ _ _ hp k
        | fail k => exact .fail (rel_restore k hp)
        | panic k => exact .panic k
    · intro e need vs s t h
      rw [dLoop, runLoop]
      have := map1 e _ _ h
      generalize (dRun G n e s.push).map (dPop s.frame) = x at *
      generalize (run G n e (push t)).map (popTo t.frame) = y at *
      cases this with
      | none => exact .none
      | ok k => exact ih4 _ _ _ _ _ k
      | @fail s' t' k =>
        show RelOut data (if (need && vs.isEmpty) = true then some (.fail s') else some (.ok (.list vs) s'))
          (if (need && vs.isEmpty) = true then some (.fail t') else some (.ok (.list vs) t'))
        split
        · exact .fail k
        · exact .ok k
      | panic k => exact .panic k

theorem dInit_at (data : List Sym) : PtAt data (dInit data).pt := by
  refine ⟨[], ?_, ?_⟩
  · simp only [dInit, dnoteBad_pt, List.nil_append]
    cases data with
    | nil => rfl
    | cons x l => simp only []; split <;> rfl
  · have := place_at [] data
    simp only [List.nil_append, List.length_nil] at this
    simp only [dInit, dnoteBad_pt, List.length_nil]
    rw [this]
    cases data with
    | nil => rfl
    | cons x l => simp only []; split <;> rfl

theorem dInit_rest (data : List Sym) : (dInit data).pt.rest = data := by
  obtain ⟨pre, h1, h2⟩ := dInit_at data
  simp only [dInit, dnoteBad_pt]
  cases data with
  | nil => rfl
  | cons x l => simp only []; split <;> rfl

theorem dInit_rel (data : List Sym) : Rel data (dInit data) (initSt data) := by
  refine rel_noteBad ⟨?_, ?_, rfl, rfl⟩
  · have := dInit_at data
    simpa only [dInit, dnoteBad_pt] using this
  · have := dInit_rest data
    simp only [dInit, dnoteBad_pt] at this
    simp only []
    exact this.symm

/-- The detailed machine yields the same value, and errors exactly if the machine does. -/
theorem dParse_rel (order) (G : Grammar) (n : Nat) (data : List Sym) :
    (parseSyms G n data = none ∧ dParse order G n data = none) ∨
    ∃ v errs errs' asked, parseSyms G n data = some (v, errs, asked) ∧ dParse order G n data = some (v, errs') ∧ errs.length = errs'.length := by
  have h := (rel_all G n).1 (.ruleRef .File) _ _ (dInit_rel data)
  unfold parseSyms dParse
  generalize dRun G n (.ruleRef .File) (dInit data) = x at *
  generalize run G n (.ruleRef .File) (initSt data) = y at *
  cases h with
  | none => exact .inl ⟨rfl, rfl⟩
  | ok k => exact .inr ⟨_, _, _, _, rfl, rfl, k.4⟩
  | panic k => exact .inr ⟨_, _, _, _, rfl, rfl, by simp [k.4]⟩
  | @fail s t k =>
    refine .inr ⟨_, _, _, _, rfl, rfl, ?_⟩
    have : t.errs.isEmpty = s.errs.isEmpty := by
      have := k.4
      cases ht : t.errs <;> cases hs : s.errs <;> simp_all
    rw [this]
    split
    · rename_i hs
      have : s.errs = [] := by simpa using hs
      simp [this]
    · exact k.4

end Verif.Proof

import Verif.Proof.PegErrList
/-! # What comes well after the farthest failure does not matter -/
namespace Verif.Proof
open Verif Verif.Spec

variable {G : Grammar} {data : List Sym} {r1 r2 : List Sym}

/-- At the same position, before different ends of the input. -/
def NearPt (r1 r2 : List Sym) (m : Nat) (p1 p2 : Pt) : Prop := ∃ u, m ≤ u.length ∧ p1.rest = u ++ r1 ∧ p2 = ⟨p1.pos, u ++ r2⟩

/-- The same state, before different ends of the input; `m` symbols are known to be the same. -/
def Near (r1 r2 : List Sym) (m : Nat) (s1 s2 : DSt) : Prop := NearPt r1 r2 m s1.pt s2.pt ∧ s2 = { s1 with pt := s2.pt }

theorem NearPt.pos {m p1 p2} (h : NearPt r1 r2 m p1 p2) : p2.pos = p1.pos := by
  obtain ⟨u, -, -, rfl⟩ := h; rfl

theorem NearPt.le {m m' p1 p2} (h : NearPt r1 r2 m p1 p2) (k : m' ≤ m) : NearPt r1 r2 m' p1 p2 := by
  obtain ⟨u, a, b, c⟩ := h; exact ⟨u, Nat.le_trans k a, b, c⟩

theorem Near.le {m m' s1 s2} (h : Near r1 r2 m s1 s2) (k : m' ≤ m) : Near r1 r2 m' s1 s2 := ⟨h.1.le k, h.2⟩

theorem NearPt.cons {m p1 p2} (h : NearPt r1 r2 (m + 1) p1 p2) : ∃ x u, p1.rest = x :: (u ++ r1) ∧ p2.rest = x :: (u ++ r2) ∧ m ≤ u.length := by
  obtain ⟨u, a, b, rfl⟩ := h
  cases u with
  | nil => simp at a
  | cons x u => exact ⟨x, u, b, rfl, by simpa using a⟩

theorem NearPt.advance {m p1 p2} (h : NearPt r1 r2 (m + 2) p1 p2) : NearPt r1 r2 (m + 1) p1.advance p2.advance := by
  obtain ⟨u, a, b, rfl⟩ := h
  match u, a with
  | x :: y :: u, a =>
    refine ⟨y :: u, by simpa using a, by rw [advance_rest, b]; rfl, ?_⟩
    unfold Pt.advance
    rw [b]
    simp only [List.cons_append, List.tail_cons]
    split <;> rfl
  | [x], a => simp at a
  | [], a => simp at a

theorem Near.noteBad {m s1 s2} (h : Near r1 r2 (m + 1) s1 s2) : Near r1 r2 (m + 1) s1.noteBad s2.noteBad := by
  obtain ⟨x, u, e1, e2, -⟩ := h.1.cons
  obtain ⟨h1, h2⟩ := h
  have hp := h1.pos
  generalize hq : s2.pt = q at *
  unfold DSt.noteBad
  rw [e1, hq, e2]
  cases x with
  | ok c => exact ⟨by simpa [hq] using h1, by simp [h2]⟩
  | bad b =>
    refine ⟨by simpa [hq] using h1, ?_⟩
    simp only [h2, DSt.addErrAt, hp]

theorem Near.read {m s1 s2} (h : Near r1 r2 (m + 2) s1 s2) : Near r1 r2 (m + 1) s1.read s2.read := by
  refine Near.noteBad ⟨?_, ?_⟩
  · exact h.1.advance
  · simp only; rw [h.2]

theorem Near.failAt {m s1 s2} (h : Near r1 r2 m s1 s2) (b pos w) : Near r1 r2 m (s1.failAt b pos w) (s2.failAt b pos w) := by
  refine ⟨by simpa using h.1, ?_⟩
  obtain ⟨h1, h2⟩ := h
  generalize hq : s2.pt = q at *
  rw [failAt_pt, hq, h2]
  unfold DSt.failAt
  simp only
  split
  · split
    · rfl
    · split <;> rfl
  · rfl

theorem Near.frame {m s1 s2} (h : Near r1 r2 m s1 s2) (fr) : Near r1 r2 m { s1 with frame := fr } { s2 with frame := fr } :=
  ⟨h.1, by obtain ⟨h1, h2⟩ := h; generalize s2.pt = q at *; simp [h2]⟩
theorem Near.rstack {m s1 s2} (h : Near r1 r2 m s1 s2) (rs) : Near r1 r2 m { s1 with rstack := rs } { s2 with rstack := rs } :=
  ⟨h.1, by obtain ⟨h1, h2⟩ := h; generalize s2.pt = q at *; simp [h2]⟩
theorem Near.flip {m s1 s2} (h : Near r1 r2 m s1 s2) : Near r1 r2 m s1.flip s2.flip :=
  ⟨h.1, by obtain ⟨h1, h2⟩ := h; simp only [DSt.flip]; generalize s2.pt = q at *; simp [h2]⟩
theorem Near.push {m s1 s2} (h : Near r1 r2 m s1 s2) : Near r1 r2 m s1.push s2.push := h.frame _
theorem Near.addErr {m s1 s2} (h : Near r1 r2 m s1 s2) (p pos) : Near r1 r2 m (s1.addErrAt p pos) (s2.addErrAt p pos) :=
  ⟨h.1, by obtain ⟨h1, h2⟩ := h; simp only [DSt.addErrAt]; generalize s2.pt = q at *; simp [h2]⟩
theorem Near.frame_eq {m s1 s2} (h : Near r1 r2 m s1 s2) : s2.frame = s1.frame := by rw [h.2]
theorem Near.rstack_eq {m s1 s2} (h : Near r1 r2 m s1 s2) : s2.rstack = s1.rstack := by rw [h.2]
theorem Near.errs_eq {m s1 s2} (h : Near r1 r2 m s1 s2) : s2.errs = s1.errs := by rw [h.2]
theorem Near.max_eq {m s1 s2} (h : Near r1 r2 m s1 s2) : s2.maxFailPos = s1.maxFailPos := by rw [h.2]
theorem Near.exp_eq {m s1 s2} (h : Near r1 r2 m s1 s2) : s2.maxFailExpected = s1.maxFailExpected := by rw [h.2]

theorem Near.restore {m s1 s2 p1 p2} (h : Near r1 r2 m s1 s2) (hp : NearPt r1 r2 m p1 p2) : Near r1 r2 m (s1.restore p1) (s2.restore p2) := by
  unfold DSt.restore
  rw [hp.pos, h.1.pos]
  split
  · exact h
  · exact ⟨hp, by rw [h.2]⟩

theorem slice_near {m m' p1 p2 s1 s2} (hp : NearPt r1 r2 m p1 p2) (h : Near r1 r2 m' s1 s2) (hle : s1.pt.rest.length ≤ p1.rest.length) :
    s2.sliceFrom p2 = s1.sliceFrom p1 := by
  obtain ⟨u, -, e1, rfl⟩ := hp
  obtain ⟨⟨w, -, e2, e3⟩, -⟩ := h
  unfold DSt.sliceFrom Verif.sliceFrom
  rw [e1, e2] at hle
  rw [e3, e1, e2]
  simp only [List.length_append] at *
  have a : u.length + r2.length - (w.length + r2.length) = u.length - w.length := by omega
  have b : u.length + r1.length - (w.length + r1.length) = u.length - w.length := by omega
  rw [a, b, List.take_append_of_le_length (by omega), List.take_append_of_le_length (by omega)]

/-! ## Outcomes -/

/-- The same outcome. -/
inductive NearOut (r1 r2 : List Sym) (m : Nat) : DOut → DOut → Prop
  | ok {v s1 s2} : Near r1 r2 m s1 s2 → NearOut r1 r2 m (.ok v s1) (.ok v s2)
  | fail {s1 s2} : Near r1 r2 m s1 s2 → NearOut r1 r2 m (.fail s1) (.fail s2)

theorem near_ok_read {m s1 s2} (h : Near r1 r2 (m + 2) s1 s2) (w) :
    NearOut r1 r2 (m + 1) (.ok (.bytes ((s1.read.failAt true s1.pt.pos w).sliceFrom s1.pt)) (s1.read.failAt true s1.pt.pos w))
      (.ok (.bytes ((s2.read.failAt true s2.pt.pos w).sliceFrom s2.pt)) (s2.read.failAt true s2.pt.pos w)) := by
  have h' := h.read.failAt true s1.pt.pos w
  rw [h.1.pos, slice_near h.1 h' (by simp [advance_rest])]
  exact .ok h'

theorem near_any {m s1 s2} (h : Near r1 r2 (m + 2) s1 s2) : NearOut r1 r2 (m + 1) (dAny s1) (dAny s2) := by
  obtain ⟨x, u, e1, e2, hl⟩ := h.1.cons
  simp only [dAny, e1, e2]
  exact near_ok_read h _

theorem near_cls {m s1 s2} (h : Near r1 r2 (m + 2) s1 s2) (a b c) : NearOut r1 r2 (m + 1) (dCls a b c s1) (dCls a b c s2) := by
  obtain ⟨x, u, e1, e2, hl⟩ := h.1.cons
  have hf : NearOut r1 r2 (m + 1) (.fail (s1.failAt false s1.pt.pos (clsWant a b c))) (.fail (s2.failAt false s2.pt.pos (clsWant a b c))) := by
    rw [h.1.pos]; exact .fail ((h.failAt _ _ _).le (by omega))
  simp only [dCls, e1, e2]
  split <;> split
  · exact hf
  · exact near_ok_read h _
  · exact near_ok_read h _
  · exact hf

theorem near_lit {m st1 st2} (hst : NearPt r1 r2 (m + 1) st1 st2) (want) (val : List Char) : ∀ {s1 s2}, Near r1 r2 (m + 1 + val.length) s1 s2 →
    s1.pt.rest.length ≤ st1.rest.length → NearOut r1 r2 (m + 1) (dLit st1 want val s1) (dLit st2 want val s2) := by
  induction val with
  | nil =>
    intro s1 s2 h hle
    simp only [dLit]
    rw [hst.pos, slice_near hst (h.failAt true st1.pos want) (by simpa using hle)]
    exact .ok (h.failAt _ _ _)
  | cons c val ih =>
    intro s1 s2 h hle
    simp only [List.length_cons] at h
    have h2 : Near r1 r2 (m + val.length + 2) s1 s2 := h.le (by omega)
    obtain ⟨x, u, e1, e2, hl⟩ := h2.1.cons
    have hf : NearOut r1 r2 (m + 1) (.fail ((s1.failAt false st1.pos want).restore st1)) (.fail ((s2.failAt false st2.pos want).restore st2)) := by
      rw [hst.pos]
      exact .fail (((h.failAt _ _ _).le (by omega)).restore hst)
    simp only [dLit, e1, e2]
    split
    · have := h2.read
      refine ih (this.le (by omega)) ?_
      rw [dread_pt, advance_rest]
      simp only [List.length_tail]
      omega
    · exact hf

/-- A terminal has the same outcome if four symbols are the same. -/
theorem near_term {n e s1 s2} (ht : isTerm e = true) (h : Near r1 r2 4 s1 s2) :
    ∃ o1 o2, dRun G (n + 1) e s1 = some o1 ∧ dRun G (n + 1) e s2 = some o2 ∧ NearOut r1 r2 1 o1 o2 := by
  cases e with
  | any => simp only [dRun]; exact ⟨_, _, rfl, rfl, near_any (m := 0) (h.le (by omega))⟩
  | cls a b c => simp only [dRun]; exact ⟨_, _, rfl, rfl, near_cls (m := 0) (h.le (by omega)) a b c⟩
  | lit v =>
    simp only [isTerm, decide_eq_true_eq] at ht
    simp only [dRun]
    exact ⟨_, _, rfl, rfl, near_lit (m := 0) (h.1.le (by omega)) _ v (h.le (by omega)) (Nat.le_refl _)⟩
  | _ => simp [isTerm] at ht

/-- A sequence, from the current state on. -/
theorem far_seq (hG : ∀ r, simpleE (G.rules r) = true) (n : Nat) : ∀ {start es vs s}, simpleEs es = true → PtAt data start → Tidy data s →
    match dSeq G n start es vs s with
    | some (.ok _ s') => Far data s s'
    | some (.fail s') => s.maxFailPos.offset ≤ s'.maxFailPos.offset ∧ Seen s.pt.pos.offset s'
    | _ => True := by
  induction n with
  | zero => intros; simp only [dSeq]
  | succ n ih =>
    intro start es vs s he hp h
    cases es with
    | nil => simp only [dSeq]; exact Far.refl h
    | cons e es =>
      rw [dSeq]
      simp only [simpleEs, Bool.and_eq_true] at he
      have := (far_all (data := data) G hG n).1 e s he.1 h
      generalize dRun G n e s = x at *
      match x with
      | none => trivial
      | some (.ok v s') =>
        have this : Far data s s' := this
        have k := ih (start := start) (vs := vs ++ [v]) he.2 hp this.1
        simp only
        generalize dSeq G n start es (vs ++ [v]) s' = y at *
        match y with
        | none => trivial
        | some (.ok v s'') => exact this.trans k
        | some (.fail s'') => exact ⟨Nat.le_trans this.2 k.1, k.2.le this.4⟩
        | some (.panic s'') => trivial
      | some (.fail s') => exact ⟨by simpa using this.1.2, seen_restore this.2.2⟩
      | some (.panic s') => trivial

/-- If the first run stays before `O`, the second one is the same. -/
def LocPost (r1 r2 : List Sym) (O : Nat) : Option DOut → Option DOut → Prop
  | some (.ok v s1), o2 => s1.pt.pos.offset ≤ O → s1.maxFailPos.offset ≤ O → ∃ s2, o2 = some (.ok v s2) ∧ Near r1 r2 1 s1 s2
  | some (.fail s1), o2 => s1.maxFailPos.offset ≤ O → ∃ s2, o2 = some (.fail s2) ∧ Near r1 r2 1 s1 s2
  | _, _ => True

theorem loc_pop {O fr o1 o2} (h : LocPost r1 r2 O o1 o2) : LocPost r1 r2 O (o1.map (dPop fr)) (o2.map (dPop fr)) := by
  match o1 with
  | none => trivial
  | some (.ok v s1) =>
    intro a b
    obtain ⟨s2, rfl, k⟩ := h a b
    exact ⟨_, rfl, k.frame fr⟩
  | some (.fail s1) =>
    intro a
    obtain ⟨s2, rfl, k⟩ := h a
    exact ⟨_, rfl, k.frame fr⟩
  | some (.panic s1) => trivial

/-- At every position up to `O` there are at least four symbols before the different ends. -/
def Common (data r1 : List Sym) (O : Nat) : Prop := ∀ pt, PtAt data pt → pt.pos.offset ≤ O → r1.length + 4 ≤ pt.rest.length

theorem Common.near {O s1 s2} (hO : Common data r1 O) (h : Near r1 r2 1 s1 s2) (hp : PtAt data s1.pt) (ho : s1.pt.pos.offset ≤ O) : Near r1 r2 4 s1 s2 := by
  obtain ⟨⟨u, a, b, c⟩, k⟩ := h
  have := hO _ hp ho
  rw [b, List.length_append] at this
  exact ⟨⟨u, by omega, b, c⟩, k⟩

theorem loc_term {O n e s1 s2} (hO : Common data r1 O) (ht : isTerm e = true) (h : Tidy data s1) (hn : Near r1 r2 1 s1 s2)
    (hfar : FarPost data s1 (dRun G n e s1)) : LocPost r1 r2 O (dRun G n e s1) (dRun G n e s2) := by
  cases n with
  | zero => simp only [dRun]; trivial
  | succ n =>
    have key : s1.pt.pos.offset ≤ O → ∃ o1 o2, dRun G (n + 1) e s1 = some o1 ∧ dRun G (n + 1) e s2 = some o2 ∧ NearOut r1 r2 1 o1 o2 :=
      fun k => near_term ht (hO.near hn h.1 k)
    match hx : dRun G (n + 1) e s1 with
    | none => trivial
    | some (.ok v s') =>
      rw [hx] at hfar key
      intro a b
      obtain ⟨o1, o2, e1, e2, k⟩ := key (Nat.le_trans (Far.pt hfar) a)
      cases e1
      cases k with
      | ok k => exact ⟨_, e2, k⟩
    | some (.fail s') =>
      rw [hx] at hfar key
      intro a
      obtain ⟨o1, o2, e1, e2, k⟩ := key (Nat.le_trans hfar.2.2.1 a)
      cases e1
      cases k with
      | fail k => exact ⟨_, e2, k⟩
    | some (.panic s') => trivial

theorem loc_not {O n e s1 s2} (hO : Common data r1 O) (ht : isTerm e = true) (h : Tidy data s1) (hn : Near r1 r2 1 s1 s2)
    (hfar : FarPost data s1 (dRun G (n + 1) (.not e) s1)) : LocPost r1 r2 O (dRun G (n + 1) (.not e) s1) (dRun G (n + 1) (.not e) s2) := by
  cases n with
  | zero => simp only [dRun]; trivial
  | succ n =>
    have key : s1.pt.pos.offset ≤ O → ∃ o1 o2, dRun G (n + 1 + 1) (.not e) s1 = some o1 ∧ dRun G (n + 1 + 1) (.not e) s2 = some o2 ∧ NearOut r1 r2 1 o1 o2 := by
      intro k
      obtain ⟨o1, o2, e1, e2, k⟩ := near_term (G := G) (n := n) ht (hO.near hn h.1 k).push.flip
      rw [dRun, dRun, e1, e2, hn.frame_eq]
      cases k with
      | ok k => exact ⟨_, _, rfl, rfl, .fail ((k.frame s1.frame).flip.restore hn.1)⟩
      | fail k => exact ⟨_, _, rfl, rfl, .ok ((k.frame s1.frame).flip.restore hn.1)⟩
    match hx : dRun G (n + 1 + 1) (.not e) s1 with
    | none => trivial
    | some (.ok v s') =>
      rw [hx] at hfar key
      intro a b
      obtain ⟨o1, o2, e1, e2, k⟩ := key (Nat.le_trans (Far.pt hfar) a)
      cases e1
      cases k with
      | ok k => exact ⟨_, e2, k⟩
    | some (.fail s') =>
      rw [hx] at hfar key
      intro a
      obtain ⟨o1, o2, e1, e2, k⟩ := key (Nat.le_trans hfar.2.2.1 a)
      cases e1
      cases k with
      | fail k => exact ⟨_, e2, k⟩
    | some (.panic s') => trivial

theorem loc_all (hG : ∀ r, simpleE (G.rules r) = true) {O : Nat} (hO : Common data r1 O) (n : Nat) :
    (∀ e s1 s2, simpleE e = true → Tidy data s1 → Near r1 r2 1 s1 s2 → LocPost r1 r2 O (dRun G n e s1) (dRun G n e s2)) ∧
    (∀ es s1 s2, simpleEs es = true → Tidy data s1 → (es ≠ [] ∨ Seen s1.pt.pos.offset s1) → Near r1 r2 1 s1 s2 → LocPost r1 r2 O (dChoice G n es s1) (dChoice G n es s2)) ∧
    (∀ st1 st2 es vs s1 s2, simpleEs es = true → PtAt data st1 → NearPt r1 r2 1 st1 st2 → Tidy data s1 → Near r1 r2 1 s1 s2 →
      LocPost r1 r2 O (dSeq G n st1 es vs s1) (dSeq G n st2 es vs s2)) ∧
    (∀ e need vs s1 s2, simpleE e = true → Tidy data s1 → Near r1 r2 1 s1 s2 → LocPost r1 r2 O (dLoop G n e need vs s1) (dLoop G n e need vs s2)) := by
  induction n with
  | zero => refine ⟨?_, ?_, ?_, ?_⟩ <;> intros <;> simp only [dRun, dChoice, dSeq, dLoop] <;> trivial
  | succ n ih =>
    have far := far_all (data := data) G hG n
    have far' := far_all (data := data) G hG (n + 1)
    obtain ⟨ih1, ih2, ih3, ih4⟩ := ih
    have map1 : ∀ e s1 s2, simpleE e = true → Tidy data s1 → Near r1 r2 1 s1 s2 →
        LocPost r1 r2 O ((dRun G n e s1.push).map (dPop s1.frame)) ((dRun G n e s2.push).map (dPop s2.frame)) := by
      intro e s1 s2 he h hn
      rw [hn.frame_eq]
      exact loc_pop (ih1 e _ _ he h.push hn.push)
    have mapf : ∀ e s, simpleE e = true → Tidy data s → FarPost data s ((dRun G n e s.push).map (dPop s.frame)) := by
      intro e s he h
      exact far_pop _ (far.1 e s.push he h.push) rfl rfl rfl
    refine ⟨?_, ?_, ?_, ?_⟩
    · intro e s1 s2 he h hn
      cases e with
      | action a e =>
        have he : simpleE e = true := by simpa only [simpleE] using he
        have k := ih1 e s1 s2 he h hn
        have f := far.1 e s1 he h
        simp only [dRun]
        match hx : dRun G n e s1 with
        | none => trivial
        | some (.ok v s1') =>
          rw [hx] at k f
          have f : Far data s1 s1' := f
          have hle : s1'.pt.rest.length ≤ s1.pt.rest.length := (ptAt_le h.1 f.1.1).1 f.4
          simp only
          have key : ∀ s2', dRun G n e s2 = some (.ok v s2') → Near r1 r2 1 s1' s2' →
              LocPost r1 r2 O (some (dAction G a s1.pt s1')) (match dRun G n e s2 with | some (.ok _ s') => some (dAction G a s2.pt s') | o => o) := by
            intro s2' e2 k2
            rw [e2]
            simp only [dAction]
            rw [slice_near hn.1 k2 hle, k2.frame_eq, hn.1.pos]
            cases G.act a s1'.frame (s1'.sliceFrom s1.pt) with
            | ok v => exact fun _ _ => ⟨_, rfl, k2⟩
            | panic => trivial
            | err x => exact fun _ _ => ⟨_, rfl, k2.addErr _ _⟩
          have pre : (s1'.pt.pos.offset ≤ O → s1'.maxFailPos.offset ≤ O → LocPost r1 r2 O (some (dAction G a s1.pt s1'))
              (match dRun G n e s2 with | some (.ok _ s') => some (dAction G a s2.pt s') | o => o)) := by
            intro a b
            obtain ⟨s2', e2, k2⟩ := k a b
            exact key s2' e2 k2
          have hd : ∀ v s'', dAction G a s1.pt s1' = .ok v s'' → s''.pt = s1'.pt ∧ s''.maxFailPos = s1'.maxFailPos := by
            intro v s'' hd
            simp only [dAction] at hd
            split at hd
            · cases hd; exact ⟨rfl, rfl⟩
            · cases hd; exact ⟨rfl, rfl⟩
            · cases hd
          have hd' : ∀ s'', dAction G a s1.pt s1' ≠ .fail s'' := by
            intro s'' hd
            simp only [dAction] at hd
            split at hd <;> cases hd
          generalize dAction G a s1.pt s1' = y at *
          match y with
          | .ok v2 s'' =>
            intro p q
            have := hd v2 s'' rfl
            exact pre (this.1 ▸ p) (this.2 ▸ q) p q
          | .fail s'' => exact absurd rfl (hd' s'')
          | .panic s'' => trivial
        | some (.fail s1') =>
          rw [hx] at k
          intro p
          obtain ⟨s2', e2, k2⟩ := k p
          exact ⟨s2', by rw [e2], k2⟩
        | some (.panic s1') => trivial
      | any => exact loc_term hO rfl h hn (far'.1 _ _ he h)
      | cls => exact loc_term hO rfl h hn (far'.1 _ _ he h)
      | choice es =>
        simp only [dRun]
        simp only [simpleE, Bool.and_eq_true, Bool.not_eq_true', List.isEmpty_eq_false_iff] at he
        exact ih2 es s1 s2 he.2 h (.inl he.1) hn
      | labeled l e =>
        have k := map1 e s1 s2 (by simpa only [simpleE] using he) h hn
        simp only [dRun]
        generalize (dRun G n e s1.push).map (dPop s1.frame) = x at *
        match x with
        | none => trivial
        | some (.ok v s1') =>
          intro p q
          obtain ⟨s2', e2, k2⟩ := k p q
          exact ⟨_, by rw [e2], by rw [k2.frame_eq]; exact k2.frame _⟩
        | some (.fail s1') =>
          intro p
          obtain ⟨s2', e2, k2⟩ := k p
          exact ⟨s2', by rw [e2], k2⟩
        | some (.panic s1') => trivial
      | lit v => exact loc_term hO (by simpa only [simpleE, isTerm] using he) h hn (far'.1 _ _ he h)
      | not e => exact loc_not hO (by simpa only [simpleE] using he) h hn (far'.1 _ _ he h)
      | oneOrMore e => simp only [dRun]; exact ih4 e _ _ s1 s2 (by simpa only [simpleE] using he) h hn
      | ruleRef q =>
        simp only [dRun]
        have k := ih1 (G.rules q) { s1.push with rstack := q :: s1.rstack } { s2.push with rstack := q :: s2.rstack } (hG q) ⟨h.1, h.2, h.3⟩
          (by rw [hn.rstack_eq]; exact hn.push.rstack _)
        generalize dRun G n (G.rules q) { s1.push with rstack := q :: s1.rstack } = x at *
        match x with
        | none => trivial
        | some (.ok v s1') =>
          intro a b
          obtain ⟨s2', e2, k2⟩ := k a b
          rw [e2]
          exact ⟨_, rfl, by rw [hn.rstack_eq, hn.frame_eq]; exact (k2.frame s1.frame).rstack s1.rstack⟩
        | some (.fail s1') =>
          intro a
          obtain ⟨s2', e2, k2⟩ := k a
          rw [e2]
          exact ⟨_, rfl, by rw [hn.rstack_eq, hn.frame_eq]; exact (k2.frame s1.frame).rstack s1.rstack⟩
        | some (.panic s1') => trivial
      | seq es => simp only [dRun]; exact ih3 _ _ es [] s1 s2 (by simpa only [simpleE] using he) h.1 hn.1 h hn
      | zeroOrMore e => simp only [dRun]; exact ih4 e _ _ s1 s2 (by simpa only [simpleE] using he) h hn
      | zeroOrOne e =>
        have k := map1 e s1 s2 (by simpa only [simpleE] using he) h hn
        simp only [dRun]
        generalize (dRun G n e s1.push).map (dPop s1.frame) = x at *
        match x with
        | none => trivial
        | some (.ok v s1') =>
          intro p q
          obtain ⟨s2', e2, k2⟩ := k p q
          exact ⟨s2', by rw [e2], k2⟩
        | some (.fail s1') =>
          intro p q
          obtain ⟨s2', e2, k2⟩ := k q
          exact ⟨s2', by rw [e2], k2⟩
        | some (.panic s1') => trivial
    · intro es s1 s2 he h hne hn
      cases es with
      | nil => simp only [dChoice]; exact fun _ => ⟨s2, rfl, hn⟩
      | cons e es =>
        rw [dChoice, dChoice]
        simp only [simpleEs, Bool.and_eq_true] at he
        have k := map1 e s1 s2 he.1 h hn
        have f := mapf e s1 he.1 h
        generalize (dRun G n e s1.push).map (dPop s1.frame) = x at *
        match x with
        | none => trivial
        | some (.ok v s1') =>
          intro p q
          obtain ⟨s2', e2, k2⟩ := k p q
          exact ⟨s2', by rw [e2], k2⟩
        | some (.fail s1') =>
          obtain ⟨f1, f2, f3⟩ := f
          have f4 := far.2.1 es s1' he.2 f1.1 (.inr (f2 ▸ f3))
          have key : s1'.maxFailPos.offset ≤ O → LocPost r1 r2 O (dChoice G n es s1')
              (match (dRun G n e s2.push).map (dPop s2.frame) with | some (.fail s') => dChoice G n es s' | o => o) := by
            intro p
            obtain ⟨s2', e2, k2⟩ := k p
            rw [e2]
            exact ih2 es s1' s2' he.2 f1.1 (.inr (f2 ▸ f3)) k2
          show LocPost r1 r2 O (dChoice G n es s1') _
          generalize dChoice G n es s1' = y at *
          match y with
          | none => trivial
          | some (.ok v s1'') => exact fun p q => key (Nat.le_trans (Far.max f4) q) p q
          | some (.fail s1'') => exact fun p => key (Nat.le_trans f4.1.2 p) p
          | some (.panic s1'') => trivial
        | some (.panic s1') => trivial
    · intro st1 st2 es vs s1 s2 he hp hst h hn
      cases es with
      | nil => simp only [dSeq]; exact fun _ _ => ⟨s2, rfl, hn⟩
      | cons e es =>
        rw [dSeq, dSeq]
        simp only [simpleEs, Bool.and_eq_true] at he
        have k := ih1 e s1 s2 he.1 h hn
        have f := far.1 e s1 he.1 h
        generalize dRun G n e s1 = x at *
        match x with
        | none => trivial
        | some (.ok v s1') =>
          have f : Far data s1 s1' := f
          have f4 := far_seq hG n (start := st1) (vs := vs ++ [v]) he.2 hp f.1
          have key : s1'.pt.pos.offset ≤ O → s1'.maxFailPos.offset ≤ O → LocPost r1 r2 O (dSeq G n st1 es (vs ++ [v]) s1')
              (match dRun G n e s2 with | some (.ok v s') => dSeq G n st2 es (vs ++ [v]) s' | some (.fail s') => some (.fail (s'.restore st2)) | o => o) := by
            intro p q
            obtain ⟨s2', e2, k2⟩ := k p q
            rw [e2]
            exact ih3 st1 st2 es _ s1' s2' he.2 hp hst f.1 k2
          show LocPost r1 r2 O (dSeq G n st1 es (vs ++ [v]) s1') _
          generalize dSeq G n st1 es (vs ++ [v]) s1' = y at *
          match y with
          | none => trivial
          | some (.ok v s1'') => exact fun p q => key (Nat.le_trans f4.4 p) (Nat.le_trans f4.2 q) p q
          | some (.fail s1'') => exact fun p => key (Nat.le_trans f4.2.1 p) (Nat.le_trans f4.1 p) p
          | some (.panic s1'') => trivial
        | some (.fail s1') =>
          intro p
          rw [restore_max] at p
          obtain ⟨s2', e2, k2⟩ := k p
          exact ⟨_, by rw [e2], k2.restore hst⟩
        | some (.panic s1') => trivial
    · intro e need vs s1 s2 he h hn
      rw [dLoop, dLoop]
      have k := map1 e s1 s2 he h hn
      have f := mapf e s1 he h
      generalize (dRun G n e s1.push).map (dPop s1.frame) = x at *
      match x with
      | none => trivial
      | some (.ok v s1') =>
        have f : Far data s1 s1' := f
        have f4 := (far.2.2.2 e need (vs ++ [v]) s1' he f.1).far
        have key : s1'.pt.pos.offset ≤ O → s1'.maxFailPos.offset ≤ O → LocPost r1 r2 O (dLoop G n e need (vs ++ [v]) s1')
            (match (dRun G n e s2.push).map (dPop s2.frame) with
              | some (.ok v s') => dLoop G n e need (vs ++ [v]) s'
              | some (.fail s') => if need && vs.isEmpty then some (.fail s') else some (.ok (.list vs) s')
              | o => o) := by
          intro p q
          obtain ⟨s2', e2, k2⟩ := k p q
          rw [e2]
          exact ih4 e need _ s1' s2' he f.1 k2
        show LocPost r1 r2 O (dLoop G n e need (vs ++ [v]) s1') _
        generalize dLoop G n e need (vs ++ [v]) s1' = y at *
        match y with
        | none => trivial
        | some (.ok v s1'') => exact fun p q => key (Nat.le_trans (Far.pt f4) p) (Nat.le_trans (Far.max f4) q) p q
        | some (.fail s1'') => exact fun p => key (Nat.le_trans f4.2.2.1 p) (Nat.le_trans f4.1.2 p) p
        | some (.panic s1'') => trivial
      | some (.fail s1') =>
        have key : s1'.maxFailPos.offset ≤ O → LocPost r1 r2 O (if (need && vs.isEmpty) = true then some (.fail s1') else some (.ok (.list vs) s1'))
            (match (dRun G n e s2.push).map (dPop s2.frame) with
              | some (.ok v s') => dLoop G n e need (vs ++ [v]) s'
              | some (.fail s') => if need && vs.isEmpty then some (.fail s') else some (.ok (.list vs) s')
              | o => o) := by
          intro p
          obtain ⟨s2', e2, k2⟩ := k p
          rw [e2]
          simp only
          split
          · exact fun _ => ⟨s2', rfl, k2⟩
          · exact fun _ _ => ⟨s2', rfl, k2⟩
        show LocPost r1 r2 O (if (need && vs.isEmpty) = true then some (.fail s1') else some (.ok (.list vs) s1')) _
        by_cases hc : (need && vs.isEmpty) = true
        · rw [if_pos hc] at key ⊢
          exact fun p => key p p
        · rw [if_neg hc] at key ⊢
          exact fun p q => key q p q
      | some (.panic s1') => trivial

end Verif.Proof

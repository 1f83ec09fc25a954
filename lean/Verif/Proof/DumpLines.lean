import Verif.Spec.Dump
import Verif.Proof.DumpQuote
import Verif.Proof.DumpWrite
/-!
# The dump consists of the lines of its specification
-/
namespace Verif.Proof.Dump
open Verif Verif.Spec

mutual
/-- No text has a line break in it, and no name of a field begins with a dot. -/
def RVal.flat : RVal → Prop
  | .nil => True
  | .ptr _ x => RVal.flat x
  | .slice t xs => '\n' ∉ t ∧ RVals.flat xs
  | .struct t fs => '\n' ∉ t ∧ RFields.flat fs
  | .string _ => True
  | .other s => '\n' ∉ s
def RVals.flat : RVals → Prop
  | .nil => True
  | .cons x xs => RVal.flat x ∧ RVals.flat xs
def RFields.flat : RFields → Prop
  | .nil => True
  | .cons n x fs => ('\n' ∉ n ∧ n.head? ≠ some '.') ∧ RVal.flat x ∧ RFields.flat fs
end

/-- The printer is on line `k` with indentation `i`; `T` has been written, or, at the beginning of a line, would have been with the prefix. -/
structure Ready (s : DumpState) (T : Str) (i k : Nat) (m : SeenAt) : Prop where
  indent : s.indent = i
  line : s.line = k
  seen : s.ptrmap = m
  text : (if s.last = '\n' then s.out.flatten ++ linePrefix k i else s.out.flatten) = T

theorem emit_out (d : Str) (s : DumpState) : dEmit noErr d s = ({ s with out := s.out ++ [d] }, none) := rfl

theorem dIndent_out : ∀ j s, ∃ o, dIndent noErr j s = ({ s with out := o }, none) ∧ o.flatten = s.out.flatten ++ (List.replicate j ['.', ' ', ' ']).flatten
  | 0, s => ⟨s.out, rfl, by simp⟩
  | j + 1, s => by
    obtain ⟨o, h1, h2⟩ := dIndent_out j { s with out := s.out ++ [['.', ' ', ' ']] }
    refine ⟨o, ?_, ?_⟩
    · rw [dIndent, emit_out]
      exact h1
    · rw [h2]
      simp [List.replicate_succ]

theorem writeLoop_mid : ∀ (data seg : Str) (s : DumpState), '\n' ∉ data → s.last ≠ '\n' →
    ∃ o l, dWriteLoop noErr seg data s = ({ s with out := o, last := l }, none) ∧ o.flatten = s.out.flatten ++ seg ++ data ∧ l ≠ '\n'
  | [], seg, s, _, hl => by
    by_cases h : seg = []
    · exact ⟨s.out, s.last, by simp [dWriteLoop, h], by simp [h], hl⟩
    · exact ⟨s.out ++ [seg], s.last, by simp only [dWriteLoop, if_neg h]; rfl, by simp, hl⟩
  | b :: data, seg, s, hd, hl => by
    have hb : ¬ b = '\n' := fun e => hd (by simp [e])
    have hd' : '\n' ∉ data := fun e => hd (by simp [e])
    obtain ⟨o, l, h1, h2, h3⟩ := writeLoop_mid data (seg ++ [b]) { s with last := b } hd' hb
    refine ⟨o, l, ?_, ?_, h3⟩
    · rw [dWriteLoop, if_neg hb, if_neg hl, h1]
    · rw [h2]; simp

theorem printf_text {s : DumpState} {T : Str} {i k : Nat} {m : SeenAt} (hr : Ready s T i k m) (t : Str) (ht : '\n' ∉ t) :
    ∃ s', dPrintf noErr t s = (s', none) ∧ Ready s' (T ++ t) i k m ∧ (s'.last = '\n' → s.last = '\n' ∧ t = []) := by
  match t, ht with
  | [], _ => exact ⟨s, rfl, by rw [List.append_nil]; exact hr, fun h => ⟨h, rfl⟩⟩
  | b :: t, ht =>
    by_cases hl : s.last = '\n'
    · have hb : ¬ b = '\n' := fun e => ht (by simp [e])
      have ht' : '\n' ∉ t := fun e => ht (by simp [e])
      obtain ⟨o, h1, h2⟩ := dIndent_out s.indent { s with out := s.out ++ [pad6 s.line ++ [' ', ' ']] }
      obtain ⟨o', l, h3, h4, h5⟩ := writeLoop_mid t ([] ++ [b]) { s with out := o, last := b } ht' hb
      refine ⟨{ s with out := o', last := l }, ?_, ?_, fun h => absurd h h5⟩
      · rw [dPrintf, dWriteLoop, if_neg hb, if_pos hl, emit_out]
        show (DumpOut.andThen (dIndent noErr s.indent _) _) = _
        rw [h1]
        exact h3
      · refine ⟨hr.indent, hr.line, hr.seen, ?_⟩
        have htx := hr.text
        rw [if_pos hl] at htx
        show (if l = '\n' then _ else o'.flatten) = _
        rw [if_neg h5, h4]
        show o.flatten ++ _ ++ _ = _
        rw [h2, ← htx, linePrefix, hr.line, hr.indent]
        simp
    · obtain ⟨o, l, h1, h2, h3⟩ := writeLoop_mid (b :: t) [] s ht hl
      refine ⟨_, h1, ⟨hr.indent, hr.line, hr.seen, ?_⟩, fun h => absurd h h3⟩
      have htx := hr.text
      rw [if_neg hl] at htx
      show (if l = '\n' then _ else o.flatten) = _
      rw [if_neg h3, h2, ← htx]
      simp

/-- A line ends. -/
theorem printf_nl {s : DumpState} {T : Str} {i k : Nat} {m : SeenAt} (hr : Ready s T i k m) (hl : s.last ≠ '\n') :
    ∃ s', dPrintf noErr ['\n'] s = (s', none) ∧ Ready s' (T ++ '\n' :: linePrefix (k + 1) i) i (k + 1) m ∧ s'.last = '\n' ∧ s'.out.flatten = T ++ ['\n'] := by
  have htx := hr.text
  rw [if_neg hl] at htx
  refine ⟨{ s with out := s.out ++ [['\n']], line := s.line + 1, last := '\n' }, ?_, ⟨hr.indent, by rw [← hr.line], hr.seen, ?_⟩, rfl, ?_⟩
  · rw [dPrintf, dWriteLoop, if_pos rfl, emit_out]
    rfl
  · show (if '\n' = '\n' then (s.out ++ [['\n']]).flatten ++ linePrefix (k + 1) i else _) = _
    rw [if_pos rfl, ← htx]; simp
  · show (s.out ++ [['\n']]).flatten = _
    rw [← htx]; simp

/-- The printer is at the beginning of line `k`; `B` has been written. -/
structure Fresh (s : DumpState) (B : Str) (i k : Nat) (m : SeenAt) : Prop where
  indent : s.indent = i
  line : s.line = k
  seen : s.ptrmap = m
  last : s.last = '\n'
  text : s.out.flatten = B

theorem Fresh.ready {s B i k m} (h : Fresh s B i k m) : Ready s (B ++ linePrefix k i) i k m :=
  ⟨h.indent, h.line, h.seen, by rw [if_pos h.last, h.text]⟩

theorem Fresh.indentBy {s B i k m} (h : Fresh s B i k m) (f : Nat → Nat) : ∃ s', dIndentBy f s = (s', none) ∧ Fresh s' B (f i) k m :=
  ⟨_, rfl, by show f s.indent = f i; rw [h.indent], h.line, h.seen, h.last, h.text⟩

theorem Ready.indentBy {s T i k m} (h : Ready s T i k m) (hl : s.last ≠ '\n') (f : Nat → Nat) :
    ∃ s', dIndentBy f s = (s', none) ∧ Ready s' T (f i) k m ∧ s'.last ≠ '\n' := by
  refine ⟨_, rfl, ⟨by show f s.indent = f i; rw [h.indent], h.line, h.seen, ?_⟩, hl⟩
  have := h.text
  rw [if_neg hl] at this
  show (if s.last = '\n' then _ else s.out.flatten) = T
  rw [if_neg hl, this]

theorem printf_fresh {s T i k m} (hr : Ready s T i k m) (hl : s.last ≠ '\n') :
    ∃ s', dPrintf noErr ['\n'] s = (s', none) ∧ Fresh s' (T ++ ['\n']) i (k + 1) m := by
  obtain ⟨s', h1, h2, h3, h4⟩ := printf_nl hr hl
  exact ⟨s', h1, h2.indent, h2.line, h2.seen, h3, h4⟩

/-- Lines after the first one, before the last line break. -/
def contText : Nat → List Line → Str
  | _, [] => []
  | k, (i, t) :: ls => '\n' :: (linePrefix k i ++ t ++ contText (k + 1) ls)

theorem render_cont (k i : Nat) (t : Str) : ∀ ls, renderLines k ((i, t) :: ls) = linePrefix k i ++ t ++ contText (k + 1) ls ++ ['\n'] := by
  intro ls
  induction ls generalizing k i t with
  | nil => simp [renderLines, contText]
  | cons l ls ih =>
    obtain ⟨j, u⟩ := l
    rw [renderLines, ih, contText]
    simp

theorem render_append (k : Nat) (a b : List Line) : renderLines k (a ++ b) = renderLines k a ++ renderLines (k + a.length) b := by
  induction a generalizing k with
  | nil => rfl
  | cons l a ih =>
    obtain ⟨i, t⟩ := l
    simp only [List.cons_append, renderLines, ih, List.length_cons]
    rw [show k + 1 + a.length = k + (a.length + 1) by omega]
    simp

theorem cont_close (k i : Nat) (ls : List Line) : contText k (ls ++ [(i, ['}'])]) = '\n' :: (renderLines k ls ++ linePrefix (k + ls.length) i ++ ['}']) := by
  induction ls generalizing k with
  | nil => simp [contText, renderLines]
  | cons l ls ih =>
    obtain ⟨j, u⟩ := l
    simp only [List.cons_append, contText, ih, renderLines, List.length_cons]
    rw [show k + 1 + ls.length = k + (ls.length + 1) by omega]
    simp

theorem natStr_nl (n : Nat) : '\n' ∉ natStr n := by
  intro h
  have := Nat.isDigit_of_mem_toDigits (by decide) (by decide) h
  revert this; decide

theorem andThen_none (s : DumpState) (f : DumpState → DumpOut) : DumpOut.andThen (s, none) f = f s := rfl

/-- What `dPrint` does. -/
def PrintsAs (q : QuoteTable) (x : RVal) : Prop :=
  ∀ s T i k m, Ready s T i k m → ∃ s', dPrint q noErr x s = (s', none) ∧
    Ready s' (T ++ (lay q i k m x).1.1 ++ contText (k + 1) (lay q i k m x).1.2) i (k + (lay q i k m x).1.2.length) (lay q i k m x).2 ∧
    (s'.last = '\n' → s.last = '\n' ∧ (lay q i k m x).1.1 = [] ∧ (lay q i k m x).1.2 = [])

def ElemsAs (q : QuoteTable) (xs : RVals) : Prop :=
  ∀ s B i k m j, Fresh s B i k m → ∃ s', dElems q noErr j xs s = (s', none) ∧
    Fresh s' (B ++ renderLines k (layElems q i k m j xs).1) i (k + (layElems q i k m j xs).1.length) (layElems q i k m j xs).2

def FieldsAs (q : QuoteTable) (fs : RFields) : Prop :=
  ∀ s B i k m, Fresh s B i k m → ∃ s', dFields q noErr false fs s = (s', none) ∧
    Fresh s' (B ++ renderLines k (layFields q i k m fs).1) i (k + (layFields q i k m fs).1.length) (layFields q i k m fs).2

/-- A labelled value on a line of its own. -/
theorem labelled {q : QuoteTable} {x : RVal} (hx : PrintsAs q x) {lbl : Str} (hl : '\n' ∉ lbl) (hn : lbl ≠ []) {s B i k m} (hs : Fresh s B i k m) :
    ∃ s', (((dPrintf noErr lbl s).andThen (dPrint q noErr x)).andThen (dPrintf noErr ['\n'])) = (s', none) ∧
      Fresh s' (B ++ renderLines k ((i, lbl ++ (lay q i k m x).1.1) :: (lay q i k m x).1.2)) i (k + 1 + (lay q i k m x).1.2.length) (lay q i k m x).2 := by
  obtain ⟨s1, e1, r1, l1⟩ := printf_text hs.ready lbl hl
  have hm1 : s1.last ≠ '\n' := fun h => hn (l1 h).2
  obtain ⟨s2, e2, r2, l2⟩ := hx _ _ _ _ _ r1
  have hm2 : s2.last ≠ '\n' := fun h => hm1 (l2 h).1
  obtain ⟨s3, e3, r3⟩ := printf_fresh r2 hm2
  refine ⟨s3, by rw [e1, andThen_none, e2, andThen_none, e3], ?_⟩
  rw [render_cont]
  rw [show k + 1 + (lay q i k m x).1.2.length = k + (lay q i k m x).1.2.length + 1 by omega]
  simpa using r3

theorem elems_nil (q : QuoteTable) : ElemsAs q .nil := by
  intro s B i k m j hs
  refine ⟨s, by rw [dElems], ?_⟩
  simp only [layElems, renderLines, List.append_nil, List.length_nil, Nat.add_zero]
  exact hs

theorem elems_cons {q : QuoteTable} {x : RVal} {xs : RVals} (hx : PrintsAs q x) (hxs : ElemsAs q xs) : ElemsAs q (.cons x xs) := by
  intro s B i k m j hs
  obtain ⟨s1, e1, f1⟩ := labelled hx (lbl := natStr j ++ [':', ' '])
    (by simp only [List.mem_append, not_or]; exact ⟨natStr_nl j, by decide⟩) (by simp) hs
  obtain ⟨s2, e2, f2⟩ := hxs _ _ _ _ _ (j + 1) f1
  refine ⟨s2, by rw [dElems, e1, andThen_none, e2], ?_⟩
  simp only [layElems]
  rw [← List.cons_append, render_append, ← List.append_assoc]
  simp only [List.length_append, List.length_cons]
  rw [show k + ((lay q i k m x).1.2.length + 1) = k + 1 + (lay q i k m x).1.2.length by omega,
    show k + ((lay q i k m x).1.2.length + 1 + (layElems q i (k + 1 + (lay q i k m x).1.2.length) (lay q i k m x).2 (j + 1) xs).1.length) =
      k + 1 + (lay q i k m x).1.2.length + (layElems q i (k + 1 + (lay q i k m x).1.2.length) (lay q i k m x).2 (j + 1) xs).1.length by omega]
  exact f2

theorem fields_nil (q : QuoteTable) : FieldsAs q .nil := by
  intro s B i k m hs
  refine ⟨s, by rw [dFields], ?_⟩
  simp only [layFields, renderLines, List.append_nil, List.length_nil, Nat.add_zero]
  exact hs

theorem fields_cons {q : QuoteTable} {n : Str} {x : RVal} {fs : RFields} (hn : '\n' ∉ n) (hx : PrintsAs q x) (hfs : FieldsAs q fs) : FieldsAs q (.cons n x fs) := by
  intro s B i k m hs
  by_cases hnil : x.notNil = true
  · obtain ⟨s1, e1, f1⟩ := labelled hx (lbl := n ++ [':', ' '])
      (by simp only [List.mem_append, not_or]; exact ⟨hn, by decide⟩) (by simp) hs
    obtain ⟨s2, e2, f2⟩ := hfs _ _ _ _ _ f1
    refine ⟨s2, ?_, ?_⟩
    · rw [dFields, if_pos hnil, if_neg (by decide), andThen_none, e1, andThen_none, e2]
    · simp only [layFields, if_pos hnil]
      rw [← List.cons_append, render_append, ← List.append_assoc]
      simp only [List.length_append, List.length_cons]
      rw [show k + ((lay q i k m x).1.2.length + 1) = k + 1 + (lay q i k m x).1.2.length by omega,
        show k + ((lay q i k m x).1.2.length + 1 + (layFields q i (k + 1 + (lay q i k m x).1.2.length) (lay q i k m x).2 fs).1.length) =
          k + 1 + (lay q i k m x).1.2.length + (layFields q i (k + 1 + (lay q i k m x).1.2.length) (lay q i k m x).2 fs).1.length by omega]
      exact f2
  · obtain ⟨s1, e1, f1⟩ := hfs _ _ _ _ _ hs
    refine ⟨s1, by rw [dFields, if_neg hnil, e1], ?_⟩
    simp only [layFields, if_neg hnil]
    exact f1

/-- The fields of a struct, from the line with its type. -/
def FirstAs (q : QuoteTable) (fs : RFields) : Prop :=
  ∀ s T i k m, Ready s T i k m → s.last ≠ '\n' →
    ∃ s', dFields q noErr true fs s = (s', none) ∧
      (((layFields q i (k + 1) m fs).1 = [] ∧ Ready s' T i k (layFields q i (k + 1) m fs).2 ∧ s'.last ≠ '\n') ∨
      (layFields q i (k + 1) m fs).1 ≠ [] ∧
        Fresh s' (T ++ '\n' :: renderLines (k + 1) (layFields q i (k + 1) m fs).1) i (k + 1 + (layFields q i (k + 1) m fs).1.length) (layFields q i (k + 1) m fs).2)

theorem first_nil (q : QuoteTable) : FirstAs q .nil := by
  intro s T i k m hr hl
  exact ⟨s, by rw [dFields], .inl ⟨by simp only [layFields], by simp only [layFields]; exact hr, hl⟩⟩

theorem first_cons {q : QuoteTable} {n : Str} {x : RVal} {fs : RFields} (h : FieldsAs q (.cons n x fs)) (hfs : FirstAs q fs) : FirstAs q (.cons n x fs) := by
  intro s T i k m hr hl
  by_cases hnil : x.notNil = true
  · obtain ⟨s1, e1, f1⟩ := printf_fresh hr hl
    obtain ⟨s2, e2, f2⟩ := h _ _ _ _ _ f1
    refine ⟨s2, ?_, .inr ⟨?_, ?_⟩⟩
    · rw [dFields, if_pos hnil, if_pos rfl, e1, andThen_none]
      rw [dFields, if_pos hnil, if_neg (by decide), andThen_none] at e2
      exact e2
    · simp only [layFields, if_pos hnil]; simp
    · rw [List.append_assoc] at f2; exact f2
  · obtain ⟨s1, e1, f1⟩ := hfs s T i k m hr hl
    refine ⟨s1, by rw [dFields, if_neg hnil, e1], ?_⟩
    simp only [layFields, if_neg hnil]
    exact f1

theorem prints_text {q : QuoteTable} {x : RVal} {t : Str} (ht : '\n' ∉ t) (h1 : ∀ s, dPrint q noErr x s = dPrintf noErr t s)
    (h2 : ∀ i k m, lay q i k m x = ((t, []), m)) : PrintsAs q x := by
  intro s T i k m hr
  obtain ⟨s', e, r, l⟩ := printf_text hr t ht
  refine ⟨s', by rw [h1, e], ?_, ?_⟩
  · rw [h2]; simpa [contText] using r
  · rw [h2]; intro h; exact ⟨(l h).1, (l h).2, rfl⟩

theorem prints_ptr {q : QuoteTable} {x : RVal} (a : Nat) (hx : PrintsAs q x) : PrintsAs q (.ptr a x) := by
  intro s T i k m hr
  obtain ⟨s1, e1, r1, l1⟩ := printf_text hr ['*'] (by decide)
  have hm1 : s1.last ≠ '\n' := fun h => by have := (l1 h).2; cases this
  rw [dPrint, e1, andThen_none, r1.seen]
  cases h : dLookup a m with
  | some l =>
    obtain ⟨s2, e2, r2, l2⟩ := printf_text r1 ("(obj @ ".toList ++ natStr l ++ [')'])
      (by simp only [List.mem_append, not_or]; exact ⟨⟨by decide, natStr_nl l⟩, by decide⟩)
    refine ⟨s2, e2, ?_, fun h => absurd (l2 h).1 hm1⟩
    simp only [lay, h, contText, List.append_nil, List.length_nil, Nat.add_zero]
    simpa using r2
  | none =>
    have hr2 : Ready { s1 with ptrmap := (a, s1.line) :: m } (T ++ ['*']) i k ((a, k) :: m) :=
      ⟨r1.indent, r1.line, by show (a, s1.line) :: m = _; rw [r1.line], r1.text⟩
    obtain ⟨s2, e2, r2, l2⟩ := hx _ _ _ _ _ hr2
    refine ⟨s2, e2, ?_, fun h => absurd (l2 h).1 hm1⟩
    simp only [lay, h]
    simpa using r2

theorem prints_slice_nil {q : QuoteTable} {t : Str} (ht : '\n' ∉ t) : PrintsAs q (.slice t .nil) := by
  intro s T i k m hr
  obtain ⟨s1, e1, r1, l1⟩ := printf_text hr (t ++ " (len = ".toList ++ natStr 0 ++ ") {".toList)
    (by simp only [List.mem_append, not_or]; exact ⟨⟨⟨ht, by decide⟩, by decide⟩, by decide⟩)
  have hm1 : s1.last ≠ '\n' := fun h => by have := (l1 h).2; simp at this
  obtain ⟨s2, e2, r2, l2⟩ := printf_text r1 ['}'] (by decide)
  refine ⟨s2, ?_, ?_, fun h => absurd (l2 h).1 hm1⟩
  · rw [dPrint, RVals.length, e1, andThen_none, if_neg (by decide), andThen_none, e2]
  · simp only [lay, contText, List.append_nil, List.length_nil, Nat.add_zero]
    have : t ++ " (len = ".toList ++ natStr 0 ++ ") {".toList ++ ['}'] = t ++ " (len = 0) {}".toList := by
      rw [List.append_assoc, List.append_assoc, List.append_assoc]; congr 1
    rw [List.append_assoc, this] at r2
    exact r2

theorem prints_slice_cons {q : QuoteTable} {t : Str} {x : RVal} {xs : RVals} (ht : '\n' ∉ t) (h : ElemsAs q (.cons x xs)) : PrintsAs q (.slice t (.cons x xs)) := by
  intro s T i k m hr
  obtain ⟨s1, e1, r1, l1⟩ := printf_text hr (t ++ " (len = ".toList ++ natStr (xs.length + 1) ++ ") {".toList)
    (by simp only [List.mem_append, not_or]; exact ⟨⟨⟨ht, by decide⟩, natStr_nl _⟩, by decide⟩)
  have hm1 : s1.last ≠ '\n' := fun h => by have := (l1 h).2; simp at this
  obtain ⟨s2, e2, r2, l2⟩ := r1.indentBy hm1 (· + 1)
  obtain ⟨s3, e3, f3⟩ := printf_fresh r2 l2
  obtain ⟨s4, e4, f4⟩ := h _ _ _ _ _ 0 f3
  obtain ⟨s5, e5, f5⟩ := f4.indentBy (· - 1)
  obtain ⟨s6, e6, r6, l6⟩ := printf_text f5.ready ['}'] (by decide)
  refine ⟨s6, ?_, ?_, fun h => by have := (l6 h).2; cases this⟩
  · rw [dPrint, RVals.length, e1, andThen_none, if_pos (Nat.succ_pos _), e2, andThen_none, e3, andThen_none, e4, andThen_none, e5, andThen_none, e6]
  · simp only [lay]
    rw [cont_close]
    simp only [List.length_append, List.length_singleton]
    rw [show k + ((layElems q (i + 1) (k + 1) m 0 (.cons x xs)).1.length + 1) = k + 1 + (layElems q (i + 1) (k + 1) m 0 (.cons x xs)).1.length by omega]
    have hi : i + 1 - 1 = i := by omega
    simp only [hi] at r6
    simpa using r6

theorem prints_struct {q : QuoteTable} {t : Str} {fs : RFields} (ht : '\n' ∉ t) (h : FirstAs q fs) : PrintsAs q (.struct t fs) := by
  intro s T i k m hr
  obtain ⟨s1, e1, r1, l1⟩ := printf_text hr (t ++ " {".toList)
    (by simp only [List.mem_append, not_or]; exact ⟨ht, by decide⟩)
  have hm1 : s1.last ≠ '\n' := fun h => by have := (l1 h).2; simp at this
  obtain ⟨s2, e2, r2, l2⟩ := r1.indentBy hm1 (· + 1)
  obtain ⟨s3, e3, h3⟩ := h _ _ _ _ _ r2 l2
  have hi : i + 1 - 1 = i := by omega
  rcases h3 with ⟨h0, r3, l3⟩ | ⟨h0, f3⟩
  · obtain ⟨s4, e4, r4, l4⟩ := r3.indentBy l3 (· - 1)
    obtain ⟨s5, e5, r5, l5⟩ := printf_text r4 ['}'] (by decide)
    refine ⟨s5, ?_, ?_, fun h => absurd (l5 h).1 l4⟩
    · rw [dPrint, e1, andThen_none, e2, andThen_none, e3, andThen_none, e4, andThen_none, e5]
    · simp only [lay, if_pos h0, contText, List.append_nil, List.length_nil, Nat.add_zero]
      simp only [hi] at r5
      have : t ++ " {".toList ++ ['}'] = t ++ " {}".toList := by rw [List.append_assoc]; congr 1
      rw [List.append_assoc, this] at r5
      exact r5
  · obtain ⟨s4, e4, f4⟩ := f3.indentBy (· - 1)
    obtain ⟨s5, e5, r5, l5⟩ := printf_text f4.ready ['}'] (by decide)
    refine ⟨s5, ?_, ?_, fun h => by have := (l5 h).2; cases this⟩
    · rw [dPrint, e1, andThen_none, e2, andThen_none, e3, andThen_none, e4, andThen_none, e5]
    · simp only [lay, if_neg h0]
      rw [cont_close]
      simp only [List.length_append, List.length_singleton]
      rw [show k + ((layFields q (i + 1) (k + 1) m fs).1.length + 1) = k + 1 + (layFields q (i + 1) (k + 1) m fs).1.length by omega]
      simp only [hi] at r5
      simpa using r5

mutual
theorem prints (q : QuoteTable) : ∀ x, RVal.flat x → PrintsAs q x
  | .nil, _ => prints_text (t := "nil".toList) (by decide) (fun s => by rw [dPrint]) (fun i k m => by rw [lay])
  | .ptr a x, h => prints_ptr a (prints q x (by rw [RVal.flat] at h; exact h))
  | .slice t .nil, h => prints_slice_nil (by rw [RVal.flat] at h; exact h.1)
  | .slice t (.cons x xs), h => by
    rw [RVal.flat] at h
    exact prints_slice_cons h.1 (elems q (.cons x xs) h.2)
  | .struct t fs, h => by
    rw [RVal.flat] at h
    exact prints_struct h.1 (fields q fs h.2).2
  | .string t, _ => prints_text (quoteStr_nl q t) (fun s => by rw [dPrint]) (fun i k m => by rw [lay])
  | .other t, h => prints_text (by rw [RVal.flat] at h; exact h) (fun s => by rw [dPrint]) (fun i k m => by rw [lay])
theorem elems (q : QuoteTable) : ∀ xs, RVals.flat xs → ElemsAs q xs
  | .nil, _ => elems_nil q
  | .cons x xs, h => by
    rw [RVals.flat] at h
    exact elems_cons (prints q x h.1) (elems q xs h.2)
theorem fields (q : QuoteTable) : ∀ fs, RFields.flat fs → FieldsAs q fs ∧ FirstAs q fs
  | .nil, _ => ⟨fields_nil q, first_nil q⟩
  | .cons n x fs, h => by
    rw [RFields.flat] at h
    have h1 := fields_cons h.1.1 (prints q x h.2.1) (fields q fs h.2.2).1
    exact ⟨h1, first_cons h1 (fields q fs h.2.2).2⟩
end

/-- A dump is its lines, numbered from 0. -/
theorem dump_lines (q : QuoteTable) (x : RVal) (h : RVal.flat x) (hne : x ≠ .other []) : astDump q x = .ok (renderLines 0 (dumpLines q x)) := by
  have h0 : Fresh {} [] 0 0 [] := ⟨rfl, rfl, rfl, rfl, rfl⟩
  obtain ⟨s1, e1, r1, l1⟩ := prints q x h _ _ _ _ _ h0.ready
  have hm : s1.last ≠ '\n' := by
    intro e
    obtain ⟨_, h1, h2⟩ := l1 e
    cases x with
    | nil => rw [lay] at h1; cases h1
    | ptr a x => rw [lay] at h1; simp only [dLookup] at h1; cases h1
    | slice t xs => cases xs <;> rw [lay] at h1 <;> simp at h1
    | struct t fs =>
      rw [lay] at h1
      simp only at h1
      split at h1 <;> simp at h1
    | string t => rw [lay] at h1; simp [quoteStr] at h1
    | other t => rw [lay] at h1; simp only at h1; subst h1; exact hne rfl
  obtain ⟨s2, e2, f2⟩ := printf_fresh r1 hm
  have : goFprint q noErr x = (s2, none) := by rw [goFprint, e1, andThen_none, e2]
  have hd : astDump q x = .ok s2.out.flatten := by
    show (match astFprint q noErr x with | (_, some e) => Res.err e | (out, none) => Res.ok out.flatten) = _
    rw [astFprint, this]
  rw [hd, f2.text, dumpLines, render_cont]
  simp

end Verif.Proof.Dump

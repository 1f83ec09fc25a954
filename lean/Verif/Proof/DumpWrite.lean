import Verif.Model.Dump
/-!
# The dump and a writer that fails
-/
namespace Verif.Proof.Dump
open Verif

/-- No write fails. -/
def noErr : List Str → Option Err := fun _ => none

/-- How a run `r` from the state `s` with failing writes is related to the run `r0` without: it is the same up to the first write that fails. -/
def Follows (ans : List Str → Option Err) (s : DumpState) (r r0 : DumpOut) : Prop :=
  r0.2 = none ∧ ∃ new, r0.1.out = s.out ++ new ∧
    ((r = r0 ∧ ∀ j, j < new.length → ans (s.out ++ new.take (j + 1)) = none) ∨
      ∃ j e, j < new.length ∧ r.1.out = s.out ++ new.take (j + 1) ∧ r.2 = some e ∧ ans (s.out ++ new.take (j + 1)) = some e ∧
        ∀ i, i < j → ans (s.out ++ new.take (i + 1)) = none)

theorem follows_id (ans : List Str → Option Err) (s s' : DumpState) (h : s'.out = s.out) : Follows ans s (s', none) (s', none) :=
  ⟨rfl, [], by simp [h], .inl ⟨rfl, by intro j h; simp at h⟩⟩

theorem follows_andThen {ans : List Str → Option Err} {s : DumpState} {r r0 : DumpOut} {f f0 : DumpState → DumpOut} (h : Follows ans s r r0)
    (hf : ∀ s', Follows ans s' (f s') (f0 s')) : Follows ans s (r.andThen f) (r0.andThen f0) := by
  obtain ⟨s1, o1⟩ := r0
  obtain ⟨h0, new, hnew, hr⟩ := h
  simp only at h0 hnew
  subst h0
  obtain ⟨k0, new', hnew', hr'⟩ := hf s1
  refine ⟨k0, new ++ new', ?_, ?_⟩
  · show (f0 s1).1.out = _
    rw [hnew', hnew, List.append_assoc]
  · rcases hr with ⟨rfl, ha⟩ | ⟨j, e, hj, ho, he, hans, hbefore⟩
    · have htake : ∀ j, j < new'.length → s.out ++ (new ++ new').take (new.length + j + 1) = s1.out ++ new'.take (j + 1) := by
        intro j _
        rw [hnew, List.append_assoc, List.take_append, List.take_of_length_le (by omega)]
        congr 2; congr 1; omega
      have hearly : ∀ j, j < new.length → ans (s.out ++ (new ++ new').take (j + 1)) = none := by
        intro j hj
        rw [List.take_append_of_le_length (by omega)]
        exact ha j hj
      rcases hr' with ⟨e', ha'⟩ | ⟨j, e, hj, ho, he, hans, hbefore⟩
      · left
        refine ⟨e', ?_⟩
        intro j hj
        by_cases hlt : j < new.length
        · exact hearly j hlt
        · rw [List.length_append] at hj
          have := ha' (j - new.length) (by omega)
          rw [← htake _ (by omega)] at this
          rwa [show new.length + (j - new.length) + 1 = j + 1 by omega] at this
      · right
        refine ⟨new.length + j, e, by rw [List.length_append]; omega, ?_, he, ?_, ?_⟩
        · rw [htake j hj]; exact ho
        · rw [htake j hj]; exact hans
        · intro i hi
          by_cases hlt : i < new.length
          · exact hearly i hlt
          · have := hbefore (i - new.length) (by omega)
            rw [← htake _ (by omega)] at this
            rwa [show new.length + (i - new.length) + 1 = i + 1 by omega] at this
    · right
      obtain ⟨sr, or⟩ := r
      simp only at he ho
      subst he
      refine ⟨j, e, by rw [List.length_append]; omega, ?_, rfl, ?_, ?_⟩
      · rw [List.take_append_of_le_length (by omega)]; exact ho
      · rw [List.take_append_of_le_length (by omega)]; exact hans
      · intro i hi
        rw [List.take_append_of_le_length (by omega)]; exact hbefore i hi

theorem follows_emit (ans : List Str → Option Err) (data : Str) (s : DumpState) : Follows ans s (dEmit ans data s) (dEmit noErr data s) := by
  refine ⟨rfl, [data], rfl, ?_⟩
  cases h : ans (s.out ++ [data]) with
  | none =>
    left
    refine ⟨by simp only [dEmit, h, noErr], ?_⟩
    intro j hj
    have : j = 0 := by simp at hj; exact hj
    subst this; exact h
  | some e =>
    right
    refine ⟨0, e, by simp, rfl, h, h, by intro i hi; omega⟩

theorem follows_indent (ans : List Str → Option Err) : ∀ j s, Follows ans s (dIndent ans j s) (dIndent noErr j s)
  | 0, s => follows_id ans s s rfl
  | j + 1, s => follows_andThen (follows_emit ans _ s) (follows_indent ans j)

theorem follows_out {ans : List Str → Option Err} {s s' : DumpState} {r r0 : DumpOut} (h : Follows ans s' r r0) (e : s'.out = s.out) : Follows ans s r r0 := by
  unfold Follows at *
  rw [← e]; exact h

theorem follows_writeLoop (ans : List Str → Option Err) : ∀ data seg s, Follows ans s (dWriteLoop ans seg data s) (dWriteLoop noErr seg data s)
  | [], seg, s => by
    simp only [dWriteLoop]
    split
    · exact follows_id ans s s rfl
    · exact follows_emit ans seg s
  | b :: data, seg, s => by
    simp only [dWriteLoop]
    split
    · refine follows_andThen (follows_emit ans _ s) ?_
      intro s'
      exact follows_out (follows_writeLoop ans data [] _) rfl
    · split
      · refine follows_andThen (follows_andThen (follows_emit ans _ s) ?_) ?_
        · intro s'; exact follows_indent ans _ s'
        · intro s'; exact follows_out (follows_writeLoop ans data _ _) rfl
      · exact follows_out (follows_writeLoop ans data _ _) rfl

theorem follows_printf (ans : List Str → Option Err) (t : Str) (s : DumpState) : Follows ans s (dPrintf ans t s) (dPrintf noErr t s) :=
  follows_writeLoop ans t [] s

theorem follows_indentBy (ans : List Str → Option Err) (f : Nat → Nat) (s : DumpState) : Follows ans s (dIndentBy f s) (dIndentBy f s) :=
  follows_id ans s _ rfl

mutual
theorem follows_print (q : QuoteTable) (ans : List Str → Option Err) : ∀ x s, Follows ans s (dPrint q ans x s) (dPrint q noErr x s)
  | .nil, s => by simp only [dPrint]; exact follows_printf ans _ s
  | .ptr a x, s => by
    simp only [dPrint]
    refine follows_andThen (follows_printf ans _ s) ?_
    intro s'
    cases dLookup a s'.ptrmap with
    | some l => exact follows_printf ans _ s'
    | none => exact follows_out (follows_print q ans x _) rfl
  | .slice t xs, s => by
    simp only [dPrint]
    refine follows_andThen (follows_printf ans _ s) ?_
    intro s'
    split
    · exact follows_andThen (follows_andThen (follows_andThen (follows_andThen (follows_indentBy ans _ s') (follows_printf ans _)) (follows_elems q ans 0 xs)) (follows_indentBy ans _))
        (follows_printf ans _)
    · exact follows_andThen (follows_id ans s' s' rfl) (follows_printf ans _)
  | .struct t fs, s => by
    simp only [dPrint]
    exact follows_andThen (follows_andThen (follows_andThen (follows_andThen (follows_printf ans _ s) (follows_indentBy ans _)) (follows_fields q ans true fs)) (follows_indentBy ans _))
      (follows_printf ans _)
  | .string t, s => by simp only [dPrint]; exact follows_printf ans _ s
  | .other t, s => by simp only [dPrint]; exact follows_printf ans _ s
theorem follows_elems (q : QuoteTable) (ans : List Str → Option Err) : ∀ i xs s, Follows ans s (dElems q ans i xs s) (dElems q noErr i xs s)
  | _, .nil, s => by simp only [dElems]; exact follows_id ans s s rfl
  | i, .cons x xs, s => by
    simp only [dElems]
    exact follows_andThen (follows_andThen (follows_andThen (follows_printf ans _ s) (follows_print q ans x)) (follows_printf ans _)) (follows_elems q ans (i + 1) xs)
theorem follows_fields (q : QuoteTable) (ans : List Str → Option Err) : ∀ first fs s, Follows ans s (dFields q ans first fs s) (dFields q noErr first fs s)
  | _, .nil, s => by simp only [dFields]; exact follows_id ans s s rfl
  | first, .cons n x fs, s => by
    simp only [dFields]
    split
    · refine follows_andThen (follows_andThen (follows_andThen (follows_andThen ?_ (follows_printf ans _)) (follows_print q ans x)) (follows_printf ans _)) (follows_fields q ans false fs)
      split
      · exact follows_printf ans _ s
      · exact follows_id ans s s rfl
    · exact follows_fields q ans first fs s
end

theorem follows_fprint (q : QuoteTable) (ans : List Str → Option Err) (x : RVal) : Follows ans {} (goFprint q ans x) (goFprint q noErr x) :=
  follows_andThen (follows_print q ans x {}) (follows_printf ans _)

end Verif.Proof.Dump

import Verif.Spec.Dump
/-!
# Without sharing the dump does not depend on the addresses
-/
namespace Verif.Proof.Dump
open Verif Verif.Spec

/-- The same state but for the pointers seen. -/
def Same (s s' : DumpState) : Prop := s' = { s with ptrmap := s'.ptrmap }

theorem Same.refl (s : DumpState) : Same s s := rfl

theorem same_mk (s : DumpState) (m : List (Nat × Nat)) : Same s { s with ptrmap := m } := rfl

/-- Addresses that have not been seen. -/
def Unseen (A : List Nat) (s : DumpState) : Prop := ∀ a ∈ A, dLookup a s.ptrmap = none

/-- The same outcome; if it goes on, only the addresses `A` (`A'`) have been added. -/
def SameR (A A' : List Nat) (s s' : DumpState) (r r' : DumpOut) : Prop :=
  Same r.1 r'.1 ∧ r.2 = r'.2 ∧ (∀ b, b ∉ A → dLookup b s.ptrmap = none → dLookup b r.1.ptrmap = none) ∧ (∀ b, b ∉ A' → dLookup b s'.ptrmap = none → dLookup b r'.1.ptrmap = none)

theorem sameR_id {A A' s s'} (h : Same s s') : SameR A A' s s' (s, none) (s', none) := ⟨h, rfl, fun _ _ h => h, fun _ _ h => h⟩

theorem sameR_andThen {A A' B B' : List Nat} {s s' : DumpState} {r r' : DumpOut} {f f' : DumpState → DumpOut} (h : SameR A A' s s' r r')
    (hf : ∀ s1 s1', Same s1 s1' → (∀ b, b ∉ A → dLookup b s.ptrmap = none → dLookup b s1.ptrmap = none) →
      (∀ b, b ∉ A' → dLookup b s'.ptrmap = none → dLookup b s1'.ptrmap = none) → SameR B B' s1 s1' (f s1) (f' s1')) :
    SameR (A ++ B) (A' ++ B') s s' (r.andThen f) (r'.andThen f') := by
  obtain ⟨s1, o⟩ := r
  obtain ⟨s1', o'⟩ := r'
  obtain ⟨h1, h2, h3, h4⟩ := h
  simp only at h1 h2 h3 h4
  subst h2
  cases o with
  | some e =>
    refine ⟨h1, rfl, ?_, ?_⟩
    · intro b hb hs; exact h3 b (fun h => hb (List.mem_append_left _ h)) hs
    · intro b hb hs; exact h4 b (fun h => hb (List.mem_append_left _ h)) hs
  | none =>
    obtain ⟨k1, k2, k3, k4⟩ := hf s1 s1' h1 h3 h4
    refine ⟨k1, k2, ?_, ?_⟩
    · intro b hb hs
      exact k3 b (fun h => hb (List.mem_append_right _ h)) (h3 b (fun h => hb (List.mem_append_left _ h)) hs)
    · intro b hb hs
      exact k4 b (fun h => hb (List.mem_append_right _ h)) (h4 b (fun h => hb (List.mem_append_left _ h)) hs)

theorem sameR_first {B B' : List Nat} {s s' : DumpState} {r r' : DumpOut} {f f' : DumpState → DumpOut} (h : SameR [] [] s s' r r')
    (hf : ∀ s1 s1', Same s1 s1' → (∀ b, dLookup b s.ptrmap = none → dLookup b s1.ptrmap = none) →
      (∀ b, dLookup b s'.ptrmap = none → dLookup b s1'.ptrmap = none) → SameR B B' s1 s1' (f s1) (f' s1')) :
    SameR B B' s s' (r.andThen f) (r'.andThen f') :=
  sameR_andThen (A := []) (A' := []) h fun s1 s1' e a b => hf s1 s1' e (fun x => a x (by simp)) (fun x => b x (by simp))

theorem sameR_last {B B' : List Nat} {s s' : DumpState} {r r' : DumpOut} {f f' : DumpState → DumpOut} (h : SameR B B' s s' r r')
    (hf : ∀ s1 s1', Same s1 s1' → SameR [] [] s1 s1' (f s1) (f' s1')) : SameR B B' s s' (r.andThen f) (r'.andThen f') := by
  have := sameR_andThen (B := []) (B' := []) h fun s1 s1' e _ _ => hf s1 s1' e
  rwa [List.append_nil, List.append_nil] at this

theorem same_fields {s s' : DumpState} (h : Same s s') : s'.indent = s.indent ∧ s'.last = s.last ∧ s'.line = s.line ∧ s'.out = s.out := by
  unfold Same at h; rw [h]; exact ⟨rfl, rfl, rfl, rfl⟩

theorem same_of {s s' : DumpState} (h1 : s'.indent = s.indent) (h2 : s'.last = s.last) (h3 : s'.line = s.line) (h4 : s'.out = s.out) : Same s s' := by
  cases s; cases s'; simp only at h1 h2 h3 h4; subst h1 h2 h3 h4; rfl

theorem same_emit {ans d s s'} (h : Same s s') : SameR [] [] s s' (dEmit ans d s) (dEmit ans d s') := by
  obtain ⟨h1, h2, h3, h4⟩ := same_fields h
  refine ⟨same_of h1 h2 h3 (by show s'.out ++ [d] = s.out ++ [d]; rw [h4]), ?_, fun _ _ h => h, fun _ _ h => h⟩
  show ans (s.out ++ [d]) = ans (s'.out ++ [d])
  rw [h4]

theorem same_indent {ans} : ∀ {j s s'}, Same s s' → SameR [] [] s s' (dIndent ans j s) (dIndent ans j s')
  | 0, _, _, h => sameR_id h
  | _ + 1, _, _, h => sameR_first (same_emit h) fun _ _ e _ _ => same_indent e

theorem sameR_start {B B' : List Nat} {s s' t t' : DumpState} {r r' : DumpOut} (h : SameR B B' t t' r r') (e : t.ptrmap = s.ptrmap) (e' : t'.ptrmap = s'.ptrmap) : SameR B B' s s' r r' := by
  unfold SameR at *; rw [← e, ← e']; exact h

theorem same_writeLoop {ans} : ∀ {data seg s s'}, Same s s' → SameR [] [] s s' (dWriteLoop ans seg data s) (dWriteLoop ans seg data s')
  | [], seg, s, s', h => by
    rw [dWriteLoop, dWriteLoop]
    split
    · exact sameR_id h
    · exact same_emit h
  | b :: data, seg, s, s', h => by
    rw [dWriteLoop, dWriteLoop]
    obtain ⟨h1, h2, h3, h4⟩ := same_fields h
    by_cases hb : b = '\n'
    · rw [if_pos hb, if_pos hb]
      refine sameR_first (same_emit h) ?_
      intro s1 s1' e _ _
      obtain ⟨k1, k2, k3, k4⟩ := same_fields e
      exact sameR_start (same_writeLoop (same_of k1 rfl (by show s1'.line + 1 = s1.line + 1; rw [k3]) k4)) rfl rfl
    · rw [if_neg hb, if_neg hb, h2]
      by_cases hl : s.last = '\n'
      · rw [if_pos hl, if_pos hl, h3]
        refine sameR_first (sameR_first (same_emit h) ?_) ?_
        · intro s1 s1' e _ _
          obtain ⟨k1, k2, k3, k4⟩ := same_fields e
          rw [k1]; exact same_indent e
        · intro s1 s1' e _ _
          obtain ⟨k1, k2, k3, k4⟩ := same_fields e
          exact sameR_start (same_writeLoop (same_of k1 rfl k3 k4)) rfl rfl
      · rw [if_neg hl, if_neg hl]
        exact sameR_start (same_writeLoop (same_of h1 rfl h3 h4)) rfl rfl

theorem same_printf {ans t s s'} (h : Same s s') : SameR [] [] s s' (dPrintf ans t s) (dPrintf ans t s') := same_writeLoop h

theorem same_indentBy {f s s'} (h : Same s s') : SameR [] [] s s' (dIndentBy f s) (dIndentBy f s') := by
  obtain ⟨h1, h2, h3, h4⟩ := same_fields h
  exact ⟨same_of (by show f s'.indent = f s.indent; rw [h1]) h2 h3 h4, rfl, fun _ _ h => h, fun _ _ h => h⟩

theorem strip_len : ∀ {xs xs' : RVals}, xs.strip = xs'.strip → xs.length = xs'.length
  | .nil, .nil, _ => rfl
  | .nil, .cons _ _, h => by rw [RVals.strip, RVals.strip] at h; cases h
  | .cons _ _, .nil, h => by rw [RVals.strip, RVals.strip] at h; cases h
  | .cons _ _, .cons _ _, h => by
    rw [RVals.strip, RVals.strip] at h
    injection h with _ h
    rw [RVals.length, RVals.length, strip_len h]

theorem strip_notNil' {x x' : RVal} (h : x.strip = x'.strip) : x.notNil = x'.notNil := by
  cases x <;> cases x' <;> simp only [RVal.strip] at h <;> first | rfl | cases h

mutual
theorem same_print (q : QuoteTable) (ans : List Str → Option Err) : ∀ (t t' : RVal) (s s' : DumpState), t.strip = t'.strip → (addrs t).Nodup → (addrs t').Nodup →
    Unseen (addrs t) s → Unseen (addrs t') s' → Same s s' → SameR (addrs t) (addrs t') s s' (dPrint q ans t s) (dPrint q ans t' s')
  | .nil, t', s, s', h, _, _, _, _, hs => by
    cases t' <;> simp only [RVal.strip] at h <;> try cases h
    simp only [dPrint, addrs]; exact same_printf hs
  | .ptr a x, t', s, s', h, hn, hn', hu, hu', hs => by
    cases t' <;> simp only [RVal.strip] at h <;> try cases h
    rename_i a' x'
    injection h with _ h
    simp only [dPrint, addrs] at hn hn' hu hu' ⊢
    rw [List.nodup_cons] at hn hn'
    refine sameR_first (same_printf hs) ?_
    intro s1 s1' e k k'
    rw [k a (hu a (by simp)), k' a' (hu' a' (by simp))]
    simp only
    obtain ⟨e1, e2, e3, e4⟩ := same_fields e
    obtain ⟨r1, r2, r3, r4⟩ := same_print q ans x x' { s1 with ptrmap := (a, s1.line) :: s1.ptrmap } { s1' with ptrmap := (a', s1'.line) :: s1'.ptrmap } h hn.2 hn'.2
      (by
        intro b hb
        show dLookup b ((a, s1.line) :: s1.ptrmap) = none
        rw [dLookup, if_neg (by rintro rfl; exact hn.1 hb)]
        exact k b (hu b (by simp [hb])))
      (by
        intro b hb
        show dLookup b ((a', s1'.line) :: s1'.ptrmap) = none
        rw [dLookup, if_neg (by rintro rfl; exact hn'.1 hb)]
        exact k' b (hu' b (by simp [hb])))
      (same_of e1 e2 e3 e4)
    refine ⟨r1, r2, ?_, ?_⟩
    · intro b hb hbs
      simp only [List.mem_cons, not_or] at hb
      refine r3 b hb.2 ?_
      show dLookup b ((a, s1.line) :: s1.ptrmap) = none
      rw [dLookup, if_neg (fun e => hb.1 e.symm)]; exact hbs
    · intro b hb hbs
      simp only [List.mem_cons, not_or] at hb
      refine r4 b hb.2 ?_
      show dLookup b ((a', s1'.line) :: s1'.ptrmap) = none
      rw [dLookup, if_neg (fun e => hb.1 e.symm)]; exact hbs
  | .slice ty xs, t', s, s', h, hn, hn', hu, hu', hs => by
    cases t' <;> simp only [RVal.strip] at h <;> try cases h
    rename_i ty' xs'
    injection h with ht h
    subst ht
    have hlen := strip_len h
    simp only [dPrint, addrs] at hn hn' hu hu' ⊢
    rw [← hlen]
    refine sameR_first (same_printf hs) ?_
    intro s1 s1' e k k'
    refine sameR_last ?_ (fun _ _ e => same_printf e)
    split
    · refine sameR_last ?_ (fun _ _ e => same_indentBy e)
      refine sameR_first (sameR_first (same_indentBy e) fun _ _ e _ _ => same_printf e) ?_
      intro s2 s2' e2 k2 k2'
      exact same_elems q ans 0 xs xs' s2 s2' h hn hn' (fun b hb => k2 b (k b (hu b hb))) (fun b hb => k2' b (k' b (hu' b hb))) e2
    · exact sameR_id e
  | .struct ty fs, t', s, s', h, hn, hn', hu, hu', hs => by
    cases t' <;> simp only [RVal.strip] at h <;> try cases h
    rename_i ty' fs'
    injection h with ht h
    subst ht
    simp only [dPrint, addrs] at hn hn' hu hu' ⊢
    refine sameR_last (sameR_last (sameR_first (sameR_first (same_printf hs) fun _ _ e _ _ => same_indentBy e) ?_) (fun _ _ e => same_indentBy e)) (fun _ _ e => same_printf e)
    intro s2 s2' e2 k2 k2'
    exact same_flds q ans true fs fs' s2 s2' h hn hn' (fun b hb => k2 b (hu b hb)) (fun b hb => k2' b (hu' b hb)) e2
  | .string u, t', s, s', h, _, _, _, _, hs => by
    cases t' <;> simp only [RVal.strip] at h <;> try cases h
    simp only [dPrint, addrs]; exact same_printf hs
  | .other u, t', s, s', h, _, _, _, _, hs => by
    cases t' <;> simp only [RVal.strip] at h <;> try cases h
    simp only [dPrint, addrs]; exact same_printf hs
theorem same_elems (q : QuoteTable) (ans : List Str → Option Err) : ∀ (i : Nat) (t t' : RVals) (s s' : DumpState), t.strip = t'.strip → (addrsVs t).Nodup → (addrsVs t').Nodup →
    Unseen (addrsVs t) s → Unseen (addrsVs t') s' → Same s s' → SameR (addrsVs t) (addrsVs t') s s' (dElems q ans i t s) (dElems q ans i t' s')
  | i, .nil, t', s, s', h, _, _, _, _, hs => by
    cases t' <;> simp only [RVals.strip] at h <;> try cases h
    simp only [dElems, addrsVs]; exact sameR_id hs
  | i, .cons x xs, t', s, s', h, hn, hn', hu, hu', hs => by
    cases t' <;> simp only [RVals.strip] at h <;> try cases h
    rename_i x' xs'
    injection h with h1 h2
    simp only [dElems, addrsVs] at hn hn' hu hu' ⊢
    rw [List.nodup_append] at hn hn'
    refine sameR_andThen (sameR_last (sameR_first (same_printf hs) ?_) (fun _ _ e => same_printf e)) ?_
    · intro s1 s1' e k k'
      exact same_print q ans x x' s1 s1' h1 hn.1 hn'.1 (fun b hb => k b (hu b (by simp [hb]))) (fun b hb => k' b (hu' b (by simp [hb]))) e
    · intro s1 s1' e k k'
      exact same_elems q ans (i + 1) xs xs' s1 s1' h2 hn.2.1 hn'.2.1 (fun b hb => k b (fun hx => hn.2.2 b hx b hb rfl) (hu b (by simp [hb])))
        (fun b hb => k' b (fun hx => hn'.2.2 b hx b hb rfl) (hu' b (by simp [hb]))) e
theorem same_flds (q : QuoteTable) (ans : List Str → Option Err) : ∀ (first : Bool) (t t' : RFields) (s s' : DumpState), t.strip = t'.strip → (addrsFs t).Nodup → (addrsFs t').Nodup →
    Unseen (addrsFs t) s → Unseen (addrsFs t') s' → Same s s' → SameR (addrsFs t) (addrsFs t') s s' (dFields q ans first t s) (dFields q ans first t' s')
  | first, .nil, t', s, s', h, _, _, _, _, hs => by
    cases t' <;> simp only [RFields.strip] at h <;> try cases h
    simp only [dFields, addrsFs]; exact sameR_id hs
  | first, .cons n x fs, t', s, s', h, hn, hn', hu, hu', hs => by
    cases t' <;> simp only [RFields.strip] at h <;> try cases h
    rename_i n' x' fs'
    injection h with h0 h1 h2
    subst h0
    have hnil := strip_notNil' h1
    simp only [dFields, addrsFs] at hn hn' hu hu' ⊢
    rw [List.nodup_append] at hn hn'
    rw [← hnil]
    by_cases hx : x.notNil = true
    · rw [if_pos hx, if_pos hx]
      refine sameR_andThen (sameR_last (sameR_first (sameR_first ?_ fun _ _ e _ _ => same_printf e) ?_) (fun _ _ e => same_printf e)) ?_
      · split
        · exact same_printf hs
        · exact sameR_id hs
      · intro s1 s1' e k k'
        exact same_print q ans x x' s1 s1' h1 hn.1 hn'.1 (fun b hb => k b (hu b (by simp [hb]))) (fun b hb => k' b (hu' b (by simp [hb]))) e
      · intro s1 s1' e k k'
        exact same_flds q ans false fs fs' s1 s1' h2 hn.2.1 hn'.2.1 (fun b hb => k b (fun hx => hn.2.2 b hx b hb rfl) (hu b (by simp [hb])))
          (fun b hb => k' b (fun hx => hn'.2.2 b hx b hb rfl) (hu' b (by simp [hb]))) e
    · rw [if_neg hx, if_neg hx]
      obtain ⟨r1, r2, r3, r4⟩ := same_flds q ans first fs fs' s s' h2 hn.2.1 hn'.2.1 (fun b hb => hu b (by simp [hb])) (fun b hb => hu' b (by simp [hb])) hs
      exact ⟨r1, r2, fun b hb => r3 b (fun h => hb (by simp [h])), fun b hb => r4 b (fun h => hb (by simp [h]))⟩
end

/-- The writes and the error are the same. -/
theorem same_fprint (q : QuoteTable) (ans : List Str → Option Err) {t t' : RVal} (h : t.strip = t'.strip) (hn : (addrs t).Nodup) (hn' : (addrs t').Nodup) :
    astFprint q ans t = astFprint q ans t' := by
  have := sameR_last (same_print q ans t t' {} {} h hn hn' (fun _ _ => rfl) (fun _ _ => rfl) rfl) (f := dPrintf ans ['\n']) (f' := dPrintf ans ['\n']) (fun _ _ e => same_printf e)
  obtain ⟨h1, h2, _⟩ := this
  unfold astFprint goFprint
  rw [h2, (same_fields h1).2.2.2]

end Verif.Proof.Dump

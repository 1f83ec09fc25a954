import Verif.Proof.DumpRead
/-!
# From equal dumps to equal values
-/
namespace Verif.Proof.Dump
open Verif Verif.Spec

/-! ## The lines can be read -/

theorem digit_ne_dot {n : Nat} {u : Str} : (natStr n ++ u).head? ≠ some '.' := by
  intro h
  cases hn : natStr n with
  | nil =>
    have := congrArg List.length hn
    have h2 := Nat.length_toDigits_pos (b := 10) (n := n)
    rw [natStr] at hn
    rw [hn] at h2; simp at h2
  | cons c t =>
    rw [hn] at h
    injection h with h
    have := Verif.Proof.natStr_digit (n := n) (c := c) (by rw [hn]; simp)
    rw [h] at this
    revert this; decide

mutual
theorem lay_good (q : QuoteTable) : ∀ x i k m, RVal.flat x → '\n' ∉ (lay q i k m x).1.1 ∧ ∀ l ∈ (lay q i k m x).1.2, GoodLine l
  | .nil, i, k, m, h => by rw [lay]; exact ⟨show '\n' ∉ "nil".toList by decide, by simp⟩
  | .ptr a x, i, k, m, h => by
    rw [RVal.flat] at h
    rw [lay_ptr]
    cases dLookup a m with
    | some l =>
      refine ⟨?_, by simp⟩
      simp only [List.mem_append, not_or]
      exact ⟨⟨by decide, natStr_nl l⟩, by decide⟩
    | none =>
      obtain ⟨h1, h2⟩ := lay_good q x i k ((a, k) :: m) h
      refine ⟨?_, h2⟩
      simp only [List.mem_cons, not_or]
      exact ⟨by decide, h1⟩
  | .slice t .nil, i, k, m, h => by
    rw [RVal.flat] at h
    rw [lay]
    refine ⟨?_, by simp⟩
    simp only [List.mem_append, not_or]
    exact ⟨h.1, by decide⟩
  | .slice t (.cons x xs), i, k, m, h => by
    rw [RVal.flat] at h
    rw [lay]
    refine ⟨?_, ?_⟩
    · simp only [List.mem_append, not_or]
      exact ⟨⟨⟨h.1, by decide⟩, natStr_nl _⟩, by decide⟩
    · intro l hl
      rcases List.mem_append.1 hl with hl | hl
      · exact layElems_good q (.cons x xs) _ _ _ _ h.2 l hl
      · rw [List.mem_singleton.1 hl]; exact ⟨show '\n' ∉ ['}'] by decide, show ['}'].head? ≠ some '.' by decide⟩
  | .struct t fs, i, k, m, h => by
    rw [RVal.flat] at h
    rw [lay]
    simp only
    split
    · refine ⟨?_, by simp⟩
      simp only [List.mem_append, not_or]
      exact ⟨h.1, by decide⟩
    · refine ⟨?_, ?_⟩
      · simp only [List.mem_append, not_or]
        exact ⟨h.1, by decide⟩
      · intro l hl
        rcases List.mem_append.1 hl with hl | hl
        · exact layFields_good q fs _ _ _ h.2 l hl
        · rw [List.mem_singleton.1 hl]; exact ⟨show '\n' ∉ ['}'] by decide, show ['}'].head? ≠ some '.' by decide⟩
  | .string s, i, k, m, h => by rw [lay]; exact ⟨quoteStr_nl q s, by simp⟩
  | .other s, i, k, m, h => by rw [lay]; rw [RVal.flat] at h; exact ⟨h, by simp⟩
theorem layElems_good (q : QuoteTable) : ∀ xs i k m j, RVals.flat xs → ∀ l ∈ (layElems q i k m j xs).1, GoodLine l
  | .nil, i, k, m, j, h => by rw [layElems]; simp
  | .cons x xs, i, k, m, j, h => by
    rw [RVals.flat] at h
    rw [layElems]
    obtain ⟨h1, h2⟩ := lay_good q x i k m h.1
    intro l hl
    rcases List.mem_cons.1 hl with rfl | hl
    · refine ⟨?_, ?_⟩
      · simp only [List.mem_append, not_or]
        exact ⟨⟨natStr_nl j, by decide⟩, h1⟩
      · simp only [List.append_assoc]; exact digit_ne_dot
    · rcases List.mem_append.1 hl with hl | hl
      · exact h2 l hl
      · exact layElems_good q xs _ _ _ _ h.2 l hl
theorem layFields_good (q : QuoteTable) : ∀ fs i k m, RFields.flat fs → ∀ l ∈ (layFields q i k m fs).1, GoodLine l
  | .nil, i, k, m, h => by rw [layFields]; simp
  | .cons n x fs, i, k, m, h => by
    rw [RFields.flat] at h
    rw [layFields]
    split
    · obtain ⟨h1, h2⟩ := lay_good q x i k m h.2.1
      intro l hl
      rcases List.mem_cons.1 hl with rfl | hl
      · refine ⟨?_, ?_⟩
        · simp only [List.mem_append, not_or]
          exact ⟨⟨h.1.1, by decide⟩, h1⟩
        · intro e
          cases n with
          | nil => injection e with e; revert e; decide
          | cons c n => exact h.1.2 e
      · rcases List.mem_append.1 hl with hl | hl
        · exact h2 l hl
        · exact layFields_good q fs _ _ _ h.2.2 l hl
    · exact layFields_good q fs _ _ _ h.2.2
end

/-! ## Fields that are nil do not count -/

mutual
def pruneV : RVal → RVal
  | .nil => .nil
  | .ptr a x => .ptr a (pruneV x)
  | .slice t xs => .slice t (pruneVs xs)
  | .struct t fs => .struct t (pruneFs fs)
  | .string s => .string s
  | .other s => .other s
def pruneVs : RVals → RVals
  | .nil => .nil
  | .cons x xs => .cons (pruneV x) (pruneVs xs)
def pruneFs : RFields → RFields
  | .nil => .nil
  | .cons n x fs => if x.notNil = true then .cons n (pruneV x) (pruneFs fs) else pruneFs fs
end

theorem prune_notNil (x : RVal) : (pruneV x).notNil = x.notNil := by cases x <;> simp only [pruneV] <;> rfl

theorem prune_length : ∀ xs : RVals, (pruneVs xs).length = xs.length
  | .nil => by rw [pruneVs]
  | .cons x xs => by rw [pruneVs, RVals.length, RVals.length, prune_length xs]

theorem strip_notNil (x : RVal) : x.strip.notNil = x.notNil := by cases x <;> simp only [RVal.strip] <;> rfl

mutual
theorem lay_prune (q : QuoteTable) : ∀ x i k m, lay q i k m (pruneV x) = lay q i k m x
  | .nil, i, k, m => by rw [pruneV]
  | .ptr a x, i, k, m => by rw [pruneV, lay_ptr, lay_ptr, lay_prune q x]
  | .slice t .nil, i, k, m => by rw [pruneV, pruneVs]
  | .slice t (.cons x xs), i, k, m => by
    have h := layElems_prune q (.cons x xs) (i + 1) (k + 1) m 0
    rw [pruneVs] at h
    rw [pruneV, pruneVs, lay, lay, h, prune_length]
  | .struct t fs, i, k, m => by rw [pruneV, lay, lay, layFields_prune q fs]
  | .string s, i, k, m => by rw [pruneV]
  | .other s, i, k, m => by rw [pruneV]
theorem layElems_prune (q : QuoteTable) : ∀ xs i k m j, layElems q i k m j (pruneVs xs) = layElems q i k m j xs
  | .nil, i, k, m, j => by rw [pruneVs]
  | .cons x xs, i, k, m, j => by
    rw [pruneVs, layElems, layElems, lay_prune q x]
    simp only [layElems_prune q xs]
theorem layFields_prune (q : QuoteTable) : ∀ fs i k m, layFields q i k m (pruneFs fs) = layFields q i k m fs
  | .nil, i, k, m => by rw [pruneFs]
  | .cons n x fs, i, k, m => by
    rw [pruneFs]
    by_cases h : x.notNil = true
    · rw [if_pos h, layFields, layFields, prune_notNil, if_pos h, if_pos h, lay_prune q x]
      simp only [layFields_prune q fs]
    · rw [if_neg h, layFields_prune q fs, layFields, if_neg h]
end

mutual
theorem prune_strip : ∀ x : RVal, (pruneV x).strip = pruneV x.strip
  | .nil => by rw [pruneV, RVal.strip, pruneV]
  | .ptr a x => by rw [pruneV, RVal.strip, RVal.strip, pruneV, prune_strip x]
  | .slice t xs => by rw [pruneV, RVal.strip, RVal.strip, pruneV, prunes_strip xs]
  | .struct t fs => by rw [pruneV, RVal.strip, RVal.strip, pruneV, pruneFs_strip fs]
  | .string s => by rw [pruneV, RVal.strip, pruneV]
  | .other s => by rw [pruneV, RVal.strip, pruneV]
theorem prunes_strip : ∀ xs : RVals, (pruneVs xs).strip = pruneVs xs.strip
  | .nil => by rw [pruneVs, RVals.strip, pruneVs]
  | .cons x xs => by rw [pruneVs, RVals.strip, RVals.strip, pruneVs, prune_strip x, prunes_strip xs]
theorem pruneFs_strip : ∀ fs : RFields, (pruneFs fs).strip = pruneFs fs.strip
  | .nil => by rw [pruneFs, RFields.strip, pruneFs]
  | .cons n x fs => by
    rw [pruneFs, RFields.strip, pruneFs, strip_notNil]
    by_cases h : x.notNil = true
    · rw [if_pos h, if_pos h, RFields.strip, prune_strip x, pruneFs_strip fs]
    · rw [if_neg h, if_neg h, pruneFs_strip fs]
end

mutual
theorem prune_heap (H : Nat → RVal) : ∀ x, inHeap H x → inHeap (fun a => pruneV (H a)) (pruneV x)
  | .nil, h => by rw [pruneV, inHeap]; trivial
  | .ptr a x, h => by
    rw [inHeap] at h
    rw [pruneV, inHeap]
    exact ⟨by rw [← h.1], prune_heap H x h.2⟩
  | .slice t xs, h => by rw [inHeap] at h; rw [pruneV, inHeap]; exact prunes_heap H xs h
  | .struct t fs, h => by rw [inHeap] at h; rw [pruneV, inHeap]; exact pruneFs_heap H fs h
  | .string s, h => by rw [pruneV, inHeap]; trivial
  | .other s, h => by rw [pruneV, inHeap]; trivial
theorem prunes_heap (H : Nat → RVal) : ∀ xs, inHeapVs H xs → inHeapVs (fun a => pruneV (H a)) (pruneVs xs)
  | .nil, h => by rw [pruneVs, inHeapVs]; trivial
  | .cons x xs, h => by
    rw [inHeapVs] at h
    rw [pruneVs, inHeapVs]
    exact ⟨prune_heap H x h.1, prunes_heap H xs h.2⟩
theorem pruneFs_heap (H : Nat → RVal) : ∀ fs, inHeapFs H fs → inHeapFs (fun a => pruneV (H a)) (pruneFs fs)
  | .nil, h => by rw [pruneFs, inHeapFs]; trivial
  | .cons n x fs, h => by
    rw [inHeapFs] at h
    rw [pruneFs]
    split
    · rw [inHeapFs]; exact ⟨prune_heap H x h.1, pruneFs_heap H fs h.2⟩
    · exact pruneFs_heap H fs h.2
end

/-! ## Addresses do not matter for what is clear -/

theorem strip_struct (x : RVal) : IsStruct x.strip ↔ IsStruct x := by cases x <;> simp only [RVal.strip, IsStruct]

theorem strip_other (x : RVal) : (∃ s, x.strip = .other s) ↔ ∃ s, x = .other s := by
  cases x <;> simp [RVal.strip]

mutual
theorem clear_strip : ∀ x, clearV x.strip ↔ clearV x
  | .nil => by rw [RVal.strip]
  | .ptr a x => by rw [RVal.strip, clearV, clearV, clear_strip x, strip_struct]
  | .slice t xs => by rw [RVal.strip, clearV, clearV, clears_strip xs]
  | .struct t fs => by rw [RVal.strip, clearV, clearV, clearFs_strip fs]
  | .string s => by rw [RVal.strip]
  | .other s => by rw [RVal.strip]
theorem clears_strip : ∀ xs, clearVs xs.strip ↔ clearVs xs
  | .nil => by rw [RVals.strip]
  | .cons x xs => by rw [RVals.strip, clearVs, clearVs, clear_strip x, clears_strip xs]
theorem clearFs_strip : ∀ fs, clearFs fs.strip ↔ clearFs fs
  | .nil => by rw [RFields.strip]
  | .cons n x fs => by rw [RFields.strip, clearFs, clearFs, strip_notNil, strip_other, clear_strip x, clearFs_strip fs]
end

mutual
theorem flat_strip : ∀ x : RVal, RVal.flat x.strip ↔ RVal.flat x
  | .nil => by rw [RVal.strip]
  | .ptr a x => by rw [RVal.strip, RVal.flat, RVal.flat, flat_strip x]
  | .slice t xs => by rw [RVal.strip, RVal.flat, RVal.flat, flats_strip xs]
  | .struct t fs => by rw [RVal.strip, RVal.flat, RVal.flat, flatFs_strip fs]
  | .string s => by rw [RVal.strip]
  | .other s => by rw [RVal.strip]
theorem flats_strip : ∀ xs : RVals, RVals.flat xs.strip ↔ RVals.flat xs
  | .nil => by rw [RVals.strip]
  | .cons x xs => by rw [RVals.strip, RVals.flat, RVals.flat, flat_strip x, flats_strip xs]
theorem flatFs_strip : ∀ fs : RFields, RFields.flat fs.strip ↔ RFields.flat fs
  | .nil => by rw [RFields.strip]
  | .cons n x fs => by rw [RFields.strip, RFields.flat, RFields.flat, flat_strip x, flatFs_strip fs]
end

/-! ## Values with the same dump -/

/-- The first character of a dump. -/
theorem head_dot (q : QuoteTable) {x : RVal} (hp : clearV (pruneV x)) (hd : ∀ t u, x = .slice t u → t.head? ≠ some '.') (hs : ∀ t u, x ≠ .struct t u) (ho : ∀ s, x ≠ .other s) :
    (lay q 0 0 [] x).1.1.head? ≠ some '.' := by
  cases x with
  | nil => rw [lay]; decide
  | ptr a x => rw [ptr_head]; decide
  | slice t u =>
    have h := hd t u rfl
    rw [pruneV, clearV] at hp
    obtain ⟨_, c, v, rfl, _⟩ := hp.1
    cases u <;> rw [lay] <;> exact h
  | struct t u => exact absurd rfl (hs t u)
  | string s => rw [lay]; simp [quoteStr]
  | other s => exact absurd rfl (ho s)

theorem dump_inj (q : QuoteTable) {t t' : RVal} (hf : RVal.flat t) (hf' : RVal.flat t') (hc : clearV (pruneV t)) (hc' : clearV (pruneV t'))
    (hd : (lay q 0 0 [] t).1.1.head? ≠ some '.') (hd' : (lay q 0 0 [] t').1.1.head? ≠ some '.') (hn : t ≠ .other []) (hn' : t' ≠ .other [])
    (hh : ∃ H, inHeap H t) (hh' : ∃ H, inHeap H t') (h : astDump q t = astDump q t') : pruneV t.strip = pruneV t'.strip := by
  rw [dump_lines q t hf hn, dump_lines q t' hf' hn'] at h
  injection h with h
  have hg : ∀ x : RVal, RVal.flat x → (lay q 0 0 [] x).1.1.head? ≠ some '.' → ∀ l ∈ dumpLines q x, GoodLine l := by
    intro x hx hdx l hl
    obtain ⟨h1, h2⟩ := lay_good q x 0 0 [] hx
    rcases List.mem_cons.1 hl with rfl | hl
    · exact ⟨h1, hdx⟩
    · exact h2 l hl
  have h := render_inj 0 _ _ (hg t hf hd) (hg t' hf' hd') h
  unfold dumpLines at h
  injection h with h1 h2
  injection h1 with _ h1
  obtain ⟨H, hH⟩ := hh
  obtain ⟨H', hH'⟩ := hh'
  have := readsV q (pruneV t) (pruneV t') 0 0 [] [] [] [] [] _ _ hc hc' (prune_heap H t hH) (prune_heap H' t' hH') (by intro a ha; cases ha)
    (by intro b l hb; cases hb) (by intro b l hb; cases hb) (by intro b b' l hb; cases hb) (by rw [lay_prune, lay_prune]; exact h1) (by rw [lay_prune, lay_prune, h2])
  rw [← prune_strip, ← prune_strip]
  exact this.1

end Verif.Proof.Dump

import Verif.Proof.PegErrMax
/-! # The list of expected terminals, and the list of messages -/
namespace Verif.Proof
open Verif Verif.Spec

theorem strLE_iff (a b : Str) : strLE a b = true ↔ a ≤ b := by
  induction a generalizing b with
  | nil => simp [strLE]
  | cons x a ih =>
    cases b with
    | nil => simp [strLE]
    | cons y b =>
      rw [strLE, List.cons_le_cons_iff]
      by_cases hxy : x = y
      · subst hxy
        simp [ih, Char.lt_irrefl]
      · simp only [hxy, if_false, false_and, or_false, decide_eq_true_eq]
        exact Iff.rfl

theorem strLE_trans (a b c : Str) (h : strLE a b = true) (h' : strLE b c = true) : strLE a c = true := by
  rw [strLE_iff] at *
  exact List.le_trans h h'

theorem strLE_total (a b : Str) : (strLE a b || strLE b a) = true := by
  rw [Bool.or_eq_true, strLE_iff, strLE_iff]
  exact List.le_total a b

theorem eraseDups_nodup (n : Nat) (l : List Str) (h : l.length ≤ n) : l.eraseDups.Nodup := by
  induction n generalizing l with
  | zero => cases l with
    | nil => simp
    | cons x l => simp at h
  | succ n ih =>
    cases l with
    | nil => simp
    | cons x l =>
      rw [List.eraseDups_cons, List.nodup_cons]
      refine ⟨by simp, ih _ ?_⟩
      have := List.length_filter_le (fun b => !b == x) l
      simp at h
      omega

theorem insertStr_perm (x : Str) (l : List Str) : (insertStr x l).Perm (x :: l) := by
  induction l with
  | nil => exact .refl _
  | cons y l ih =>
    simp only [insertStr]
    split
    · exact .refl _
    · exact (ih.cons y).trans (.swap x y l)

theorem sortStrings_perm (l : List Str) : (sortStrings l).Perm l := by
  induction l with
  | nil => exact .refl _
  | cons x l ih => exact (insertStr_perm x _).trans (ih.cons x)

theorem insertStr_sorted (x : Str) (l : List Str) (h : l.Pairwise fun a b => strLE a b = true) : (insertStr x l).Pairwise fun a b => strLE a b = true := by
  induction l with
  | nil => simp [insertStr]
  | cons y l ih =>
    rw [List.pairwise_cons] at h
    simp only [insertStr]
    split
    · rename_i k
      rw [List.pairwise_cons, List.pairwise_cons]
      refine ⟨?_, h⟩
      intro z hz
      rcases List.mem_cons.1 hz with rfl | hz
      · exact k
      · exact strLE_trans _ _ _ k (h.1 z hz)
    · rename_i k
      rw [List.pairwise_cons]
      refine ⟨?_, ih h.2⟩
      intro z hz
      rw [(insertStr_perm x l).mem_iff] at hz
      rcases List.mem_cons.1 hz with rfl | hz
      · have := strLE_total z y
        simp only [Bool.or_eq_true] at this
        exact this.resolve_left k
      · exact h.1 z hz

theorem sortStrings_sorted (l : List Str) : (sortStrings l).Pairwise fun a b => strLE a b = true := by
  induction l with
  | nil => simp [sortStrings]
  | cons x l ih => exact insertStr_sorted x _ ih

theorem sorted_lt {l : List Str} (hn : l.Nodup) : (sortStrings l).Pairwise (· < ·) := by
  have h1 := sortStrings_sorted l
  have h2 : (sortStrings l).Nodup := (sortStrings_perm l).symm.nodup hn
  have := h1.and h2
  refine this.imp ?_
  intro a b ⟨h, hne⟩
  rw [strLE_iff] at h
  rcases List.le_iff_lt_or_eq.1 h with k | k
  · exact k
  · exact absurd k hne

theorem expected_order {o1 o2} (h1 : Reorders o1) (h2 : Reorders o2) (l : List Str) : expectedList o1 l = expectedList o2 l := by
  unfold expectedList
  have : sortStrings (o1 (l.eraseDups.filter (· ≠ ['!', '.']))) = sortStrings (o2 (l.eraseDups.filter (· ≠ ['!', '.']))) := by
    apply List.Perm.eq_of_pairwise (le := fun a b => strLE a b = true)
    · intro a b _ _ h h'
      rw [strLE_iff] at h h'
      exact List.le_antisymm h h'
    · exact sortStrings_sorted _
    · exact sortStrings_sorted _
    · exact (sortStrings_perm _).trans (((h1 _).trans (h2 _).symm).trans (sortStrings_perm _).symm)
  simp only [this]

theorem expected_sorted {order} (h : Reorders order) (l : List Str) :
    ∃ ws, ws.Pairwise (· < ·) ∧ (∀ w, w ∈ ws ↔ w ∈ l ∧ w ≠ ['!', '.']) ∧
      ((['!', '.'] ∈ l ∧ expectedList order l = ws ++ ["EOF".toList]) ∨ (['!', '.'] ∉ l ∧ expectedList order l = ws)) := by
  refine ⟨sortStrings (order (l.eraseDups.filter (· ≠ ['!', '.']))), ?_, ?_, ?_⟩
  · apply sorted_lt
    exact (h _).symm.nodup ((eraseDups_nodup _ l (Nat.le_refl _)).sublist List.filter_sublist)
  · intro w
    rw [(sortStrings_perm _).mem_iff, (h _).mem_iff]
    simp
  · unfold expectedList
    simp only [List.mem_eraseDups]
    by_cases hm : ['!', '.'] ∈ l
    · exact .inl ⟨hm, by simp [hm]⟩
    · exact .inr ⟨hm, by simp [hm]⟩

theorem lt_nodup {l : List Str} (h : l.Pairwise (· < ·)) : l.Nodup := h.imp fun {a b} k e => by subst e; exact List.lt_irrefl _ k

theorem dedupe_mem (text : PError → Str) (es : List PError) : ∀ seen e, e ∈ dedupe text seen es → e ∈ es := by
  induction es with
  | nil => intro seen e h; simp [dedupe] at h
  | cons x es ih =>
    intro seen e h
    rw [dedupe] at h
    split at h
    · exact List.mem_cons_of_mem _ (ih _ _ h)
    · rcases List.mem_cons.1 h with rfl | h
      · exact List.mem_cons_self
      · exact List.mem_cons_of_mem _ (ih _ _ h)

theorem dedupe_texts (text : PError → Str) (es : List PError) : ∀ seen,
    ((dedupe text seen es).map text).Nodup ∧ (∀ e ∈ dedupe text seen es, text e ∉ seen) ∧ (∀ e ∈ es, text e ∈ seen ∨ ∃ e' ∈ dedupe text seen es, text e' = text e) := by
  induction es with
  | nil => intro seen; simp [dedupe]
  | cons x es ih =>
    intro seen
    rw [dedupe]
    by_cases h : text x ∈ seen
    · rw [if_pos h]
      obtain ⟨h1, h2, h3⟩ := ih seen
      refine ⟨h1, h2, ?_⟩
      intro e he
      rcases List.mem_cons.1 he with rfl | he
      · exact .inl h
      · exact h3 e he
    · rw [if_neg h]
      obtain ⟨h1, h2, h3⟩ := ih (text x :: seen)
      refine ⟨?_, ?_, ?_⟩
      · rw [List.map_cons, List.nodup_cons]
        refine ⟨?_, h1⟩
        rw [List.mem_map]
        rintro ⟨e, he, hx⟩
        exact h2 e he (by simp [hx])
      · intro e he
        rcases List.mem_cons.1 he with rfl | he
        · exact h
        · exact fun k => h2 e he (List.mem_cons_of_mem _ k)
      · intro e he
        rcases List.mem_cons.1 he with rfl | he
        · exact .inr ⟨e, List.mem_cons_self, rfl⟩
        · rcases h3 e he with k | ⟨e', he', hx⟩
          · rcases List.mem_cons.1 k with k | k
            · exact .inr ⟨x, List.mem_cons_self, k.symm⟩
            · exact .inl k
          · exact .inr ⟨e', List.mem_cons_of_mem _ he', hx⟩

/-- The list of messages is that of all errors without repetitions, in order. -/
theorem dedupe_sublist (text : PError → Str) (es : List PError) : ∀ seen, (dedupe text seen es).Sublist es := by
  induction es with
  | nil => intro seen; simp [dedupe]
  | cons x es ih =>
    intro seen
    rw [dedupe]
    split
    · exact (ih _).cons _
    · exact (ih _).cons_cons _

end Verif.Proof

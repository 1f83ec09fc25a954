import Verif.Proof.DumpLines
import Verif.Proof.Message
/-!
# The lines of a dump determine the value
-/
namespace Verif.Proof.Dump
open Verif Verif.Spec

theorem natStr_inj {n n' : Nat} (h : natStr n = natStr n') : n = n' := by
  rw [← Verif.Proof.decimal_natStr n, h, Verif.Proof.decimal_natStr]

mutual
def sizeV : RVal → Nat
  | .nil => 1
  | .ptr _ x => sizeV x + 1
  | .slice _ xs => sizeVs xs + 1
  | .struct _ fs => sizeFs fs + 1
  | .string _ => 1
  | .other _ => 1
def sizeVs : RVals → Nat
  | .nil => 1
  | .cons x xs => sizeV x + sizeVs xs + 1
def sizeFs : RFields → Nat
  | .nil => 1
  | .cons _ x fs => sizeV x + sizeFs fs + 1
end

/-- The name of a type. -/
def TypeName (t : Str) : Prop := ' ' ∉ t ∧ ∃ c u, t = c :: u ∧ c ≠ '*' ∧ c ≠ '"' ∧ c ≠ '('

/-- The fields that hold arbitrary texts without quotes. -/
def freeText (n : Str) : Bool := n == "Binding".toList || n == "Type".toList

def IsStruct : RVal → Prop
  | .struct _ _ => True
  | _ => False

mutual
/-- Values that can be read back.  (Fields that are nil have been left out.) -/
def clearV : RVal → Prop
  | .nil => False
  | .ptr _ x => IsStruct x ∧ clearV x
  | .slice t xs => TypeName t ∧ clearVs xs
  | .struct t fs => TypeName t ∧ clearFs fs
  | .string _ => True
  | .other s => PlainText s
def clearVs : RVals → Prop
  | .nil => True
  | .cons x xs => clearV x ∧ clearVs xs
def clearFs : RFields → Prop
  | .nil => True
  | .cons n x fs => (':' ∉ n ∧ x.notNil = true ∧ if freeText n = true then ∃ s, x = .other s else clearV x) ∧ clearFs fs
end

/-! ## Pointers seen -/

mutual
theorem lay_seen (q : QuoteTable) : ∀ x i k m b l, dLookup b (lay q i k m x).2 = some l →
    dLookup b m = some l ∨ (k ≤ l ∧ l ≤ k + (lay q i k m x).1.2.length)
  | .nil, i, k, m, b, l, h => by rw [lay] at h; exact .inl h
  | .ptr a x, i, k, m, b, l, h => by
    rw [lay] at h ⊢
    cases ha : dLookup a m with
    | some l' => rw [ha] at h; exact .inl h
    | none =>
      rw [ha] at h
      simp only at h ⊢
      rcases lay_seen q x i k _ b l h with h | h
      · rw [dLookup] at h
        split at h
        · injection h with h; right; omega
        · exact .inl h
      · exact .inr h
  | .slice t .nil, i, k, m, b, l, h => by rw [lay] at h; exact .inl h
  | .slice t (.cons x xs), i, k, m, b, l, h => by
    rw [lay] at h ⊢
    simp only at h ⊢
    rcases layElems_seen q (.cons x xs) _ _ _ _ b l h with h | h
    · exact .inl h
    · right
      rw [List.length_append, List.length_singleton]; omega
  | .struct t fs, i, k, m, b, l, h => by
    rw [lay] at h ⊢
    simp only at h ⊢
    rcases layFields_seen q fs _ _ _ b l h with h | h
    · exact .inl h
    · right
      split
      · rename_i h0
        rw [h0] at h; simp only [List.length_nil] at h; omega
      · simp only [List.length_append, List.length_singleton]; omega
  | .string s, i, k, m, b, l, h => by rw [lay] at h; exact .inl h
  | .other s, i, k, m, b, l, h => by rw [lay] at h; exact .inl h
theorem layElems_seen (q : QuoteTable) : ∀ xs i k m j b l, dLookup b (layElems q i k m j xs).2 = some l →
    dLookup b m = some l ∨ (k ≤ l ∧ l < k + (layElems q i k m j xs).1.length)
  | .nil, i, k, m, j, b, l, h => by rw [layElems] at h; exact .inl h
  | .cons x xs, i, k, m, j, b, l, h => by
    rw [layElems] at h ⊢
    simp only [List.length_cons, List.length_append] at h ⊢
    rcases layElems_seen q xs _ _ _ _ b l h with h | h
    · rcases lay_seen q x _ _ _ b l h with h | h
      · exact .inl h
      · right; omega
    · right; omega
theorem layFields_seen (q : QuoteTable) : ∀ fs i k m b l, dLookup b (layFields q i k m fs).2 = some l →
    dLookup b m = some l ∨ (k ≤ l ∧ l < k + (layFields q i k m fs).1.length)
  | .nil, i, k, m, b, l, h => by rw [layFields] at h; exact .inl h
  | .cons n x fs, i, k, m, b, l, h => by
    rw [layFields] at h ⊢
    split at h
    · rename_i hn
      rw [if_pos hn]
      simp only [List.length_cons, List.length_append] at h ⊢
      rcases layFields_seen q fs _ _ _ b l h with h | h
      · rcases lay_seen q x _ _ _ b l h with h | h
        · exact .inl h
        · right; omega
      · right; omega
    · rename_i hn
      rw [if_neg hn]
      exact layFields_seen q fs i k m b l h
end

mutual
theorem lay_keeps (q : QuoteTable) : ∀ x i k m b l, dLookup b m = some l → dLookup b (lay q i k m x).2 = some l
  | .nil, i, k, m, b, l, h => by rw [lay]; exact h
  | .ptr a x, i, k, m, b, l, h => by
    rw [lay]
    cases ha : dLookup a m with
    | some l' => exact h
    | none =>
      simp only
      refine lay_keeps q x i k _ b l ?_
      rw [dLookup, if_neg ?_]
      · exact h
      · rintro rfl; rw [ha] at h; cases h
  | .slice t .nil, i, k, m, b, l, h => by rw [lay]; exact h
  | .slice t (.cons x xs), i, k, m, b, l, h => by rw [lay]; exact layElems_keeps q (.cons x xs) _ _ _ _ b l h
  | .struct t fs, i, k, m, b, l, h => by rw [lay]; exact layFields_keeps q fs _ _ _ b l h
  | .string s, i, k, m, b, l, h => by rw [lay]; exact h
  | .other s, i, k, m, b, l, h => by rw [lay]; exact h
theorem layElems_keeps (q : QuoteTable) : ∀ xs i k m j b l, dLookup b m = some l → dLookup b (layElems q i k m j xs).2 = some l
  | .nil, i, k, m, j, b, l, h => by rw [layElems]; exact h
  | .cons x xs, i, k, m, j, b, l, h => by
    rw [layElems]
    exact layElems_keeps q xs _ _ _ _ b l (lay_keeps q x _ _ _ b l h)
theorem layFields_keeps (q : QuoteTable) : ∀ fs i k m b l, dLookup b m = some l → dLookup b (layFields q i k m fs).2 = some l
  | .nil, i, k, m, b, l, h => by rw [layFields]; exact h
  | .cons n x fs, i, k, m, b, l, h => by
    rw [layFields]
    split
    · exact layFields_keeps q fs _ _ _ b l (lay_keeps q x _ _ _ b l h)
    · exact layFields_keeps q fs i k m b l h
end

/-- All pointers seen are on lines before `k`. -/
def Below (k : Nat) (m : SeenAt) : Prop := ∀ b l, dLookup b m = some l → l < k

theorem lay_below {q x i k m} (h : Below k m) : Below (k + 1 + (lay q i k m x).1.2.length) (lay q i k m x).2 := by
  intro b l hb
  rcases lay_seen q x i k m b l hb with h1 | h1
  · have := h b l h1; omega
  · omega

/-- Pointers in two memories that were seen on the same line are the same value, unless they are still being written. -/
def Rel (H H' : Nat → RVal) (A : List Nat) (m m' : SeenAt) : Prop :=
  ∀ b b' l, dLookup b m = some l → dLookup b' m' = some l → b ∈ A ∨ (H b).strip = (H' b').strip

/-! ## The first line of a value tells its kind -/

theorem lay_ptr (q : QuoteTable) (i k : Nat) (m : SeenAt) (a : Nat) (x : RVal) :
    lay q i k m (.ptr a x) =
      match dLookup a m with
      | some l => (("*(obj @ ".toList ++ natStr l ++ [')'], []), m)
      | none => (('*' :: (lay q i k ((a, k) :: m) x).1.1, (lay q i k ((a, k) :: m) x).1.2), (lay q i k ((a, k) :: m) x).2) := by rw [lay]; cases dLookup a m <;> rfl

theorem struct_head (q : QuoteTable) (i k : Nat) (m : SeenAt) (t : Str) (fs : RFields) :
    (lay q i k m (.struct t fs)).1.1 = t ++ " {".toList ∧ (layFields q (i + 1) (k + 1) m fs).1 ≠ [] ∨
    (lay q i k m (.struct t fs)).1.1 = t ++ " {}".toList ∧ (layFields q (i + 1) (k + 1) m fs).1 = [] := by
  rw [lay]
  simp only
  split
  · rename_i h; exact .inr ⟨rfl, h⟩
  · rename_i h; exact .inl ⟨rfl, h⟩

theorem struct_last (q : QuoteTable) (i k : Nat) (m : SeenAt) (t : Str) (fs : RFields) :
    (lay q i k m (.struct t fs)).1.1.getLast? = some '{' ∨ (lay q i k m (.struct t fs)).1.1.getLast? = some '}' := by
  rcases struct_head q i k m t fs with ⟨h, _⟩ | ⟨h, _⟩ <;> rw [h]
  · left; rw [List.getLast?_append]; rfl
  · right; rw [List.getLast?_append]; rfl

theorem slice_last (q : QuoteTable) (i k : Nat) (m : SeenAt) (t : Str) (xs : RVals) :
    (lay q i k m (.slice t xs)).1.1.getLast? = some '{' ∨ (lay q i k m (.slice t xs)).1.1.getLast? = some '}' := by
  cases xs with
  | nil => right; rw [lay, List.getLast?_append]; rfl
  | cons x xs => left; rw [lay, List.getLast?_append]; rfl

theorem ptr_head (q : QuoteTable) (i k : Nat) (m : SeenAt) (a : Nat) (x : RVal) : (lay q i k m (.ptr a x)).1.1.head? = some '*' := by
  rw [lay_ptr]; cases dLookup a m <;> rfl

theorem ptr_last (q : QuoteTable) (i k : Nat) (m : SeenAt) (a : Nat) (x : RVal) (hx : IsStruct x) :
    (lay q i k m (.ptr a x)).1.1.getLast? = some ')' ∨ (lay q i k m (.ptr a x)).1.1.getLast? = some '{' ∨ (lay q i k m (.ptr a x)).1.1.getLast? = some '}' := by
  rw [lay_ptr]
  cases dLookup a m with
  | some l => left; rw [List.getLast?_append]; rfl
  | none =>
    right
    cases x with
    | struct t fs =>
      have := struct_last q i k ((a, k) :: m) t fs
      simp only
      rw [List.getLast?_cons]
      rcases this with h | h <;> rw [h] <;> simp
    | _ => cases hx

theorem name_headc {t : Str} (h : TypeName t) (u : Str) : ∃ c, (t ++ u).head? = some c ∧ c ≠ '*' ∧ c ≠ '"' ∧ c ≠ '(' := by
  obtain ⟨_, c, v, rfl, h⟩ := h
  exact ⟨c, rfl, h⟩

theorem struct_headc {q i k m t fs} (h : TypeName t) : ∃ c, (lay q i k m (.struct t fs)).1.1.head? = some c ∧ c ≠ '*' ∧ c ≠ '"' ∧ c ≠ '(' := by
  rcases struct_head q i k m t fs with ⟨e, _⟩ | ⟨e, _⟩ <;> rw [e] <;> exact name_headc h _

theorem slice_headc {q i k m t xs} (h : TypeName t) : ∃ c, (lay q i k m (.slice t xs)).1.1.head? = some c ∧ c ≠ '*' ∧ c ≠ '"' ∧ c ≠ '(' := by
  cases xs with
  | nil => rw [lay]; exact name_headc h _
  | cons x xs => rw [lay]; simp only [List.append_assoc]; exact name_headc h _

theorem cut_name {t t' u u' : Str} (ht : ' ' ∉ t) (ht' : ' ' ∉ t') (h : t ++ ' ' :: u = t' ++ ' ' :: u') : t = t' ∧ u = u' := by
  induction t generalizing t' with
  | nil =>
    cases t' with
    | nil => injection h with _ h; exact ⟨rfl, h⟩
    | cons c t' => injection h with h _; exact absurd (by simp [← h]) ht'
  | cons d t ih =>
    cases t' with
    | nil => injection h with h _; exact absurd (by simp [h]) ht
    | cons c t' =>
      injection h with h1 h2
      obtain ⟨e1, e2⟩ := ih (fun e => ht (by simp [e])) (fun e => ht' (by simp [e])) h2
      exact ⟨by rw [h1, e1], e2⟩

theorem cut_label {n n' u u' : Str} (hn : ':' ∉ n) (hn' : ':' ∉ n') (h : n ++ [':', ' '] ++ u = n' ++ [':', ' '] ++ u') : n = n' ∧ u = u' := by
  rw [List.append_assoc, List.append_assoc] at h
  induction n generalizing n' with
  | nil =>
    cases n' with
    | nil => injection h with _ h; injection h with _ h; exact ⟨rfl, h⟩
    | cons c n' => injection h with h _; exact absurd (by simp [← h]) hn'
  | cons d n ih =>
    cases n' with
    | nil => injection h with h _; exact absurd (by simp [h]) hn
    | cons c n' =>
      injection h with h1 h2
      obtain ⟨e1, e2⟩ := ih (fun e => hn (by simp [e])) (fun e => hn' (by simp [e])) h2
      exact ⟨by rw [h1, e1], e2⟩

theorem natStr_colon (n : Nat) : ':' ∉ natStr n := fun h => by
  have := Verif.Proof.natStr_digit h
  revert this; decide

/-! ## Reading -/

/-- Two values that look the same are the same. -/
def ReadsV (q : QuoteTable) (t : RVal) : Prop :=
  ∀ t' i k m m' A rest rest' H H', clearV t → clearV t' → inHeap H t → inHeap H' t' → (∀ a ∈ A, sizeV t < sizeV (H a)) → Below k m → Below k m' → Rel H H' A m m' →
    (lay q i k m t).1.1 = (lay q i k m' t').1.1 → (lay q i k m t).1.2 ++ rest = (lay q i k m' t').1.2 ++ rest' →
    t.strip = t'.strip ∧ (lay q i k m t).1.2 = (lay q i k m' t').1.2 ∧ rest = rest' ∧ Rel H H' A (lay q i k m t).2 (lay q i k m' t').2

def ReadsVs (q : QuoteTable) (xs : RVals) : Prop :=
  ∀ xs' i k m m' j A rest rest' H H', xs.length = xs'.length → clearVs xs → clearVs xs' → inHeapVs H xs → inHeapVs H' xs' → (∀ a ∈ A, sizeVs xs < sizeV (H a)) →
    Below k m → Below k m' → Rel H H' A m m' →
    (layElems q i k m j xs).1 ++ rest = (layElems q i k m' j xs').1 ++ rest' →
    xs.strip = xs'.strip ∧ (layElems q i k m j xs).1 = (layElems q i k m' j xs').1 ∧ rest = rest' ∧ Rel H H' A (layElems q i k m j xs).2 (layElems q i k m' j xs').2

/-- The fields end before the first line that is indented less. -/
def ReadsFs (q : QuoteTable) (fs : RFields) : Prop :=
  ∀ fs' i k m m' A rest rest' H H', clearFs fs → clearFs fs' → inHeapFs H fs → inHeapFs H' fs' → (∀ a ∈ A, sizeFs fs < sizeV (H a)) →
    Below k m → Below k m' → Rel H H' A m m' →
    (layFields q (i + 1) k m fs).1 ++ (i, ['}']) :: rest = (layFields q (i + 1) k m' fs').1 ++ (i, ['}']) :: rest' →
    fs.strip = fs'.strip ∧ (layFields q (i + 1) k m fs).1 = (layFields q (i + 1) k m' fs').1 ∧ rest = rest' ∧
      Rel H H' A (layFields q (i + 1) k m fs).2 (layFields q (i + 1) k m' fs').2

theorem reads_elems_nil (q : QuoteTable) : ReadsVs q .nil := by
  intro xs' i k m m' j A rest rest' H H' hlen _ _ _ _ _ _ _ hrel h
  cases xs' with
  | nil => simp only [layElems, List.nil_append] at h ⊢; exact ⟨trivial, trivial, h, hrel⟩
  | cons x xs => simp [RVals.length] at hlen

theorem reads_elems_cons {q : QuoteTable} {x : RVal} {xs : RVals} (hx : ReadsV q x) (hxs : ReadsVs q xs) : ReadsVs q (.cons x xs) := by
  intro xs' i k m m' j A rest rest' H H' hlen hc hc' hh hh' hA hb hb' hrel h
  cases xs' with
  | nil => simp [RVals.length] at hlen
  | cons x' xs' =>
    simp only [RVals.length, Nat.add_right_cancel_iff] at hlen
    simp only [clearVs, inHeapVs, sizeVs] at hc hc' hh hh' hA
    simp only [layElems] at h
    rw [List.cons_append, List.cons_append] at h
    injection h with h1 h2
    rw [List.append_assoc, List.append_assoc] at h2
    injection h1 with _ h1
    have h1 := List.append_cancel_left h1
    obtain ⟨e1, e2, e3, e4⟩ := hx x' i k m m' A _ _ H H' hc.1 hc'.1 hh.1 hh'.1 (fun a ha => by have := hA a ha; omega) hb hb' hrel h1 h2
    rw [← e2] at e3
    have hbx := lay_below (q := q) (x := x) (i := i) hb
    have hbx' := lay_below (q := q) (x := x') (i := i) hb'
    rw [← e2] at hbx'
    obtain ⟨f1, f2, f3, f4⟩ := hxs xs' i _ _ _ (j + 1) A rest rest' H H' hlen hc.2 hc'.2 hh.2 hh'.2 (fun a ha => by have := hA a ha; omega) hbx hbx' e4 e3
    refine ⟨by simp only [RVals.strip]; rw [e1, f1], ?_, f3, ?_⟩
    · simp only [layElems]; rw [← e2, f2, h1]
    · simp only [layElems]; rw [← e2]; exact f4

theorem reads_fields_nil (q : QuoteTable) : ReadsFs q .nil := by
  intro fs' i k m m' A rest rest' H H' hc hc' hh hh' hA hb hb' hrel h
  cases fs' with
  | nil =>
    simp only [layFields, List.nil_append] at h ⊢
    injection h with _ h
    exact ⟨trivial, trivial, h, hrel⟩
  | cons n x fs =>
    simp only [clearFs] at hc'
    simp only [layFields, if_pos hc'.1.2.1, List.nil_append, List.cons_append] at h
    injection h with h _
    injection h with h _
    omega

theorem reads_fields_cons {q : QuoteTable} {n : Str} {x : RVal} {fs : RFields} (hx : ReadsV q x) (hfs : ReadsFs q fs) : ReadsFs q (.cons n x fs) := by
  intro fs' i k m m' A rest rest' H H' hc hc' hh hh' hA hb hb' hrel h
  cases fs' with
  | nil =>
    simp only [clearFs] at hc
    simp only [layFields, if_pos hc.1.2.1, List.nil_append, List.cons_append] at h
    injection h with h _
    injection h with h _
    omega
  | cons n' x' fs' =>
    simp only [clearFs, inHeapFs, sizeFs] at hc hc' hh hh' hA
    obtain ⟨⟨hn, hnil, hv⟩, hcf⟩ := hc
    obtain ⟨⟨hn', hnil', hv'⟩, hcf'⟩ := hc'
    simp only [layFields, if_pos hnil, if_pos hnil'] at h
    rw [List.cons_append, List.cons_append] at h
    injection h with h1 h2
    rw [List.append_assoc, List.append_assoc] at h2
    injection h1 with _ h1
    obtain ⟨rfl, h3⟩ := cut_label hn hn' h1
    have key : x.strip = x'.strip ∧ (lay q (i + 1) k m x).1.2 = (lay q (i + 1) k m' x').1.2 ∧
        (layFields q (i + 1) (k + 1 + (lay q (i + 1) k m x).1.2.length) (lay q (i + 1) k m x).2 fs).1 ++ (i, ['}']) :: rest =
          (layFields q (i + 1) (k + 1 + (lay q (i + 1) k m' x').1.2.length) (lay q (i + 1) k m' x').2 fs').1 ++ (i, ['}']) :: rest' ∧
        Rel H H' A (lay q (i + 1) k m x).2 (lay q (i + 1) k m' x').2 := by
      by_cases hf : freeText n = true
      · rw [if_pos hf] at hv hv'
        obtain ⟨s, rfl⟩ := hv
        obtain ⟨s', rfl⟩ := hv'
        simp only [lay, List.nil_append, List.length_nil, Nat.add_zero] at h3 h2 ⊢
        subst h3
        exact ⟨rfl, trivial, h2, hrel⟩
      · rw [if_neg hf] at hv hv'
        exact hx x' (i + 1) k m m' A _ _ H H' hv hv' hh.1 hh'.1 (fun a ha => by have := hA a ha; omega) hb hb' hrel h3 h2
    obtain ⟨e1, e2, e3, e4⟩ := key
    rw [← e2] at e3
    have hbx := lay_below (q := q) (x := x) (i := i + 1) hb
    have hbx' := lay_below (q := q) (x := x') (i := i + 1) hb'
    rw [← e2] at hbx'
    obtain ⟨f1, f2, f3, f4⟩ := hfs fs' i _ _ _ A rest rest' H H' hcf hcf' hh.2 hh'.2 (fun a ha => by have := hA a ha; omega) hbx hbx' e4 e3
    refine ⟨by simp only [RFields.strip]; rw [e1, f1], ?_, f3, ?_⟩
    · simp only [layFields, if_pos hnil, if_pos hnil']; rw [← e2, f2, h3]
    · simp only [layFields, if_pos hnil, if_pos hnil']; rw [← e2]; exact f4

theorem other_head {q i k m m' s t'} (hs : PlainText s) (hc' : clearV t') (h : (lay q i k m (.other s)).1.1 = (lay q i k m' t').1.1) : t' = .other s := by
  have e : (lay q i k m (.other s)).1.1 = s := by rw [lay]
  rw [e] at h
  subst h
  obtain ⟨_, h1, h2, h3, h4⟩ := hs
  cases t' with
  | nil => rw [clearV] at hc'; exact hc'.elim
  | ptr a x =>
    rw [clearV] at hc'
    rcases ptr_last q i k m' a x hc'.1 with e | e | e
    · exact absurd e h4
    · exact absurd e h2
    · exact absurd e h3
  | slice t xs => rcases slice_last q i k m' t xs with e | e; exact absurd e h2; exact absurd e h3
  | struct t fs => rcases struct_last q i k m' t fs with e | e; exact absurd e h2; exact absurd e h3
  | string t => rw [lay] at h1; exact absurd rfl h1
  | other t => rw [lay]

theorem reads_other (q : QuoteTable) (s : Str) : ReadsV q (.other s) := by
  intro t' i k m m' A rest rest' H H' hc hc' _ _ _ _ _ hrel h1 h2
  rw [clearV] at hc
  have := other_head hc hc' h1
  subst this
  simp only [lay, List.nil_append] at h2 ⊢
  exact ⟨trivial, trivial, h2, hrel⟩

theorem reads_string (q : QuoteTable) (s : Str) : ReadsV q (.string s) := by
  intro t' i k m m' A rest rest' H H' hc hc' _ _ _ _ _ hrel h1 h2
  cases t' with
  | nil => rw [clearV] at hc'; exact hc'.elim
  | ptr a x =>
    have := ptr_head q i k m' a x
    rw [← h1, lay] at this; cases this
  | slice t xs =>
    rw [clearV] at hc'
    obtain ⟨c, e, _, hq, _⟩ := slice_headc (q := q) (i := i) (k := k) (m := m') (xs := xs) hc'.1
    rw [← h1, lay] at e; injection e with e; exact absurd e.symm hq
  | struct t fs =>
    rw [clearV] at hc'
    obtain ⟨c, e, _, hq, _⟩ := struct_headc (q := q) (i := i) (k := k) (m := m') (fs := fs) hc'.1
    rw [← h1, lay] at e; injection e with e; exact absurd e.symm hq
  | string t =>
    simp only [lay, List.nil_append] at h1 h2 ⊢
    rw [quoteStr_inj q h1]
    exact ⟨rfl, trivial, h2, hrel⟩
  | other t =>
    rw [clearV] at hc'
    have := hc'.2.1
    simp only [lay] at h1
    rw [← h1] at this
    exact absurd rfl this

theorem lit_len : " (len = ".toList = ' ' :: '(' :: "len = ".toList := by decide
theorem lit_open : ") {".toList = [')', ' ', '{'] := by decide
theorem lit_none : " (len = 0) {}".toList = ' ' :: '(' :: ("len = ".toList ++ natStr 0 ++ [')', ' ', '{', '}']) := by decide
theorem lit_struct : " {".toList = [' ', '{'] := by decide
theorem lit_struct0 : " {}".toList = [' ', '{', '}'] := by decide

theorem slice_head_cons (q : QuoteTable) (i k : Nat) (m : SeenAt) (t : Str) (x : RVal) (xs : RVals) :
    (lay q i k m (.slice t (.cons x xs))).1.1 = t ++ ' ' :: '(' :: ("len = ".toList ++ natStr (xs.length + 1) ++ [')', ' ', '{']) := by
  rw [lay]
  simp only
  rw [lit_len, lit_open]
  generalize "len = ".toList = L
  simp

theorem slice_head_nil (q : QuoteTable) (i k : Nat) (m : SeenAt) (t : Str) :
    (lay q i k m (.slice t .nil)).1.1 = t ++ ' ' :: '(' :: ("len = ".toList ++ natStr 0 ++ [')', ' ', '{', '}']) := by
  rw [lay]
  simp only
  rw [lit_none]

theorem slice_other {q i k m m' t xs t'} (hc : clearV (.slice t xs)) (hc' : clearV t') (h : (lay q i k m (.slice t xs)).1.1 = (lay q i k m' t').1.1) :
    (∃ xs', t' = .slice t xs' ∧ xs.length = xs'.length) := by
  have hc0 := hc
  rw [clearV] at hc
  obtain ⟨c, e, hs, hq, _⟩ := slice_headc (q := q) (i := i) (k := k) (m := m) (xs := xs) hc.1
  cases t' with
  | nil => rw [clearV] at hc'; exact hc'.elim
  | ptr a x =>
    have := ptr_head q i k m' a x
    rw [← h, e] at this; injection this with this; exact absurd this hs
  | slice t' xs' =>
    rw [clearV] at hc'
    have differ : ∀ (L A B : Str), L ++ A ++ [')', ' ', '{'] ≠ L ++ B ++ [')', ' ', '{', '}'] := by
      intro L A B e
      have := congrArg List.getLast? e
      simp at this
    cases xs with
    | nil =>
      cases xs' with
      | nil =>
        rw [slice_head_nil, slice_head_nil] at h
        obtain ⟨e, _⟩ := cut_name hc.1.1 hc'.1.1 h
        exact ⟨_, by rw [e], rfl⟩
      | cons x xs =>
        rw [slice_head_nil, slice_head_cons] at h
        obtain ⟨_, e⟩ := cut_name hc.1.1 hc'.1.1 h
        injection e with _ e
        exact absurd e.symm (differ _ _ _)
    | cons x xs =>
      cases xs' with
      | nil =>
        rw [slice_head_nil, slice_head_cons] at h
        obtain ⟨_, e⟩ := cut_name hc.1.1 hc'.1.1 h
        injection e with _ e
        exact absurd e (differ _ _ _)
      | cons x' xs' =>
        rw [slice_head_cons, slice_head_cons] at h
        obtain ⟨e1, e2⟩ := cut_name hc.1.1 hc'.1.1 h
        injection e2 with _ e2
        have e4 := natStr_inj (List.append_cancel_left (List.append_cancel_right e2))
        exact ⟨.cons x' xs', by rw [e1], e4⟩
  | struct t' fs =>
    rw [clearV] at hc'
    exfalso
    have h' : ∃ u, (lay q i k m (.slice t xs)).1.1 = t ++ ' ' :: '(' :: u := by
      cases xs with
      | nil => exact ⟨_, slice_head_nil q i k m t⟩
      | cons x xs => exact ⟨_, slice_head_cons q i k m t x xs⟩
    obtain ⟨u, hu⟩ := h'
    rw [hu] at h
    rcases struct_head q i k m' t' fs with ⟨e, _⟩ | ⟨e, _⟩
    · rw [e, lit_struct] at h
      obtain ⟨_, e'⟩ := cut_name (u' := ['{']) hc.1.1 hc'.1.1 h
      cases e'
    · rw [e, lit_struct0] at h
      obtain ⟨_, e'⟩ := cut_name (u' := ['{', '}']) hc.1.1 hc'.1.1 h
      cases e'
  | string s =>
    rw [h, lay] at e; injection e with e; exact absurd e.symm hq
  | other s =>
    rw [clearV] at hc'
    have := other_head (q := q) (i := i) (k := k) (m := m') (m' := m) (t' := .slice t xs) hc' hc0 h.symm
    cases this

theorem reads_slice {q : QuoteTable} {t : Str} {xs : RVals} (hxs : ReadsVs q xs) : ReadsV q (.slice t xs) := by
  intro t' i k m m' A rest rest' H H' hc hc' hh hh' hA hb hb' hrel h1 h2
  obtain ⟨xs', rfl, hlen⟩ := slice_other hc hc' h1
  rw [clearV] at hc hc'
  rw [inHeap] at hh hh'
  simp only [sizeV] at hA
  cases xs with
  | nil =>
    cases xs' with
    | nil => simp only [lay, List.nil_append] at h2 ⊢; exact ⟨trivial, trivial, h2, hrel⟩
    | cons x xs => simp [RVals.length] at hlen
  | cons x xs =>
    cases xs' with
    | nil => simp [RVals.length] at hlen
    | cons x' xs' =>
      simp only [lay, List.append_assoc] at h2
      have hb1 : Below (k + 1) m := fun b l h => Nat.lt_succ_of_lt (hb b l h)
      have hb1' : Below (k + 1) m' := fun b l h => Nat.lt_succ_of_lt (hb' b l h)
      obtain ⟨e1, e2, e3, e4⟩ := hxs _ (i + 1) (k + 1) m m' 0 A _ _ H H' hlen hc.2 hc'.2 hh hh' (fun a ha => by have := hA a ha; omega) hb1 hb1' hrel h2
      refine ⟨by simp only [RVal.strip]; rw [e1], by simp only [lay]; rw [e2], List.append_cancel_left e3, by simp only [lay]; exact e4⟩

theorem struct_other {q i k m m' t fs t'} (hc : clearV (.struct t fs)) (hc' : clearV t') (h : (lay q i k m (.struct t fs)).1.1 = (lay q i k m' t').1.1) :
    ∃ fs', t' = .struct t fs' := by
  have hc0 := hc
  rw [clearV] at hc
  obtain ⟨c, e, hs, hq, _⟩ := struct_headc (q := q) (i := i) (k := k) (m := m) (fs := fs) hc.1
  cases t' with
  | nil => rw [clearV] at hc'; exact hc'.elim
  | ptr a x =>
    have := ptr_head q i k m' a x
    rw [← h, e] at this; injection this with this; exact absurd this hs
  | slice t' xs' =>
    obtain ⟨_, e, _⟩ := slice_other hc' hc0 h.symm
    cases e
  | struct t' fs' =>
    rw [clearV] at hc'
    rcases struct_head q i k m t fs with ⟨e1, _⟩ | ⟨e1, _⟩ <;> rcases struct_head q i k m' t' fs' with ⟨e2, _⟩ | ⟨e2, _⟩ <;>
      · rw [e1, e2] at h
        simp only [lit_struct, lit_struct0] at h
        have := (cut_name hc.1.1 hc'.1.1 h).1
        exact ⟨fs', by rw [this]⟩
  | string s => rw [h, lay] at e; injection e with e; exact absurd e.symm hq
  | other s =>
    rw [clearV] at hc'
    have := other_head (q := q) (i := i) (k := k) (m := m') (m' := m) (t' := .struct t fs) hc' hc0 h.symm
    cases this

theorem layFields_nil {q i k m fs} (hc : clearFs fs) (h : (layFields q i k m fs).1 = []) : fs = .nil := by
  cases fs with
  | nil => rfl
  | cons n x fs =>
    rw [clearFs] at hc
    rw [layFields, if_pos hc.1.2.1] at h
    cases h

/-- Structs; a pointer to the struct may have been seen on the same line. -/
def ReadsStruct (q : QuoteTable) (t : Str) (fs : RFields) : Prop :=
  ∀ t' i k m m' A rest rest' H H', clearV (.struct t fs) → clearV t' → inHeapFs H fs → inHeap H' t' → (∀ a ∈ A, sizeFs fs < sizeV (H a)) →
    Below (k + 1) m → Below (k + 1) m' → Rel H H' A m m' →
    (lay q i k m (.struct t fs)).1.1 = (lay q i k m' t').1.1 → (lay q i k m (.struct t fs)).1.2 ++ rest = (lay q i k m' t').1.2 ++ rest' →
    (RVal.struct t fs).strip = t'.strip ∧ (lay q i k m (.struct t fs)).1.2 = (lay q i k m' t').1.2 ∧ rest = rest' ∧
      Rel H H' A (lay q i k m (.struct t fs)).2 (lay q i k m' t').2

theorem reads_struct {q : QuoteTable} {t : Str} {fs : RFields} (hfs : ReadsFs q fs) : ReadsStruct q t fs := by
  intro t' i k m m' A rest rest' H H' hc hc' hh hh' hA hb1 hb1' hrel h1 h2
  obtain ⟨fs', rfl⟩ := struct_other hc hc' h1
  rw [clearV] at hc hc'
  rw [inHeap] at hh'
  rcases struct_head q i k m t fs with ⟨e1, n1⟩ | ⟨e1, n1⟩ <;> rcases struct_head q i k m' t fs' with ⟨e2, n2⟩ | ⟨e2, n2⟩
  · simp only [lay, if_neg n1, if_neg n2, List.append_assoc] at h2
    obtain ⟨e1, e2, e3, e4⟩ := hfs fs' i (k + 1) m m' A _ _ H H' hc.2 hc'.2 hh hh' hA hb1 hb1' hrel h2
    exact ⟨by simp only [RVal.strip]; rw [e1], by simp only [lay, if_neg n1, if_neg n2]; rw [e2], e3, by simp only [lay]; exact e4⟩
  · rw [e1, e2] at h1; have := List.append_cancel_left h1; cases this
  · rw [e1, e2] at h1; have := List.append_cancel_left h1; cases this
  · cases layFields_nil hc.2 n1
    cases layFields_nil hc'.2 n2
    simp only [lay, layFields, if_true, List.nil_append] at h2 ⊢
    exact ⟨trivial, trivial, h2, hrel⟩

theorem reads_bare {q : QuoteTable} {t : Str} {fs : RFields} (h : ReadsStruct q t fs) : ReadsV q (.struct t fs) := by
  intro t' i k m m' A rest rest' H H' hc hc' hh hh' hA hb hb' hrel h1 h2
  rw [inHeap] at hh
  simp only [sizeV] at hA
  exact h t' i k m m' A rest rest' H H' hc hc' hh hh' (fun a ha => by have := hA a ha; omega)
    (fun b l h => Nat.lt_succ_of_lt (hb b l h)) (fun b l h => Nat.lt_succ_of_lt (hb' b l h)) hrel h1 h2

theorem struct_new {q i k m x} (hx : IsStruct x) {b l} (h : dLookup b (lay q i k m x).2 = some l) : dLookup b m = some l ∨ k + 1 ≤ l := by
  cases x with
  | struct t fs =>
    rw [lay] at h
    rcases layFields_seen q fs _ _ _ b l h with h | h
    · exact .inl h
    · exact .inr h.1
  | _ => cases hx

theorem reads_ptr {q : QuoteTable} {a : Nat} {t : Str} {fs : RFields} (hx : ReadsStruct q t fs) : ReadsV q (.ptr a (.struct t fs)) := by
  intro t' i k m m' A rest rest' H H' hc hc' hh hh' hA hb hb' hrel h1 h2
  have hc0 := hc
  rw [clearV] at hc
  rw [inHeap] at hh
  have hstar := ptr_head q i k m a (.struct t fs)
  cases t' with
  | nil => rw [clearV] at hc'; exact hc'.elim
  | ptr a' x' =>
    rw [clearV] at hc'
    rw [inHeap] at hh'
    simp only [sizeV] at hA
    rw [lay_ptr, lay_ptr] at h1 h2 ⊢
    cases ha : dLookup a m with
    | some l =>
      rw [ha] at h1 h2
      cases ha' : dLookup a' m' with
      | some l' =>
        rw [ha'] at h1 h2
        simp only at h1
        have e := natStr_inj (List.append_cancel_left (List.append_cancel_right h1))
        subst e
        refine ⟨?_, rfl, h2, hrel⟩
        simp only [RVal.strip]
        rcases hrel a a' l ha ha' with h | h
        · have := hA a h; rw [← hh.1, sizeV] at this; omega
        · rw [← hh.1, ← hh'.1] at h
          exact congrArg (RVal.ptr 0) h
      | none =>
        rw [ha'] at h1
        simp only at h1
        exfalso
        cases x' with
        | struct t fs =>
          have hc2 := hc'.2
          rw [clearV] at hc2
          obtain ⟨c, e, _, _, hp⟩ := struct_headc (q := q) (i := i) (k := k) (m := (a', k) :: m') (fs := fs) hc2.1
          injection h1 with _ h1
          rw [← h1] at e
          injection e with e
          exact hp e.symm
        | _ => cases hc'.1
    | none =>
      rw [ha] at h1 h2
      cases ha' : dLookup a' m' with
      | some l' =>
        rw [ha'] at h1
        simp only at h1
        exfalso
        have hc2 := hc.2
        rw [clearV] at hc2
        obtain ⟨c, e, _, _, hp⟩ := struct_headc (q := q) (i := i) (k := k) (m := (a, k) :: m) (fs := fs) hc2.1
        injection h1 with _ h1
        rw [h1] at e
        injection e with e
        exact hp e.symm
      | none =>
        rw [ha'] at h1 h2
        simp only at h1 h2 ⊢
        injection h1 with _ h1
        have hne : ∀ {b m0 l0 b0 k0}, Below k0 m0 → dLookup b ((b0, k0) :: m0) = some l0 → b = b0 ∧ l0 = k0 ∨ b ≠ b0 ∧ l0 < k0 ∧ dLookup b m0 = some l0 := by
          intro b m0 l0 b0 k0 hbel h
          rw [dLookup] at h
          split at h
          · rename_i e; injection h with h; exact .inl ⟨e.symm, h.symm⟩
          · rename_i e; exact .inr ⟨fun e' => e e'.symm, hbel b l0 h, h⟩
        have hrel1 : Rel H H' (a :: A) ((a, k) :: m) ((a', k) :: m') := by
          intro b b' l hl hl'
          rcases hne hb hl with ⟨e, _⟩ | ⟨_, hlt, hl0⟩
          · left; rw [e]; simp
          · rcases hne hb' hl' with ⟨_, e⟩ | ⟨_, _, hl0'⟩
            · omega
            · rcases hrel b b' l hl0 hl0' with h | h
              · left; simp [h]
              · exact .inr h
        have hbel : ∀ {b0 m0}, Below k m0 → Below (k + 1) ((b0, k) :: m0) := by
          intro b0 m0 hb0 b l hl
          rcases hne hb0 hl with ⟨_, e⟩ | ⟨_, e, _⟩ <;> omega
        have hh2 := hh.2
        rw [inHeap] at hh2
        have hA2 : ∀ b ∈ a :: A, sizeFs fs < sizeV (H b) := by
          intro b hb
          rcases List.mem_cons.1 hb with rfl | hb
          · rw [← hh.1, sizeV]; omega
          · have := hA b hb; omega
        obtain ⟨e1, e2, e3, e4⟩ := hx x' i k ((a, k) :: m) ((a', k) :: m') (a :: A) rest rest' H H' hc.2 hc'.2 hh2 hh'.2 hA2 (hbel hb) (hbel hb') hrel1 h1 h2
        refine ⟨by rw [RVal.strip, RVal.strip, e1], e2, e3, ?_⟩
        intro b b' l hl hl'
        rcases e4 b b' l hl hl' with h | h
        · rcases List.mem_cons.1 h with rfl | h
          · right
            have hk : dLookup b (lay q i k ((b, k) :: m) (.struct t fs)).2 = some k := lay_keeps q _ i k _ b k (by rw [dLookup, if_pos rfl])
            rw [hk] at hl
            injection hl with hl
            subst hl
            rcases struct_new hc'.1 hl' with h | h
            · rcases hne hb' h with ⟨e, _⟩ | ⟨_, e, _⟩
              · rw [e, ← hh.1, ← hh'.1, e1]
              · omega
            · omega
          · exact .inl h
        · exact .inr h
  | slice t2 xs =>
    rw [clearV] at hc'
    obtain ⟨c, e, hs, _⟩ := slice_headc (q := q) (i := i) (k := k) (m := m') (xs := xs) hc'.1
    rw [← h1, hstar] at e; injection e with e; exact absurd e.symm hs
  | struct t2 fs2 =>
    rw [clearV] at hc'
    obtain ⟨c, e, hs, _⟩ := struct_headc (q := q) (i := i) (k := k) (m := m') (fs := fs2) hc'.1
    rw [← h1, hstar] at e; injection e with e; exact absurd e.symm hs
  | string s => rw [h1, lay] at hstar; cases hstar
  | other s =>
    rw [clearV] at hc'
    have := other_head (q := q) (i := i) (k := k) (m := m') (m' := m) (t' := .ptr a (.struct t fs)) hc' hc0 h1.symm
    cases this

mutual
theorem readsV (q : QuoteTable) : ∀ t, ReadsV q t
  | .nil => by intro t' i k m m' A rest rest' H H' hc; rw [clearV] at hc; exact hc.elim
  | .ptr a (.struct t fs) => reads_ptr (reads_struct (readsFs q fs))
  | .ptr _ .nil => by intro t' i k m m' A rest rest' H H' hc; rw [clearV] at hc; exact hc.1.elim
  | .ptr _ (.ptr _ _) => by intro t' i k m m' A rest rest' H H' hc; rw [clearV] at hc; exact hc.1.elim
  | .ptr _ (.slice _ _) => by intro t' i k m m' A rest rest' H H' hc; rw [clearV] at hc; exact hc.1.elim
  | .ptr _ (.string _) => by intro t' i k m m' A rest rest' H H' hc; rw [clearV] at hc; exact hc.1.elim
  | .ptr _ (.other _) => by intro t' i k m m' A rest rest' H H' hc; rw [clearV] at hc; exact hc.1.elim
  | .slice t xs => reads_slice (readsVs q xs)
  | .struct t fs => reads_bare (reads_struct (readsFs q fs))
  | .string s => reads_string q s
  | .other s => reads_other q s
theorem readsVs (q : QuoteTable) : ∀ xs, ReadsVs q xs
  | .nil => reads_elems_nil q
  | .cons x xs => reads_elems_cons (readsV q x) (readsVs q xs)
theorem readsFs (q : QuoteTable) : ∀ fs, ReadsFs q fs
  | .nil => reads_fields_nil q
  | .cons _ x fs => reads_fields_cons (readsV q x) (readsFs q fs)
end

/-! ## From the text to the lines -/

/-- A line that can be read: no line break in it and no dot at its beginning. -/
def GoodLine (l : Line) : Prop := '\n' ∉ l.2 ∧ l.2.head? ≠ some '.'

theorem cut_nl {a b u v : Str} (ha : '\n' ∉ a) (hb : '\n' ∉ b) (h : a ++ '\n' :: u = b ++ '\n' :: v) : a = b ∧ u = v := by
  induction a generalizing b with
  | nil =>
    cases b with
    | nil => injection h with _ h; exact ⟨rfl, h⟩
    | cons c b => injection h with h _; exact absurd (by simp [← h]) hb
  | cons d a ih =>
    cases b with
    | nil => injection h with h _; exact absurd (by simp [h]) ha
    | cons c b =>
      injection h with h1 h2
      obtain ⟨e1, e2⟩ := ih (fun e => ha (by simp [e])) (fun e => hb (by simp [e])) h2
      exact ⟨by rw [h1, e1], e2⟩

theorem cut_dots {i j : Nat} {t u : Str} (ht : t.head? ≠ some '.') (hu : u.head? ≠ some '.')
    (h : (List.replicate i ['.', ' ', ' ']).flatten ++ t = (List.replicate j ['.', ' ', ' ']).flatten ++ u) : i = j ∧ t = u := by
  induction i generalizing j with
  | zero =>
    cases j with
    | zero => exact ⟨rfl, h⟩
    | succ j =>
      simp only [List.replicate_zero, List.flatten_nil, List.nil_append, List.replicate_succ, List.flatten_cons] at h
      rw [h] at ht; exact absurd rfl ht
  | succ i ih =>
    cases j with
    | zero =>
      simp only [List.replicate_zero, List.flatten_nil, List.nil_append, List.replicate_succ, List.flatten_cons] at h
      rw [← h] at hu; exact absurd rfl hu
    | succ j =>
      simp only [List.replicate_succ, List.flatten_cons, List.append_assoc] at h
      obtain ⟨e1, e2⟩ := ih (List.append_cancel_left h)
      exact ⟨by rw [e1], e2⟩

theorem pad6_nl (k : Nat) : '\n' ∉ pad6 k := by
  unfold pad6
  simp only [List.mem_append, not_or]
  refine ⟨?_, natStr_nl k⟩
  intro h
  have := List.eq_of_mem_replicate h
  revert this; decide

theorem linePrefix_nl (k i : Nat) : '\n' ∉ linePrefix k i := by
  unfold linePrefix
  simp only [List.mem_append, not_or]
  refine ⟨⟨pad6_nl k, by decide⟩, ?_⟩
  intro h
  obtain ⟨l, hl, h⟩ := List.mem_flatten.1 h
  rw [List.eq_of_mem_replicate hl] at h
  revert h; decide

theorem render_inj : ∀ (k : Nat) (ls ls' : List Line), (∀ l ∈ ls, GoodLine l) → (∀ l ∈ ls', GoodLine l) → renderLines k ls = renderLines k ls' → ls = ls'
  | _, [], [], _, _, _ => rfl
  | k, [], (i, t) :: ls, _, _, h => by simp [renderLines] at h
  | k, (i, t) :: ls, [], _, _, h => by simp [renderLines] at h
  | k, (i, t) :: ls, (i', t') :: ls', hg, hg', h => by
    have g := hg (i, t) (by simp)
    have g' := hg' (i', t') (by simp)
    rw [renderLines, renderLines] at h
    obtain ⟨h1, h2⟩ := cut_nl (by simp only [List.mem_append, not_or]; exact ⟨linePrefix_nl k i, g.1⟩)
      (by simp only [List.mem_append, not_or]; exact ⟨linePrefix_nl k i', g'.1⟩) h
    rw [linePrefix, linePrefix, List.append_assoc, List.append_assoc (pad6 k ++ [' ', ' '])] at h1
    obtain ⟨rfl, rfl⟩ := cut_dots g.2 g'.2 (List.append_cancel_left h1)
    rw [render_inj (k + 1) ls ls' (fun l hl => hg l (by simp [hl])) (fun l hl => hg' l (by simp [hl])) h2]

end Verif.Proof.Dump


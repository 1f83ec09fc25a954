import Verif.Proof.DumpImage
/-!
# ASTs with the same dump
-/
namespace Verif.Proof.Dump
open Verif Verif.Spec

/-! ## Fields and elements -/

theorem fields_flat : ∀ fs : List (Str × RVal), (∀ p ∈ fs, ('\n' ∉ p.1 ∧ p.1.head? ≠ some '.') ∧ RVal.flat p.2) → RFields.flat (mkFields fs)
  | [], _ => by rw [mkFields, RFields.flat]; trivial
  | (n, x) :: fs, h => by
    rw [mkFields, RFields.flat]
    exact ⟨(h (n, x) (by simp)).1, (h (n, x) (by simp)).2, fields_flat fs fun p hp => h p (by simp [hp])⟩

theorem vals_flat : ∀ xs : List RVal, (∀ x ∈ xs, RVal.flat x) → RVals.flat (mkVals xs)
  | [], _ => by rw [mkVals, RVals.flat]; trivial
  | x :: xs, h => by rw [mkVals, RVals.flat]; exact ⟨h x (by simp), vals_flat xs fun y hy => h y (by simp [hy])⟩

/-- A field that can be read back. -/
def FieldOk (p : Str × RVal) : Prop := ':' ∉ p.1 ∧ (p.2 ≠ .nil → if freeText p.1 = true then ∃ s, p.2 = .other s else clearV (pruneV p.2))

theorem fields_clear : ∀ fs : List (Str × RVal), (∀ p ∈ fs, FieldOk p) → clearFs (pruneFs (mkFields fs))
  | [], _ => by rw [mkFields, pruneFs, clearFs]; trivial
  | (n, x) :: fs, h => by
    have ih := fields_clear fs fun p hp => h p (by simp [hp])
    rw [mkFields, pruneFs]
    by_cases hx : x.notNil = true
    · rw [if_pos hx, clearFs]
      obtain ⟨h1, h2⟩ := h (n, x) (by simp)
      have h2 := h2 (by rintro rfl; cases hx)
      refine ⟨⟨h1, by rw [prune_notNil]; exact hx, ?_⟩, ih⟩
      simp only at h2
      split
      · rename_i hf
        rw [if_pos hf] at h2
        obtain ⟨s, rfl⟩ := h2
        exact ⟨s, by rw [pruneV]⟩
      · rename_i hf
        rw [if_neg hf] at h2; exact h2
    · rw [if_neg hx]; exact ih

theorem vals_clear : ∀ xs : List RVal, (∀ x ∈ xs, clearV (pruneV x)) → clearVs (pruneVs (mkVals xs))
  | [], _ => by rw [mkVals, pruneVs, clearVs]; trivial
  | x :: xs, h => by rw [mkVals, pruneVs, clearVs]; exact ⟨h x (by simp), vals_clear xs fun y hy => h y (by simp [hy])⟩

theorem prune_nil {x : RVal} (h : x.notNil ≠ true) : x = .nil := by cases x <;> first | rfl | exact absurd rfl h

theorem first_name : ∀ (fs : List (Str × RVal)) {n z w}, pruneFs (mkFields fs) = .cons n z w → n ∈ fs.map (·.1)
  | [], n, z, w, h => by rw [mkFields, pruneFs] at h; cases h
  | (n', x) :: fs, n, z, w, h => by
    rw [mkFields, pruneFs] at h
    split at h
    · injection h with h _ _; simp [h]
    · have := first_name fs h; simp [List.mem_map] at this ⊢; exact .inr this

/-- Structs with the same fields: what is left of the values is the same. -/
theorem fields_inj : ∀ (a b : List (Str × RVal)), a.map (·.1) = b.map (·.1) → (a.map (·.1)).Nodup → pruneFs (mkFields a) = pruneFs (mkFields b) →
    a.map (fun p => pruneV p.2) = b.map (fun p => pruneV p.2)
  | [], [], _, _, _ => rfl
  | [], _ :: _, h, _, _ => by simp at h
  | _ :: _, [], h, _, _ => by simp at h
  | (n, x) :: a, (n', y) :: b, h, hn, e => by
    simp only [List.map_cons] at h hn ⊢
    injection h with h1 h2
    subst h1
    rw [List.nodup_cons] at hn
    rw [mkFields, mkFields, pruneFs, pruneFs] at e
    by_cases hx : x.notNil = true <;> by_cases hy : y.notNil = true
    · rw [if_pos hx, if_pos hy] at e
      injection e with _ e1 e2
      rw [e1, fields_inj a b h2 hn.2 e2]
    · rw [if_pos hx, if_neg hy] at e
      exact absurd (h2 ▸ first_name b e.symm) hn.1
    · rw [if_neg hx, if_pos hy] at e
      exact absurd (first_name a e) hn.1
    · rw [if_neg hx, if_neg hy] at e
      rw [prune_nil hx, prune_nil hy, fields_inj a b h2 hn.2 e]

theorem vals_inj : ∀ (a b : List RVal), pruneVs (mkVals a) = pruneVs (mkVals b) → a.map pruneV = b.map pruneV
  | [], [], _ => rfl
  | [], _ :: _, h => by rw [mkVals, mkVals, pruneVs, pruneVs] at h; cases h
  | _ :: _, [], h => by rw [mkVals, mkVals, pruneVs, pruneVs] at h; cases h
  | x :: a, y :: b, h => by
    rw [mkVals, mkVals, pruneVs, pruneVs] at h
    injection h with h1 h2
    rw [List.map_cons, List.map_cons, h1, vals_inj a b h2]

theorem slice_inj {t : Str} {a b : List RVal} (h : pruneV (rSlice t a) = pruneV (rSlice t b)) : a.map pruneV = b.map pruneV := by
  cases a with
  | nil =>
    cases b with
    | nil => rfl
    | cons y b => simp only [rSlice, List.isEmpty_nil, List.isEmpty_cons, pruneV] at h; cases h
  | cons x a =>
    cases b with
    | nil => simp only [rSlice, List.isEmpty_nil, List.isEmpty_cons, pruneV] at h; cases h
    | cons y b =>
      simp only [rSlice, List.isEmpty_cons, pruneV] at h
      injection h with _ h
      exact vals_inj _ _ h

theorem struct_inj {t t' : Str} {a b : List (Str × RVal)} (h : pruneV (rStruct t a) = pruneV (rStruct t' b)) : t = t' ∧ pruneFs (mkFields a) = pruneFs (mkFields b) := by
  simp only [rStruct, pruneV] at h
  injection h with _ h
  injection h with h1 h2
  exact ⟨h1, h2⟩

theorem struct_flat {t : Str} {a : List (Str × RVal)} (ht : '\n' ∉ t) (h : ∀ p ∈ a, ('\n' ∉ p.1 ∧ p.1.head? ≠ some '.') ∧ RVal.flat p.2) : RVal.flat (rStruct t a) := by
  rw [rStruct, RVal.flat, RVal.flat]; exact ⟨ht, fields_flat a h⟩

theorem struct_clear {t : Str} {a : List (Str × RVal)} (ht : TypeName t) (h : ∀ p ∈ a, FieldOk p) : clearV (pruneV (rStruct t a)) := by
  rw [rStruct, pruneV, pruneV, clearV, clearV]
  exact ⟨trivial, ht, fields_clear a h⟩

theorem slice_flat {t : Str} {a : List RVal} (ht : '\n' ∉ t) (h : ∀ x ∈ a, RVal.flat x) : RVal.flat (rSlice t a) := by
  unfold rSlice
  split
  · rw [RVal.flat]; trivial
  · rw [RVal.flat]; exact ⟨ht, vals_flat a h⟩

theorem slice_clear {t : Str} {a : List RVal} (ht : TypeName t) (h : ∀ x ∈ a, clearV (pruneV x)) (hn : rSlice t a ≠ .nil) : clearV (pruneV (rSlice t a)) := by
  unfold rSlice at hn ⊢
  split
  · rename_i h0; rw [if_pos h0] at hn; exact absurd rfl hn
  · rw [pruneV, clearV]; exact ⟨ht, vals_clear a h⟩

/-! ## Texts -/

theorem natStr_plain (n : Nat) : PlainText (natStr n) := by
  refine ⟨natStr_nl n, ?_, ?_, ?_, ?_⟩
  · intro h
    have := Verif.Proof.natStr_digit (List.mem_of_mem_head? h)
    revert this; decide
  all_goals
    intro h
    have := Verif.Proof.natStr_digit (List.mem_of_getLast? h)
    revert this; decide

theorem litKind_plain (k : LitKind) : PlainText k.str := by cases k <;> exact ⟨by decide, by decide, by decide, by decide, by decide⟩

theorem bool_plain (b : Bool) : PlainText (if b = true then "true".toList else "false".toList) := by
  cases b <;> exact ⟨by decide, by decide, by decide, by decide, by decide⟩

theorem tok_plain {t : Tok} (h : TokClear t) : PlainText t.str := by
  cases t with
  | other s => exact h.1
  | _ => exact ⟨by decide, by decide, by decide, by decide, by decide⟩

theorem litKind_inj {k k' : LitKind} (h : k.str = k'.str) : k = k' := by
  cases k <;> cases k' <;> first | rfl | exact absurd h (by decide)

theorem bool_inj {b b' : Bool} (h : rBool b = rBool b') : b = b' := by
  unfold rBool at h
  injection h with h
  cases b <;> cases b' <;> first | rfl | exact absurd h (by decide)

theorem tok_inj {t t' : Tok} (h : TokClear t) (h' : TokClear t') (e : t.str = t'.str) : t = t' := by
  cases t with
  | other s => exact (h.2 t' e.symm).symm
  | _ =>
    cases t' with
    | other s' => exact h'.2 _ e
    | _ => first | rfl | exact absurd e (by decide)

theorem pos_inj {n n' : Nat} (h : pruneV (rPos n) = pruneV (rPos n')) : n = n' := by
  simp only [rPos, pruneV] at h
  injection h with h
  exact natStr_inj h

/-! ## Go expressions -/

theorem ff {n : Str} {x : RVal} (h : '\n' ∉ n ∧ n.head? ≠ some '.') (hx : RVal.flat x) : ('\n' ∉ (n, x).1 ∧ (n, x).1.head? ≠ some '.') ∧ RVal.flat (n, x).2 := ⟨h, hx⟩

theorem fo {n : Str} {x : RVal} (h : ':' ∉ n ∧ freeText n = false) (hx : x ≠ .nil → clearV (pruneV x)) : FieldOk (n, x) :=
  ⟨h.1, fun e => by simp only [h.2]; exact hx e⟩

theorem fo_free {n : Str} {s : Str} (h : ':' ∉ n ∧ freeText n = true) : FieldOk (n, .other s) :=
  ⟨h.1, fun _ => by simp only [h.2]; exact ⟨s, rfl⟩⟩

theorem fa {p : α} {l : List α} {P : α → Prop} (h : P p) (hl : ∀ x ∈ l, P x) : ∀ x ∈ p :: l, P x := List.forall_mem_cons.2 ⟨h, hl⟩
theorem fz {P : α → Prop} : ∀ x ∈ ([] : List α), P x := by simp

theorem other_flat {s : Str} (h : '\n' ∉ s) : RVal.flat (.other s) := by rw [RVal.flat]; exact h
theorem pos_flat (n : Nat) : RVal.flat (rPos n) := other_flat (natStr_nl n)
theorem string_flat (s : Str) : RVal.flat (.string s) := by rw [RVal.flat]; trivial
theorem nil_flat : RVal.flat .nil := by rw [RVal.flat]; trivial
theorem ident_flat (p : Nat) (s : Str) : RVal.flat (rIdent p s) :=
  struct_flat (by decide) (fa (ff (by decide) (pos_flat p)) (fa (ff (by decide) (string_flat s)) (fa (ff (by decide) nil_flat) fz)))

mutual
theorem go_flat : ∀ e, GoClear e → RVal.flat e.rval
  | .nil, _ => by rw [GoExpr.rval]; exact nil_flat
  | .ident p s, _ => by rw [GoExpr.rval]; exact ident_flat p s
  | .basicLit p k v, _ => by
    rw [GoExpr.rval]
    exact struct_flat (by decide) (fa (ff (by decide) (pos_flat p)) (fa (ff (by decide) (other_flat (litKind_plain k).1)) (fa (ff (by decide) (string_flat v)) fz)))
  | .paren l x r, h => by
    rw [GoClear] at h
    rw [GoExpr.rval]
    exact struct_flat (by decide) (fa (ff (by decide) (pos_flat l)) (fa (ff (by decide) (go_flat x h)) (fa (ff (by decide) (pos_flat r)) fz)))
  | .unary p op x, h => by
    rw [GoClear] at h
    rw [GoExpr.rval]
    exact struct_flat (by decide) (fa (ff (by decide) (pos_flat p)) (fa (ff (by decide) (other_flat (tok_plain h.1).1)) (fa (ff (by decide) (go_flat x h.2)) fz)))
  | .binary x p op y, h => by
    rw [GoClear] at h
    rw [GoExpr.rval]
    exact struct_flat (by decide) (fa (ff (by decide) (go_flat x h.1)) (fa (ff (by decide) (pos_flat p)) (fa (ff (by decide) (other_flat (tok_plain h.2.1).1))
      (fa (ff (by decide) (go_flat y h.2.2)) fz))))
  | .call f l args e r, h => by
    rw [GoClear] at h
    rw [GoExpr.rval]
    exact struct_flat (by decide) (fa (ff (by decide) (go_flat f h.1)) (fa (ff (by decide) (pos_flat l)) (fa (ff (by decide) (slice_flat (by decide) (gos_flat args h.2)))
      (fa (ff (by decide) (pos_flat e)) (fa (ff (by decide) (pos_flat r)) fz)))))
  | .star p x, h => by
    rw [GoClear] at h
    rw [GoExpr.rval]
    exact struct_flat (by decide) (fa (ff (by decide) (pos_flat p)) (fa (ff (by decide) (go_flat x h)) fz))
  | .selector x p n, h => by
    rw [GoClear] at h
    rw [GoExpr.rval]
    exact struct_flat (by decide) (fa (ff (by decide) (go_flat x h)) (fa (ff (by decide) (ident_flat p n)) fz))
  | .other k, h => by rw [GoClear] at h; exact h.elim
theorem gos_flat : ∀ es, GoClears es → ∀ x ∈ goRvals es, RVal.flat x
  | [], _ => by rw [goRvals]; simp
  | e :: es, h => by
    rw [GoClears] at h
    rw [goRvals]
    exact fa (go_flat e h.1.2) (gos_flat es h.2)
end

/-- The name of a type, as a test. -/
def typeName (t : Str) : Bool := !t.contains ' ' && match t with | [] => false | c :: _ => c != '*' && c != '"' && c != '('

theorem typeName_ok {t : Str} (h : typeName t = true) : TypeName t := by
  unfold typeName at h
  cases t with
  | nil => simp at h
  | cons c u =>
    simp only [Bool.and_eq_true, Bool.not_eq_true', bne_iff_ne, ne_eq] at h
    refine ⟨?_, c, u, rfl, h.2.1.1, h.2.1.2, h.2.2⟩
    intro hm
    have := List.contains_iff_mem.2 hm
    rw [h.1] at this; cases this

theorem other_clear {s : Str} (h : PlainText s) (_ : RVal.other s ≠ .nil) : clearV (pruneV (.other s)) := by rw [pruneV, clearV]; exact h
theorem pos_clear (n : Nat) (_ : rPos n ≠ .nil) : clearV (pruneV (rPos n)) := by rw [rPos, pruneV, clearV]; exact natStr_plain n
theorem string_clear (s : Str) (_ : RVal.string s ≠ .nil) : clearV (pruneV (.string s)) := by rw [pruneV, clearV]; trivial
theorem nil_clear (h : RVal.nil ≠ .nil) : clearV (pruneV .nil) := absurd rfl h
theorem ident_clear (p : Nat) (s : Str) (_ : rIdent p s ≠ .nil) : clearV (pruneV (rIdent p s)) :=
  struct_clear (typeName_ok (by decide)) (fa (fo (by decide) (pos_clear p)) (fa (fo (by decide) (string_clear s)) (fa (fo (by decide) nil_clear) fz)))

theorem rval_nil {e : GoExpr} (h : e.rval = .nil) : e = .nil := by
  cases e <;> simp only [GoExpr.rval, rIdent, rStruct] at h <;> first | rfl | cases h

mutual
theorem go_clear : ∀ e, GoClear e → e.rval ≠ .nil → clearV (pruneV e.rval)
  | .nil, _, h => by rw [GoExpr.rval] at h; exact absurd rfl h
  | .ident p s, _, _ => by rw [GoExpr.rval]; exact ident_clear p s (by simp [rIdent, rStruct])
  | .basicLit p k v, _, _ => by
    rw [GoExpr.rval]
    exact struct_clear (typeName_ok (by decide)) (fa (fo (by decide) (pos_clear p)) (fa (fo (by decide) (other_clear (litKind_plain k))) (fa (fo (by decide) (string_clear v)) fz)))
  | .paren l x r, h, _ => by
    rw [GoClear] at h
    rw [GoExpr.rval]
    exact struct_clear (typeName_ok (by decide)) (fa (fo (by decide) (pos_clear l)) (fa (fo (by decide) (go_clear x h)) (fa (fo (by decide) (pos_clear r)) fz)))
  | .unary p op x, h, _ => by
    rw [GoClear] at h
    rw [GoExpr.rval]
    exact struct_clear (typeName_ok (by decide)) (fa (fo (by decide) (pos_clear p)) (fa (fo (by decide) (other_clear (tok_plain h.1))) (fa (fo (by decide) (go_clear x h.2)) fz)))
  | .binary x p op y, h, _ => by
    rw [GoClear] at h
    rw [GoExpr.rval]
    exact struct_clear (typeName_ok (by decide)) (fa (fo (by decide) (go_clear x h.1)) (fa (fo (by decide) (pos_clear p)) (fa (fo (by decide) (other_clear (tok_plain h.2.1)))
      (fa (fo (by decide) (go_clear y h.2.2)) fz))))
  | .call f l args e r, h, _ => by
    rw [GoClear] at h
    rw [GoExpr.rval]
    exact struct_clear (typeName_ok (by decide)) (fa (fo (by decide) (go_clear f h.1)) (fa (fo (by decide) (pos_clear l))
      (fa (fo (by decide) (slice_clear (typeName_ok (by decide)) (gos_clear args h.2)))
      (fa (fo (by decide) (pos_clear e)) (fa (fo (by decide) (pos_clear r)) fz)))))
  | .star p x, h, _ => by
    rw [GoClear] at h
    rw [GoExpr.rval]
    exact struct_clear (typeName_ok (by decide)) (fa (fo (by decide) (pos_clear p)) (fa (fo (by decide) (go_clear x h)) fz))
  | .selector x p n, h, _ => by
    rw [GoClear] at h
    rw [GoExpr.rval]
    exact struct_clear (typeName_ok (by decide)) (fa (fo (by decide) (go_clear x h)) (fa (fo (by decide) (ident_clear p n)) fz))
  | .other k, h, _ => by rw [GoClear] at h; exact h.elim
theorem gos_clear : ∀ es, GoClears es → ∀ x ∈ goRvals es, clearV (pruneV x)
  | [], _ => by rw [goRvals]; simp
  | e :: es, h => by
    rw [GoClears] at h
    rw [goRvals]
    exact fa (go_clear e h.1.2 (fun e0 => h.1.1 (rval_nil e0))) (gos_clear es h.2)
end

/-- The values of the fields of two structs with the same fields. -/
theorem struct_vals {t : Str} {a b : List (Str × RVal)} (h : pruneV (rStruct t a) = pruneV (rStruct t b)) (hn : a.map (·.1) = b.map (·.1)) (hd : (a.map (·.1)).Nodup) :
    a.map (fun p => pruneV p.2) = b.map (fun p => pruneV p.2) := fields_inj a b hn hd (struct_inj h).2

theorem other_inj {s s' : Str} (h : pruneV (.other s) = pruneV (.other s')) : s = s' := by simp only [pruneV] at h; injection h
theorem string_inj {s s' : Str} (h : pruneV (.string s) = pruneV (.string s')) : s = s' := by simp only [pruneV] at h; injection h

theorem prune_nil_iff {x : RVal} (h : pruneV x = .nil) : x = .nil := by cases x <;> simp only [pruneV] at h <;> first | rfl | cases h

theorem ident_inj {p p' : Nat} {s s' : Str} (h : pruneV (rIdent p s) = pruneV (rIdent p' s')) : p = p' ∧ s = s' := by
  have := struct_vals h rfl (by show List.Nodup ["NamePos".toList, "Name".toList, "Obj".toList]; decide)
  simp only [List.map_cons, List.map_nil] at this
  injection this with h1 this
  injection this with h2 _
  exact ⟨pos_inj h1, string_inj h2⟩

end Verif.Proof.Dump

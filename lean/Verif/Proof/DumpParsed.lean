import Verif.Proof.DumpInj
import Verif.Proof.DumpTree
import Verif.Proof.ParseWF
/-!
# The dump of an AST that the parser makes
-/
namespace Verif.Proof.Dump
open Verif Verif.Spec

theorem word_plain {s : Str} (h : ∀ c ∈ s, isWordChar c = true) : PlainText s := by
  have hn : ∀ c, isWordChar c = false → c ∉ s := fun c hc hm => by rw [h c hm] at hc; cases hc
  refine ⟨hn '\n' (by decide), ?_, ?_, ?_, ?_⟩
  · intro e; exact hn '"' (by decide) (List.mem_of_mem_head? e)
  · intro e; exact hn '{' (by decide) (List.mem_of_getLast? e)
  · intro e; exact hn '}' (by decide) (List.mem_of_getLast? e)
  · intro e; exact hn ')' (by decide) (List.mem_of_getLast? e)

theorem lower_word {c : Char} (h : isLower c = true) : isWordChar c = true := by
  unfold isWordChar; rw [h]; simp

theorem ident_word {s : Str} (h : Ident s) : ∀ c ∈ s, isWordChar c = true := by
  obtain ⟨c, t, rfl, hc, ht⟩ := h
  intro d hd
  rcases List.mem_cons.1 hd with rfl | hd
  · exact lower_word hc
  · exact ht d hd

mutual
theorem go_ok : ∀ e, goSupported e = true → (∀ o ∈ goToks e, TokClear o) → GoClear e
  | .nil, _, _ => by rw [GoClear]; trivial
  | .ident _ _, _, _ => by rw [GoClear]; trivial
  | .basicLit _ _ _, _, _ => by rw [GoClear]; trivial
  | .paren _ x _, h, ht => by rw [goSupported] at h; rw [goToks] at ht; rw [GoClear]; exact go_ok x h ht
  | .unary _ op x, h, ht => by
    rw [goSupported] at h; rw [goToks] at ht; rw [GoClear]
    exact ⟨ht op (by simp), go_ok x h fun o ho => ht o (by simp [ho])⟩
  | .binary x _ op y, h, ht => by
    rw [goSupported, Bool.and_eq_true] at h; rw [goToks] at ht; rw [GoClear]
    exact ⟨go_ok x h.1 fun o ho => ht o (by simp [ho]), ht op (by simp), go_ok y h.2 fun o ho => ht o (by simp [ho])⟩
  | .call f _ args _ _, h, ht => by
    rw [goSupported, Bool.and_eq_true] at h; rw [goToks] at ht; rw [GoClear]
    exact ⟨go_ok f h.1 fun o ho => ht o (by simp [ho]), gos_ok args h.2 fun o ho => ht o (by simp [ho])⟩
  | .star _ x, h, ht => by rw [goSupported] at h; rw [goToks] at ht; rw [GoClear]; exact go_ok x h ht
  | .selector x _ _, h, ht => by rw [goSupported] at h; rw [goToks] at ht; rw [GoClear]; exact go_ok x h ht
  | .other _, h, _ => by rw [goSupported] at h; cases h
theorem gos_ok : ∀ es, goSupporteds es = true → (∀ o ∈ goTokss es, TokClear o) → GoClears es
  | [], _, _ => by rw [GoClears]; trivial
  | e :: es, h, ht => by
    rw [goSupporteds, Bool.and_eq_true] at h; rw [goTokss] at ht; rw [GoClears]
    exact ⟨⟨(by rintro rfl; rw [goSupported] at h; exact Bool.noConfusion h.1), go_ok e h.1 fun o ho => ht o (by simp [ho])⟩, gos_ok es h.2 fun o ho => ht o (by simp [ho])⟩
end

theorem opt_ok {o : Option GoExpr} (h : OptClean o) (ht : ∀ k ∈ optToks o, TokClear k) : OptClear o := by
  cases o with
  | none => trivial
  | some e => exact go_ok e h.1 ht

theorem op_ok {o : Op} (h : OpWF o) : OpClear o := by
  cases o with
  | nil => trivial
  | opcode s => exact word_plain h.2
  | parts ps =>
    intro p hp
    have := h.2.1 p hp
    cases p with
    | nil => exact this
    | opcode s => exact word_plain this.2
    | alt cs => exact fun c hc => word_plain (this.2 c hc).2

theorem word_nl {s : Str} (h : s = [] ∨ Ident s) : '\n' ∉ s := by
  rcases h with rfl | h
  · simp
  · exact (word_plain (ident_word h)).1

mutual
theorem value_ok : ∀ v, ValueWF v → (∀ o ∈ valueToks v, TokClear o) → (∀ t ∈ valueTypes v, '\n' ∉ t) → ValueClear v
  | .nil, h, _, _ => by rw [ValueWF] at h; exact h.elim
  | .var s, h, _, _ => by
    rw [ValueWF] at h; rw [ValueClear]
    rcases h with h | rfl
    · exact word_plain (ident_word h)
    · exact word_plain (by intro c hc; rw [List.mem_singleton.1 hc]; decide)
  | .expr e, h, ht, _ => by rw [ValueWF] at h; rw [valueToks] at ht; rw [ValueClear]; exact go_ok e h.1 ht
  | .sexpr hd args, h, ht, hy => by
    rw [ValueWF] at h; rw [valueToks] at ht; rw [valueTypes] at hy; rw [ValueClear]
    exact ⟨word_nl h.1, op_ok h.2.1, hy _ (by simp), opt_ok h.2.2.2.1 fun o ho => ht o (by simp [ho]), opt_ok h.2.2.2.2.1 fun o ho => ht o (by simp [ho]),
      values_ok args h.2.2.2.2.2 (fun o ho => ht o (by simp [ho])) fun t h => hy t (by simp [h])⟩
theorem values_ok : ∀ vs, ValuesWF vs → (∀ o ∈ valuesToks vs, TokClear o) → (∀ t ∈ valuesTypes vs, '\n' ∉ t) → ValuesClear vs
  | [], _, _, _ => by rw [ValuesClear]; trivial
  | v :: vs, h, ht, hy => by
    rw [ValuesWF] at h; rw [valuesToks] at ht; rw [valuesTypes] at hy; rw [ValuesClear]
    exact ⟨⟨(by rintro rfl; have := h.1; rw [ValueWF] at this; exact this), value_ok v h.1 (fun o ho => ht o (by simp [ho])) fun t h => hy t (by simp [h])⟩,
      values_ok vs h.2 (fun o ho => ht o (by simp [ho])) fun t h => hy t (by simp [h])⟩
end

theorem rule_ok {r : Rule} (h : RuleWF r) (ht : ∀ o ∈ ruleToks r, TokClear o) (hy : ∀ t ∈ ruleTypes r, '\n' ∉ t) : RuleClear r :=
  ⟨value_ok _ h.1 (fun o ho => ht o (by simp [ruleToks, ho])) fun t h => hy t (by simp [ruleTypes, h]), opt_ok h.2.1 fun o ho => ht o (by simp [ruleToks, ho]),
    value_ok _ h.2.2.2 (fun o ho => ht o (by simp [ruleToks, ho])) fun t h => hy t (by simp [ruleTypes, h])⟩

/-! ## Every AST is somewhere in memory -/

mutual
/-- Number the pointers, from `k` on. -/
def numberV (k : Nat) : RVal → RVal × Nat
  | .nil => (.nil, k)
  | .ptr _ x => (.ptr k (numberV (k + 1) x).1, (numberV (k + 1) x).2)
  | .slice t xs => (.slice t (numberVs k xs).1, (numberVs k xs).2)
  | .struct t fs => (.struct t (numberFs k fs).1, (numberFs k fs).2)
  | .string s => (.string s, k)
  | .other s => (.other s, k)
def numberVs (k : Nat) : RVals → RVals × Nat
  | .nil => (.nil, k)
  | .cons x xs => (.cons (numberV k x).1 (numberVs (numberV k x).2 xs).1, (numberVs (numberV k x).2 xs).2)
def numberFs (k : Nat) : RFields → RFields × Nat
  | .nil => (.nil, k)
  | .cons n x fs => (.cons n (numberV k x).1 (numberFs (numberV k x).2 fs).1, (numberFs (numberV k x).2 fs).2)
end

mutual
theorem number_strip : ∀ x k, (numberV k x).1.strip = x.strip
  | .nil, k => by rw [numberV]
  | .ptr a x, k => by rw [numberV, RVal.strip, RVal.strip, number_strip x]
  | .slice t xs, k => by rw [numberV, RVal.strip, RVal.strip, numbers_strip xs]
  | .struct t fs, k => by rw [numberV, RVal.strip, RVal.strip, numberFs_strip fs]
  | .string s, k => by rw [numberV]
  | .other s, k => by rw [numberV]
theorem numbers_strip : ∀ xs k, (numberVs k xs).1.strip = xs.strip
  | .nil, k => by rw [numberVs]
  | .cons x xs, k => by rw [numberVs, RVals.strip, RVals.strip, number_strip x, numbers_strip xs]
theorem numberFs_strip : ∀ fs k, (numberFs k fs).1.strip = fs.strip
  | .nil, k => by rw [numberFs]
  | .cons n x fs, k => by rw [numberFs, RFields.strip, RFields.strip, number_strip x, numberFs_strip fs]
end

theorem range'_split (a b c : Nat) (h1 : a ≤ b) (h2 : b ≤ c) : List.range' a (b - a) ++ List.range' b (c - b) = List.range' a (c - a) := by
  have : List.range' b (c - b) = List.range' (a + 1 * (b - a)) (c - b) := by congr 1; omega
  rw [this, List.range'_append]
  congr 1; omega

mutual
theorem number_addrs : ∀ x k, k ≤ (numberV k x).2 ∧ addrs (numberV k x).1 = List.range' k ((numberV k x).2 - k)
  | .nil, k => by rw [numberV, addrs]; simp
  | .ptr a x, k => by
    obtain ⟨h1, h2⟩ := number_addrs x (k + 1)
    rw [numberV, addrs]
    refine ⟨by simp only; omega, ?_⟩
    simp only
    rw [h2, show (numberV (k + 1) x).2 - k = ((numberV (k + 1) x).2 - (k + 1)) + 1 by omega, List.range'_succ]
  | .slice t xs, k => by rw [numberV, addrs]; exact numbers_addrs xs k
  | .struct t fs, k => by rw [numberV, addrs]; exact numberFs_addrs fs k
  | .string s, k => by rw [numberV, addrs]; simp
  | .other s, k => by rw [numberV, addrs]; simp
theorem numbers_addrs : ∀ xs k, k ≤ (numberVs k xs).2 ∧ addrsVs (numberVs k xs).1 = List.range' k ((numberVs k xs).2 - k)
  | .nil, k => by rw [numberVs, addrsVs]; simp
  | .cons x xs, k => by
    obtain ⟨h1, h2⟩ := number_addrs x k
    obtain ⟨h3, h4⟩ := numbers_addrs xs (numberV k x).2
    rw [numberVs, addrsVs]
    refine ⟨by simp only; omega, ?_⟩
    simp only
    rw [h2, h4, range'_split _ _ _ h1 h3]
theorem numberFs_addrs : ∀ fs k, k ≤ (numberFs k fs).2 ∧ addrsFs (numberFs k fs).1 = List.range' k ((numberFs k fs).2 - k)
  | .nil, k => by rw [numberFs, addrsFs]; simp
  | .cons n x fs, k => by
    obtain ⟨h1, h2⟩ := number_addrs x k
    obtain ⟨h3, h4⟩ := numberFs_addrs fs (numberV k x).2
    rw [numberFs, addrsFs]
    refine ⟨by simp only; omega, ?_⟩
    simp only
    rw [h2, h4, range'_split _ _ _ h1 h3]
end

mutual
/-- The pointers with what they point to. -/
def ptrs : RVal → List (Nat × RVal)
  | .nil => []
  | .ptr a x => (a, x) :: ptrs x
  | .slice _ xs => ptrsVs xs
  | .struct _ fs => ptrsFs fs
  | .string _ => []
  | .other _ => []
def ptrsVs : RVals → List (Nat × RVal)
  | .nil => []
  | .cons x xs => ptrs x ++ ptrsVs xs
def ptrsFs : RFields → List (Nat × RVal)
  | .nil => []
  | .cons _ x fs => ptrs x ++ ptrsFs fs
end

mutual
theorem ptrs_addrs : ∀ x, (ptrs x).map (·.1) = addrs x
  | .nil => by rw [ptrs, addrs]; rfl
  | .ptr a x => by rw [ptrs, addrs, List.map_cons, ptrs_addrs x]
  | .slice t xs => by rw [ptrs, addrs, ptrsVs_addrs xs]
  | .struct t fs => by rw [ptrs, addrs, ptrsFs_addrs fs]
  | .string s => by rw [ptrs, addrs]; rfl
  | .other s => by rw [ptrs, addrs]; rfl
theorem ptrsVs_addrs : ∀ xs, (ptrsVs xs).map (·.1) = addrsVs xs
  | .nil => by rw [ptrsVs, addrsVs]; rfl
  | .cons x xs => by rw [ptrsVs, addrsVs, List.map_append, ptrs_addrs x, ptrsVs_addrs xs]
theorem ptrsFs_addrs : ∀ fs, (ptrsFs fs).map (·.1) = addrsFs fs
  | .nil => by rw [ptrsFs, addrsFs]; rfl
  | .cons n x fs => by rw [ptrsFs, addrsFs, List.map_append, ptrs_addrs x, ptrsFs_addrs fs]
end

mutual
theorem ptrs_heap (H : Nat → RVal) : ∀ x, (∀ p ∈ ptrs x, p.2 = H p.1) → inHeap H x
  | .nil, h => by rw [inHeap]; trivial
  | .ptr a x, h => by
    rw [ptrs] at h
    rw [inHeap]
    exact ⟨h (a, x) (by simp), ptrs_heap H x fun p hp => h p (by simp [hp])⟩
  | .slice t xs, h => by rw [ptrs] at h; rw [inHeap]; exact ptrsVs_heap H xs h
  | .struct t fs, h => by rw [ptrs] at h; rw [inHeap]; exact ptrsFs_heap H fs h
  | .string s, h => by rw [inHeap]; trivial
  | .other s, h => by rw [inHeap]; trivial
theorem ptrsVs_heap (H : Nat → RVal) : ∀ xs, (∀ p ∈ ptrsVs xs, p.2 = H p.1) → inHeapVs H xs
  | .nil, h => by rw [inHeapVs]; trivial
  | .cons x xs, h => by
    rw [ptrsVs] at h
    rw [inHeapVs]
    exact ⟨ptrs_heap H x fun p hp => h p (by simp [hp]), ptrsVs_heap H xs fun p hp => h p (by simp [hp])⟩
theorem ptrsFs_heap (H : Nat → RVal) : ∀ fs, (∀ p ∈ ptrsFs fs, p.2 = H p.1) → inHeapFs H fs
  | .nil, h => by rw [inHeapFs]; trivial
  | .cons n x fs, h => by
    rw [ptrsFs] at h
    rw [inHeapFs]
    exact ⟨ptrs_heap H x fun p hp => h p (by simp [hp]), ptrsFs_heap H fs fun p hp => h p (by simp [hp])⟩
end

def heapOf : List (Nat × RVal) → Nat → RVal
  | [], _ => .nil
  | (a, x) :: ps, b => if a = b then x else heapOf ps b

theorem heapOf_mem : ∀ (ps : List (Nat × RVal)), (ps.map (·.1)).Nodup → ∀ p ∈ ps, p.2 = heapOf ps p.1
  | [], _, p, hp => by cases hp
  | (a, x) :: ps, hn, p, hp => by
    rw [List.map_cons, List.nodup_cons] at hn
    rw [heapOf]
    rcases List.mem_cons.1 hp with rfl | hp
    · rw [if_pos rfl]
    · rw [if_neg, heapOf_mem ps hn.2 p hp]
      intro e
      exact hn.1 (List.mem_map.2 ⟨p, hp, e.symm⟩)

theorem nodup_heap {x : RVal} (h : (addrs x).Nodup) : ∃ H, inHeap H x :=
  ⟨heapOf (ptrs x), ptrs_heap _ x (heapOf_mem _ (by rw [ptrs_addrs]; exact h))⟩

/-! ### The addresses in `Node.rval` are all 0 -/

theorem fields_strip : ∀ fs : List (Str × RVal), (∀ p ∈ fs, p.2.strip = p.2) → (mkFields fs).strip = mkFields fs
  | [], _ => by rw [mkFields, RFields.strip]
  | (n, x) :: fs, h => by rw [mkFields, RFields.strip, h (n, x) (by simp), fields_strip fs fun p hp => h p (by simp [hp])]

theorem vals_strip : ∀ xs : List RVal, (∀ x ∈ xs, x.strip = x) → (mkVals xs).strip = mkVals xs
  | [], _ => by rw [mkVals, RVals.strip]
  | x :: xs, h => by rw [mkVals, RVals.strip, h x (by simp), vals_strip xs fun p hp => h p (by simp [hp])]

theorem rStruct_strip {t : Str} {fs : List (Str × RVal)} (h : ∀ p ∈ fs, p.2.strip = p.2) : (rStruct t fs).strip = rStruct t fs := by
  rw [rStruct, RVal.strip, RVal.strip, fields_strip fs h]

theorem rSlice_strip {t : Str} {xs : List RVal} (h : ∀ x ∈ xs, x.strip = x) : (rSlice t xs).strip = rSlice t xs := by
  unfold rSlice
  split
  · rw [RVal.strip]
  · rw [RVal.strip, vals_strip xs h]

theorem fs {n : Str} {x : RVal} (h : x.strip = x) : (n, x).2.strip = (n, x).2 := h
theorem other_strip (s : Str) : (RVal.other s).strip = .other s := by rw [RVal.strip]
theorem string_strip (s : Str) : (RVal.string s).strip = .string s := by rw [RVal.strip]
theorem nil_strip : RVal.nil.strip = .nil := by rw [RVal.strip]
theorem pos_strip (n : Nat) : (rPos n).strip = rPos n := other_strip _
theorem ident_strip (p : Nat) (s : Str) : (rIdent p s).strip = rIdent p s :=
  rStruct_strip (fa (fs (pos_strip p)) (fa (fs (string_strip s)) (fa (fs nil_strip) fz)))

mutual
theorem go_strip : ∀ e : GoExpr, e.rval.strip = e.rval
  | .nil => by rw [GoExpr.rval]; exact nil_strip
  | .ident p s => by rw [GoExpr.rval]; exact ident_strip p s
  | .basicLit p k v => by rw [GoExpr.rval]; exact rStruct_strip (fa (fs (pos_strip p)) (fa (fs (other_strip _)) (fa (fs (string_strip v)) fz)))
  | .paren l x r => by rw [GoExpr.rval]; exact rStruct_strip (fa (fs (pos_strip l)) (fa (fs (go_strip x)) (fa (fs (pos_strip r)) fz)))
  | .unary p op x => by rw [GoExpr.rval]; exact rStruct_strip (fa (fs (pos_strip p)) (fa (fs (other_strip _)) (fa (fs (go_strip x)) fz)))
  | .binary x p op y => by
    rw [GoExpr.rval]; exact rStruct_strip (fa (fs (go_strip x)) (fa (fs (pos_strip p)) (fa (fs (other_strip _)) (fa (fs (go_strip y)) fz))))
  | .call f l args e r => by
    rw [GoExpr.rval]
    exact rStruct_strip (fa (fs (go_strip f)) (fa (fs (pos_strip l)) (fa (fs (rSlice_strip (gos_strip args))) (fa (fs (pos_strip e)) (fa (fs (pos_strip r)) fz)))))
  | .star p x => by rw [GoExpr.rval]; exact rStruct_strip (fa (fs (pos_strip p)) (fa (fs (go_strip x)) fz))
  | .selector x p n => by rw [GoExpr.rval]; exact rStruct_strip (fa (fs (go_strip x)) (fa (fs (ident_strip p n)) fz))
  | .other k => by rw [GoExpr.rval]; exact other_strip k
theorem gos_strip : ∀ es : List GoExpr, ∀ x ∈ goRvals es, x.strip = x
  | [] => by rw [goRvals]; exact fz
  | e :: es => by rw [goRvals]; exact fa (go_strip e) (gos_strip es)
end

theorem expr_strip (e : GoExpr) : (exprRval e).strip = exprRval e := rStruct_strip (fa (fs (go_strip e)) fz)
theorem opt_strip (o : Option GoExpr) : (optRval o).strip = optRval o := by
  cases o with
  | none => exact nil_strip
  | some e => exact expr_strip e
theorem map_strip {f : α → RVal} (h : ∀ a, (f a).strip = f a) (l : List α) : ∀ x ∈ l.map f, x.strip = x := by
  intro x hx
  obtain ⟨a, _, rfl⟩ := List.mem_map.1 hx
  exact h a
theorem alt_strip (cs : List Str) : (altRval cs).strip = altRval cs := by rw [altRval, RVal.strip, vals_strip _ (map_strip (f := opcodeRval) (fun s => other_strip s) cs)]
theorem part_strip (p : OpPart) : p.rval.strip = p.rval := by
  cases p with
  | nil => exact nil_strip
  | opcode s => exact other_strip s
  | alt cs => exact alt_strip cs
theorem parts_strip (ps : List OpPart) : (partsRval ps).strip = partsRval ps := by rw [partsRval, RVal.strip, vals_strip _ (map_strip part_strip ps)]
theorem op_strip (o : Op) : o.rval.strip = o.rval := by
  cases o with
  | nil => exact nil_strip
  | opcode s => exact other_strip s
  | parts ps => exact parts_strip ps
theorem sexpr_strip (h : Hdr) {args : List RVal} (ha : ∀ x ∈ args, x.strip = x) : (sexprRval h args).strip = sexprRval h args :=
  rStruct_strip (fa (fs (other_strip _)) (fa (fs (op_strip _)) (fa (fs (other_strip _)) (fa (fs (opt_strip _)) (fa (fs (opt_strip _)) (fa (fs (rSlice_strip ha))
    (fa (fs (other_strip _)) (fa (fs (other_strip _)) fz))))))))

mutual
theorem value_strip : ∀ v : Value, v.rval.strip = v.rval
  | .nil => by rw [Value.rval]; exact nil_strip
  | .sexpr h args => by rw [Value.rval]; exact sexpr_strip h (values_strip args)
  | .expr e => by rw [Value.rval]; exact expr_strip e
  | .var v => by rw [Value.rval]; exact other_strip v
theorem values_strip : ∀ vs : List Value, ∀ x ∈ valueRvals vs, x.strip = x
  | [] => by rw [valueRvals]; exact fz
  | v :: vs => by rw [valueRvals]; exact fa (value_strip v) (values_strip vs)
end

theorem rule_strip (r : Rule) : r.rval.strip = r.rval := rStruct_strip (fa (fs (value_strip _)) (fa (fs (opt_strip _)) (fa (fs (string_strip _)) (fa (fs (value_strip _)) fz))))
theorem file_strip (f : File) : f.rval.strip = f.rval := rStruct_strip (fa (fs (rSlice_strip (map_strip rule_strip _))) fz)

theorem node_strip (n : Node) : n.rval.strip = n.rval := by
  cases n with
  | nil => exact nil_strip
  | file f => exact file_strip f
  | rule r => exact rule_strip r
  | sexpr h args => exact sexpr_strip h (values_strip args)
  | opcode s => exact other_strip s
  | parts ps => exact parts_strip ps
  | alt cs => exact alt_strip cs
  | expr e => exact expr_strip e
  | var v => exact other_strip v

/-- The AST in a new memory. -/
def freshImage (n : Node) : RVal := (numberV 0 n.rval).1

theorem fresh_tree (n : Node) : TreeImage n (freshImage n) := by
  refine ⟨by rw [freshImage, number_strip, node_strip], ?_⟩
  rw [freshImage, (number_addrs n.rval 0).2]
  exact List.nodup_range'

theorem tree_image {n : Node} {t : RVal} (h : TreeImage n t) : Image n t := ⟨h.1, nodup_heap h.2⟩

end Verif.Proof.Dump

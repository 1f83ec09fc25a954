import Verif.Proof.DumpNode
/-!
# ASTs with the same dump are the same
-/
namespace Verif.Proof.Dump
open Verif Verif.Spec

/-- The name of the type. -/
def typeOf : RVal → Option Str
  | .ptr _ (.struct t _) => some t
  | _ => none

theorem type_prune (x : RVal) : typeOf (pruneV x) = typeOf x := by
  cases x with
  | ptr a x => cases x <;> simp only [pruneV, typeOf]
  | _ => simp only [pruneV, typeOf]

theorem type_struct (t : Str) (a : List (Str × RVal)) : typeOf (rStruct t a) = some t := rfl

theorem type_eq {x y : RVal} (h : pruneV x = pruneV y) : typeOf x = typeOf y := by rw [← type_prune x, h, type_prune]

/-- The name of the type of a Go expression. -/
def goType : GoExpr → Option Str
  | .nil => none
  | .ident .. => some "ast.Ident".toList
  | .basicLit .. => some "ast.BasicLit".toList
  | .paren .. => some "ast.ParenExpr".toList
  | .unary .. => some "ast.UnaryExpr".toList
  | .binary .. => some "ast.BinaryExpr".toList
  | .call .. => some "ast.CallExpr".toList
  | .star .. => some "ast.StarExpr".toList
  | .selector .. => some "ast.SelectorExpr".toList
  | .other _ => none

theorem goType_eq (e : GoExpr) : typeOf e.rval = goType e := by
  cases e <;> simp only [GoExpr.rval, rIdent, type_struct, goType] <;> rfl

theorem go_types {e e' : GoExpr} (h : pruneV e.rval = pruneV e'.rval) : goType e = goType e' := by
  rw [← goType_eq, type_eq h, goType_eq]

mutual
theorem go_inj : ∀ e e', GoClear e → GoClear e' → pruneV e.rval = pruneV e'.rval → e = e'
  | .nil, e', _, h', h => by
    have ht := go_types h
    cases e' with
    | nil => rfl
    | other k => rw [GoClear] at h'; exact h'.elim
    | _ => exact absurd ht (by simp [goType])
  | .ident p s, e', _, h', h => by
    have ht := go_types h
    cases e' with
    | ident p' s' =>
      simp only [GoExpr.rval] at h
      obtain ⟨rfl, rfl⟩ := ident_inj h
      rfl
    | _ => exact absurd ht (by simp only [goType]; decide)
  | .basicLit p k v, e', _, h', h => by
    have ht := go_types h
    cases e' with
    | basicLit p' k' v' =>
      simp only [GoExpr.rval] at h
      have := struct_vals h rfl (by show List.Nodup ["ValuePos".toList, "Kind".toList, "Value".toList]; decide)
      simp only [List.map_cons, List.map_nil] at this
      injection this with h1 this
      injection this with h2 this
      injection this with h3 _
      rw [pos_inj h1, litKind_inj (other_inj h2), string_inj h3]
    | _ => exact absurd ht (by simp only [goType]; decide)
  | .paren l x r, e', hc, h', h => by
    have ht := go_types h
    cases e' with
    | paren l' x' r' =>
      rw [GoClear] at hc h'
      simp only [GoExpr.rval] at h
      have := struct_vals h rfl (by show List.Nodup ["Lparen".toList, "X".toList, "Rparen".toList]; decide)
      simp only [List.map_cons, List.map_nil] at this
      injection this with h1 this
      injection this with h2 this
      injection this with h3 _
      rw [pos_inj h1, go_inj x x' hc h' h2, pos_inj h3]
    | _ => exact absurd ht (by simp only [goType]; decide)
  | .unary p op x, e', hc, h', h => by
    have ht := go_types h
    cases e' with
    | unary p' op' x' =>
      rw [GoClear] at hc h'
      simp only [GoExpr.rval] at h
      have := struct_vals h rfl (by show List.Nodup ["OpPos".toList, "Op".toList, "X".toList]; decide)
      simp only [List.map_cons, List.map_nil] at this
      injection this with h1 this
      injection this with h2 this
      injection this with h3 _
      rw [pos_inj h1, tok_inj hc.1 h'.1 (other_inj h2), go_inj x x' hc.2 h'.2 h3]
    | _ => exact absurd ht (by simp only [goType]; decide)
  | .binary x p op y, e', hc, h', h => by
    have ht := go_types h
    cases e' with
    | binary x' p' op' y' =>
      rw [GoClear] at hc h'
      simp only [GoExpr.rval] at h
      have := struct_vals h rfl (by show List.Nodup ["X".toList, "OpPos".toList, "Op".toList, "Y".toList]; decide)
      simp only [List.map_cons, List.map_nil] at this
      injection this with h0 this
      injection this with h1 this
      injection this with h2 this
      injection this with h3 _
      rw [go_inj x x' hc.1 h'.1 h0, pos_inj h1, tok_inj hc.2.1 h'.2.1 (other_inj h2), go_inj y y' hc.2.2 h'.2.2 h3]
    | _ => exact absurd ht (by simp only [goType]; decide)
  | .call f l args e r, e', hc, h', h => by
    have ht := go_types h
    cases e' with
    | call f' l' args' e' r' =>
      rw [GoClear] at hc h'
      simp only [GoExpr.rval] at h
      have := struct_vals h rfl (by show List.Nodup ["Fun".toList, "Lparen".toList, "Args".toList, "Ellipsis".toList, "Rparen".toList]; decide)
      simp only [List.map_cons, List.map_nil] at this
      injection this with h0 this
      injection this with h1 this
      injection this with h2 this
      injection this with h3 this
      injection this with h4 _
      rw [go_inj f f' hc.1 h'.1 h0, pos_inj h1, gos_inj args args' hc.2 h'.2 (slice_inj h2), pos_inj h3, pos_inj h4]
    | _ => exact absurd ht (by simp only [goType]; decide)
  | .star p x, e', hc, h', h => by
    have ht := go_types h
    cases e' with
    | star p' x' =>
      rw [GoClear] at hc h'
      simp only [GoExpr.rval] at h
      have := struct_vals h rfl (by show List.Nodup ["Star".toList, "X".toList]; decide)
      simp only [List.map_cons, List.map_nil] at this
      injection this with h1 this
      injection this with h2 _
      rw [pos_inj h1, go_inj x x' hc h' h2]
    | _ => exact absurd ht (by simp only [goType]; decide)
  | .selector x p n, e', hc, h', h => by
    have ht := go_types h
    cases e' with
    | selector x' p' n' =>
      rw [GoClear] at hc h'
      simp only [GoExpr.rval] at h
      have := struct_vals h rfl (by show List.Nodup ["X".toList, "Sel".toList]; decide)
      simp only [List.map_cons, List.map_nil] at this
      injection this with h1 this
      injection this with h2 _
      obtain ⟨rfl, rfl⟩ := ident_inj h2
      rw [go_inj x x' hc h' h1]
    | _ => exact absurd ht (by simp only [goType]; decide)
  | .other k, _, hc, _, _ => by rw [GoClear] at hc; exact hc.elim
theorem gos_inj : ∀ es es', GoClears es → GoClears es' → (goRvals es).map pruneV = (goRvals es').map pruneV → es = es'
  | [], [], _, _, _ => rfl
  | [], _ :: _, _, _, h => by rw [goRvals, goRvals] at h; simp at h
  | _ :: _, [], _, _, h => by rw [goRvals, goRvals] at h; simp at h
  | e :: es, e' :: es', hc, hc', h => by
    rw [GoClears] at hc hc'
    rw [goRvals, goRvals, List.map_cons, List.map_cons] at h
    injection h with h1 h2
    rw [go_inj e e' hc.1.2 hc'.1.2 h1, gos_inj es es' hc.2 hc'.2 h2]
end

/-! ## `ast.Expr` -/

theorem expr_flat {e} (h : GoClear e) : RVal.flat (exprRval e) := struct_flat (by decide) (fa (ff (by decide) (go_flat e h)) fz)
theorem expr_clear {e} (h : GoClear e) : clearV (pruneV (exprRval e)) := struct_clear (typeName_ok (by decide)) (fa (fo (by decide) (go_clear e h)) fz)
theorem expr_inj {e e'} (h : GoClear e) (h' : GoClear e') (x : pruneV (exprRval e) = pruneV (exprRval e')) : e = e' := by
  have := struct_vals x rfl (by show List.Nodup ["Expr".toList]; decide)
  simp only [List.map_cons, List.map_nil] at this
  injection this with h1 _
  exact go_inj e e' h h' h1

theorem opt_flat {e} (h : OptClear e) : RVal.flat (optRval e) := by
  cases e with
  | none => exact nil_flat
  | some e => exact expr_flat h
theorem opt_clear {e} (h : OptClear e) (hn : optRval e ≠ .nil) : clearV (pruneV (optRval e)) := by
  cases e with
  | none => exact absurd rfl hn
  | some e => exact expr_clear h
theorem opt_inj {e e'} (h : OptClear e) (h' : OptClear e') (x : pruneV (optRval e) = pruneV (optRval e')) : e = e' := by
  cases e with
  | none =>
    cases e' with
    | none => rfl
    | some e' => simp only [optRval, exprRval, rStruct, pruneV] at x; cases x
  | some e =>
    cases e' with
    | none => simp only [optRval, exprRval, rStruct, pruneV] at x; cases x
    | some e' => rw [expr_inj h h' x]

/-! ## Opcodes -/

theorem alt_flat {cs : List Str} (h : ∀ c ∈ cs, PlainText c) : RVal.flat (altRval cs) := by
  rw [altRval, RVal.flat]
  refine ⟨by decide, vals_flat _ ?_⟩
  intro x hx
  obtain ⟨c, hc, rfl⟩ := List.mem_map.1 hx
  exact other_flat (h c hc).1
theorem alt_clear {cs : List Str} (h : ∀ c ∈ cs, PlainText c) : clearV (pruneV (altRval cs)) := by
  rw [altRval, pruneV, clearV]
  refine ⟨typeName_ok (by decide), vals_clear _ ?_⟩
  intro x hx
  obtain ⟨c, hc, rfl⟩ := List.mem_map.1 hx
  rw [opcodeRval, pruneV, clearV]; exact h c hc
theorem codes_inj : ∀ cs cs' : List Str, (cs.map opcodeRval).map pruneV = (cs'.map opcodeRval).map pruneV → cs = cs'
  | [], [], _ => rfl
  | [], _ :: _, h => by simp at h
  | _ :: _, [], h => by simp at h
  | c :: cs, c' :: cs', h => by
    simp only [List.map_cons] at h
    injection h with h1 h2
    rw [opcodeRval, opcodeRval] at h1
    rw [other_inj h1, codes_inj cs cs' h2]
theorem alt_inj {cs cs'} (h : pruneV (altRval cs) = pruneV (altRval cs')) : cs = cs' := by
  rw [altRval, altRval, pruneV, pruneV] at h
  injection h with _ h
  exact codes_inj _ _ (vals_inj _ _ h)

theorem part_flat {p} (h : PartClear p) : RVal.flat p.rval := by
  cases p with
  | nil => exact nil_flat
  | opcode s => exact other_flat h.1
  | alt cs => exact alt_flat h
theorem part_clear {p} (h : PartClear p) : clearV (pruneV p.rval) := by
  cases p with
  | nil => exact h.elim
  | opcode s => rw [OpPart.rval, opcodeRval, pruneV, clearV]; exact h
  | alt cs => exact alt_clear h
theorem part_inj {p p'} (h : PartClear p) (h' : PartClear p') (x : pruneV p.rval = pruneV p'.rval) : p = p' := by
  cases p with
  | nil => exact h.elim
  | opcode s =>
    cases p' with
    | nil => exact h'.elim
    | opcode s' => rw [other_inj x]
    | alt cs => simp only [OpPart.rval, opcodeRval, altRval, pruneV] at x; cases x
  | alt cs =>
    cases p' with
    | nil => exact h'.elim
    | opcode s' => simp only [OpPart.rval, opcodeRval, altRval, pruneV] at x; cases x
    | alt cs' => rw [alt_inj x]

theorem parts_flat {ps : List OpPart} (h : ∀ p ∈ ps, PartClear p) : RVal.flat (partsRval ps) := by
  rw [partsRval, RVal.flat]
  refine ⟨by decide, vals_flat _ ?_⟩
  intro x hx
  obtain ⟨c, hc, rfl⟩ := List.mem_map.1 hx
  exact part_flat (h c hc)
theorem parts_clear {ps : List OpPart} (h : ∀ p ∈ ps, PartClear p) : clearV (pruneV (partsRval ps)) := by
  rw [partsRval, pruneV, clearV]
  refine ⟨typeName_ok (by decide), vals_clear _ ?_⟩
  intro x hx
  obtain ⟨c, hc, rfl⟩ := List.mem_map.1 hx
  exact part_clear (h c hc)
theorem parts_list : ∀ ps ps' : List OpPart, (∀ p ∈ ps, PartClear p) → (∀ p ∈ ps', PartClear p) →
    (ps.map OpPart.rval).map pruneV = (ps'.map OpPart.rval).map pruneV → ps = ps'
  | [], [], _, _, _ => rfl
  | [], _ :: _, _, _, h => by simp at h
  | _ :: _, [], _, _, h => by simp at h
  | c :: cs, c' :: cs', hc, hc', h => by
    simp only [List.map_cons] at h
    injection h with h1 h2
    rw [part_inj (hc c (by simp)) (hc' c' (by simp)) h1, parts_list cs cs' (fun p hp => hc p (by simp [hp])) (fun p hp => hc' p (by simp [hp])) h2]
theorem parts_inj {ps ps'} (hc : ∀ p ∈ ps, PartClear p) (hc' : ∀ p ∈ ps', PartClear p) (h : pruneV (partsRval ps) = pruneV (partsRval ps')) : ps = ps' := by
  rw [partsRval, partsRval, pruneV, pruneV] at h
  injection h with _ h
  exact parts_list _ _ hc hc' (vals_inj _ _ h)

theorem op_flat {o} (h : OpClear o) : RVal.flat o.rval := by
  cases o with
  | nil => exact nil_flat
  | opcode s => exact other_flat h.1
  | parts ps => exact parts_flat h
theorem op_clear {o} (h : OpClear o) (hn : o.rval ≠ .nil) : clearV (pruneV o.rval) := by
  cases o with
  | nil => exact absurd rfl hn
  | opcode s => rw [Op.rval, opcodeRval, pruneV, clearV]; exact h
  | parts ps => exact parts_clear h
theorem op_inj {o o'} (h : OpClear o) (h' : OpClear o') (x : pruneV o.rval = pruneV o'.rval) : o = o' := by
  cases o with
  | nil =>
    cases o' with
    | nil => rfl
    | opcode s' => simp only [Op.rval, opcodeRval, pruneV] at x; cases x
    | parts ps' => simp only [Op.rval, partsRval, pruneV] at x; cases x
  | opcode s =>
    cases o' with
    | nil => simp only [Op.rval, opcodeRval, pruneV] at x; cases x
    | opcode s' => rw [other_inj x]
    | parts ps' => simp only [Op.rval, opcodeRval, partsRval, pruneV] at x; cases x
  | parts ps =>
    cases o' with
    | nil => simp only [Op.rval, partsRval, pruneV] at x; cases x
    | opcode s' => simp only [Op.rval, opcodeRval, partsRval, pruneV] at x; cases x
    | parts ps' => rw [parts_inj h h' x]

/-! ## Values -/

theorem bool_clear (b : Bool) (_ : rBool b ≠ .nil) : clearV (pruneV (rBool b)) := by rw [rBool, pruneV, clearV]; exact bool_plain b

theorem sexpr_flat {h : Hdr} {args : List RVal} (h1 : '\n' ∉ h.binding) (h2 : OpClear h.op) (h3 : '\n' ∉ h.type) (h4 : OptClear h.auxInt) (h5 : OptClear h.aux)
    (h6 : ∀ x ∈ args, RVal.flat x) : RVal.flat (sexprRval h args) :=
  struct_flat (by decide) (fa (ff (by decide) (other_flat h1)) (fa (ff (by decide) (op_flat h2)) (fa (ff (by decide) (other_flat h3)) (fa (ff (by decide) (opt_flat h4))
    (fa (ff (by decide) (opt_flat h5)) (fa (ff (by decide) (slice_flat (by decide) h6)) (fa (ff (by decide) (other_flat (bool_plain _).1))
    (fa (ff (by decide) (other_flat (bool_plain _).1)) fz))))))))

theorem sexpr_clear {h : Hdr} {args : List RVal} (h2 : OpClear h.op) (h4 : OptClear h.auxInt) (h5 : OptClear h.aux)
    (h6 : ∀ x ∈ args, clearV (pruneV x)) : clearV (pruneV (sexprRval h args)) :=
  struct_clear (typeName_ok (by decide)) (fa (fo_free (by decide)) (fa (fo (by decide) (op_clear h2)) (fa (fo_free (by decide)) (fa (fo (by decide) (opt_clear h4))
    (fa (fo (by decide) (opt_clear h5)) (fa (fo (by decide) (slice_clear (typeName_ok (by decide)) h6)) (fa (fo (by decide) (bool_clear _))
    (fa (fo (by decide) (bool_clear _)) fz))))))))

theorem bool_inj' {b b' : Bool} (h : pruneV (rBool b) = pruneV (rBool b')) : b = b' := by
  refine bool_inj ?_
  simpa only [rBool, pruneV] using h

theorem sexpr_inj {h h' : Hdr} {args args' : List RVal} (h2 : OpClear h.op) (h4 : OptClear h.auxInt) (h5 : OptClear h.aux)
    (h2' : OpClear h'.op) (h4' : OptClear h'.auxInt) (h5' : OptClear h'.aux) (x : pruneV (sexprRval h args) = pruneV (sexprRval h' args')) :
    h = h' ∧ args.map pruneV = args'.map pruneV := by
  have := struct_vals x rfl (by
    show List.Nodup ["Binding".toList, "Op".toList, "Type".toList, "AuxInt".toList, "Aux".toList, "Args".toList, "Ellipsis".toList, "Trailing".toList]; decide)
  simp only [List.map_cons, List.map_nil] at this
  injection this with e1 this
  injection this with e2 this
  injection this with e3 this
  injection this with e4 this
  injection this with e5 this
  injection this with e6 this
  injection this with e7 this
  injection this with e8 _
  refine ⟨?_, slice_inj e6⟩
  cases h; cases h'
  simp only [Hdr.mk.injEq]
  exact ⟨other_inj e1, op_inj h2 h2' e2, other_inj e3, opt_inj h4 h4' e4, opt_inj h5 h5' e5, bool_inj' e7, bool_inj' e8⟩

mutual
theorem value_flat : ∀ v, ValueClear v → RVal.flat v.rval
  | .nil, _ => by rw [Value.rval]; exact nil_flat
  | .sexpr h args, hc => by
    rw [ValueClear] at hc
    rw [Value.rval]
    exact sexpr_flat hc.1 hc.2.1 hc.2.2.1 hc.2.2.2.1 hc.2.2.2.2.1 (values_flat args hc.2.2.2.2.2)
  | .expr e, hc => by rw [ValueClear] at hc; rw [Value.rval]; exact expr_flat hc
  | .var v, hc => by rw [ValueClear] at hc; rw [Value.rval]; exact other_flat hc.1
theorem values_flat : ∀ vs, ValuesClear vs → ∀ x ∈ valueRvals vs, RVal.flat x
  | [], _ => by rw [valueRvals]; simp
  | v :: vs, hc => by rw [ValuesClear] at hc; rw [valueRvals]; exact fa (value_flat v hc.1.2) (values_flat vs hc.2)
end

theorem value_nil {v : Value} (h : v.rval = .nil) : v = .nil := by
  cases v <;> simp only [Value.rval, sexprRval, exprRval, rStruct] at h <;> first | rfl | cases h

mutual
theorem value_clear : ∀ v, ValueClear v → v.rval ≠ .nil → clearV (pruneV v.rval)
  | .nil, _, h => by rw [Value.rval] at h; exact absurd rfl h
  | .sexpr h args, hc, _ => by
    rw [ValueClear] at hc
    rw [Value.rval]
    exact sexpr_clear hc.2.1 hc.2.2.2.1 hc.2.2.2.2.1 (values_clear args hc.2.2.2.2.2)
  | .expr e, hc, _ => by rw [ValueClear] at hc; rw [Value.rval]; exact expr_clear hc
  | .var v, hc, _ => by rw [ValueClear] at hc; rw [Value.rval, pruneV, clearV]; exact hc
theorem values_clear : ∀ vs, ValuesClear vs → ∀ x ∈ valueRvals vs, clearV (pruneV x)
  | [], _ => by rw [valueRvals]; simp
  | v :: vs, hc => by
    rw [ValuesClear] at hc
    rw [valueRvals]
    exact fa (value_clear v hc.1.2 (fun e0 => hc.1.1 (value_nil e0))) (values_clear vs hc.2)
end

def valueType : Value → Option Str
  | .sexpr _ _ => some "ast.SExpr".toList
  | .expr _ => some "ast.Expr".toList
  | _ => none

theorem value_types {v v' : Value} (h : pruneV v.rval = pruneV v'.rval) : valueType v = valueType v' := by
  have : ∀ v : Value, typeOf v.rval = valueType v := by
    intro v
    cases v <;> simp only [Value.rval, sexprRval, exprRval, type_struct, valueType] <;> rfl
  rw [← this, type_eq h, this]

mutual
theorem value_inj : ∀ v v', ValueClear v → ValueClear v' → pruneV v.rval = pruneV v'.rval → v = v'
  | .nil, v', _, _, h => by
    have ht := value_types h
    cases v' with
    | nil => rfl
    | var s => simp only [Value.rval, pruneV] at h; cases h
    | _ => exact absurd ht (by simp [valueType])
  | .var s, v', _, _, h => by
    have ht := value_types h
    cases v' with
    | nil => simp only [Value.rval, pruneV] at h; cases h
    | var s' => simp only [Value.rval] at h; rw [other_inj h]
    | _ => exact absurd ht (by simp [valueType])
  | .expr e, v', hc, hc', h => by
    have ht := value_types h
    cases v' with
    | expr e' =>
      rw [ValueClear] at hc hc'
      simp only [Value.rval] at h
      rw [expr_inj hc hc' h]
    | _ => exact absurd ht (by simp only [valueType]; decide)
  | .sexpr hd args, v', hc, hc', h => by
    have ht := value_types h
    cases v' with
    | sexpr hd' args' =>
      rw [ValueClear] at hc hc'
      simp only [Value.rval] at h
      obtain ⟨rfl, e⟩ := sexpr_inj hc.2.1 hc.2.2.2.1 hc.2.2.2.2.1 hc'.2.1 hc'.2.2.2.1 hc'.2.2.2.2.1 h
      rw [values_inj args args' hc.2.2.2.2.2 hc'.2.2.2.2.2 e]
    | _ => exact absurd ht (by simp only [valueType]; decide)
theorem values_inj : ∀ vs vs', ValuesClear vs → ValuesClear vs' → (valueRvals vs).map pruneV = (valueRvals vs').map pruneV → vs = vs'
  | [], [], _, _, _ => rfl
  | [], _ :: _, _, _, h => by rw [valueRvals, valueRvals] at h; simp at h
  | _ :: _, [], _, _, h => by rw [valueRvals, valueRvals] at h; simp at h
  | e :: es, e' :: es', hc, hc', h => by
    rw [ValuesClear] at hc hc'
    rw [valueRvals, valueRvals, List.map_cons, List.map_cons] at h
    injection h with h1 h2
    rw [value_inj e e' hc.1.2 hc'.1.2 h1, values_inj es es' hc.2 hc'.2 h2]
end

/-! ## Rules and files -/

theorem rule_flat {r} (h : RuleClear r) : RVal.flat r.rval :=
  struct_flat (by decide) (fa (ff (by decide) (value_flat _ h.1)) (fa (ff (by decide) (opt_flat h.2.1)) (fa (ff (by decide) (string_flat _)) (fa (ff (by decide) (value_flat _ h.2.2)) fz))))
theorem rule_clear {r} (h : RuleClear r) : clearV (pruneV r.rval) :=
  struct_clear (typeName_ok (by decide)) (fa (fo (by decide) (value_clear _ h.1)) (fa (fo (by decide) (opt_clear h.2.1)) (fa (fo (by decide) (string_clear _))
    (fa (fo (by decide) (value_clear _ h.2.2)) fz))))
theorem rule_inj {r r' : Rule} (h : RuleClear r) (h' : RuleClear r') (x : pruneV r.rval = pruneV r'.rval) : r = r' := by
  have := struct_vals x rfl (by show List.Nodup ["Match".toList, "Condition".toList, "Block".toList, "Result".toList]; decide)
  simp only [List.map_cons, List.map_nil] at this
  injection this with e1 this
  injection this with e2 this
  injection this with e3 this
  injection this with e4 _
  cases r; cases r'
  simp only [Rule.mk.injEq]
  exact ⟨value_inj _ _ h.1 h'.1 e1, opt_inj h.2.1 h'.2.1 e2, string_inj e3, value_inj _ _ h.2.2 h'.2.2 e4⟩

theorem file_flat {f : File} (h : ∀ r ∈ f.rules, RuleClear r) : RVal.flat f.rval := by
  refine struct_flat (by decide) (fa (ff (by decide) (slice_flat (by decide) ?_)) fz)
  intro x hx
  obtain ⟨r, hr, rfl⟩ := List.mem_map.1 hx
  exact rule_flat (h r hr)
theorem file_clear {f : File} (h : ∀ r ∈ f.rules, RuleClear r) : clearV (pruneV f.rval) := by
  refine struct_clear (typeName_ok (by decide)) (fa (fo (by decide) (slice_clear (typeName_ok (by decide)) ?_)) fz)
  intro x hx
  obtain ⟨r, hr, rfl⟩ := List.mem_map.1 hx
  exact rule_clear (h r hr)
theorem rules_inj : ∀ rs rs' : List Rule, (∀ r ∈ rs, RuleClear r) → (∀ r ∈ rs', RuleClear r) →
    (rs.map Rule.rval).map pruneV = (rs'.map Rule.rval).map pruneV → rs = rs'
  | [], [], _, _, _ => rfl
  | [], _ :: _, _, _, h => by simp at h
  | _ :: _, [], _, _, h => by simp at h
  | c :: cs, c' :: cs', hc, hc', h => by
    simp only [List.map_cons] at h
    injection h with h1 h2
    rw [rule_inj (hc c (by simp)) (hc' c' (by simp)) h1, rules_inj cs cs' (fun p hp => hc p (by simp [hp])) (fun p hp => hc' p (by simp [hp])) h2]
theorem file_inj {f f' : File} (h : ∀ r ∈ f.rules, RuleClear r) (h' : ∀ r ∈ f'.rules, RuleClear r) (x : pruneV f.rval = pruneV f'.rval) : f = f' := by
  have := struct_vals x rfl (by show List.Nodup ["Rules".toList]; decide)
  simp only [List.map_cons, List.map_nil] at this
  injection this with e1 _
  exact congrArg File.mk (rules_inj _ _ h h' (slice_inj e1))

/-! ## Nodes -/

theorem node_flat {n} (h : NodeClear n) : RVal.flat n.rval := by
  cases n with
  | nil => exact h.elim
  | file f => exact file_flat h
  | rule r => exact rule_flat h
  | sexpr hd args => have := value_flat (.sexpr hd args) h; rw [Value.rval] at this; exact this
  | opcode s => exact h.elim
  | parts ps => exact parts_flat h
  | alt cs => exact alt_flat h
  | expr e => exact expr_flat h
  | var v => exact h.elim

theorem node_clear {n} (h : NodeClear n) : clearV (pruneV n.rval) := by
  cases n with
  | nil => exact h.elim
  | file f => exact file_clear h
  | rule r => exact rule_clear h
  | sexpr hd args => have := value_clear (.sexpr hd args) h (by rw [Value.rval, sexprRval, rStruct]; simp); rw [Value.rval] at this; exact this
  | opcode s => exact h.elim
  | parts ps => exact parts_clear h
  | alt cs => exact alt_clear h
  | expr e => exact expr_clear h
  | var v => exact h.elim

/-- The name of the type of a node. -/
def nodeType : Node → Option Str
  | .file _ => some "ast.File".toList
  | .rule _ => some "ast.Rule".toList
  | .sexpr .. => some "ast.SExpr".toList
  | .parts _ => some "ast.OpcodeParts".toList
  | .alt _ => some "ast.OpcodeAlt".toList
  | .expr _ => some "ast.Expr".toList
  | _ => none

def topType : RVal → Option Str
  | .ptr _ (.struct t _) => some t
  | .slice t _ => some t
  | _ => none

theorem top_prune (x : RVal) : topType (pruneV x) = topType x := by
  cases x with
  | ptr a x => cases x <;> simp only [pruneV, topType]
  | _ => simp only [pruneV, topType]

theorem top_strip (x : RVal) : topType x.strip = topType x := by
  cases x with
  | ptr a x => cases x <;> simp only [RVal.strip, topType]
  | _ => simp only [RVal.strip, topType]

theorem top_node (n : Node) : topType n.rval = nodeType n := by cases n <;> rfl

theorem node_inj {n n' : Node} (h : NodeClear n) (h' : NodeClear n') (x : pruneV n.rval = pruneV n'.rval) : n = n' := by
  have ht : nodeType n = nodeType n' := by rw [← top_node, ← top_prune, x, top_prune, top_node]
  cases n with
  | nil => exact h.elim
  | opcode s => exact h.elim
  | var v => exact h.elim
  | file f =>
    cases n' with
    | file f' => rw [file_inj h h' x]
    | _ => exact absurd ht (by simp only [nodeType]; decide)
  | rule f =>
    cases n' with
    | rule f' => rw [rule_inj h h' x]
    | _ => exact absurd ht (by simp only [nodeType]; decide)
  | sexpr hd args =>
    cases n' with
    | sexpr hd' args' =>
      have := value_inj (.sexpr hd args) (.sexpr hd' args') h h' (by rw [Value.rval, Value.rval]; exact x)
      injection this with e1 e2
      rw [e1, e2]
    | _ => exact absurd ht (by simp only [nodeType]; decide)
  | parts f =>
    cases n' with
    | parts f' => rw [parts_inj h h' x]
    | _ => exact absurd ht (by simp only [nodeType]; decide)
  | alt f =>
    cases n' with
    | alt f' => rw [alt_inj x]
    | _ => exact absurd ht (by simp only [nodeType]; decide)
  | expr f =>
    cases n' with
    | expr f' => rw [expr_inj h h' x]
    | _ => exact absurd ht (by simp only [nodeType]; decide)

/-- Two ASTs in memory with the same dump are the same AST. -/
theorem dump_node {q : QuoteTable} {n n' : Node} {t t' : RVal} (hn : NodeClear n) (hn' : NodeClear n') (ht : Image n t) (ht' : Image n' t')
    (h : astDump q t = astDump q t') : n = n' := by
  have side : ∀ (n : Node) (t : RVal), NodeClear n → t.strip = n.rval →
      RVal.flat t ∧ clearV (pruneV t) ∧ (lay q 0 0 [] t).1.1.head? ≠ some '.' ∧ t ≠ .other [] := by
    intro n t hn ht
    have hf : RVal.flat t := (flat_strip t).1 (by rw [ht]; exact node_flat hn)
    have hc : clearV (pruneV t) := (clear_strip _).1 (by rw [prune_strip, ht]; exact node_clear hn)
    have htop : topType t = nodeType n := by rw [← top_strip, ht, top_node]
    have hsome : ∃ u, nodeType n = some u ∧ u.head? ≠ some '.' := by
      cases n <;> first | exact hn.elim | exact ⟨_, rfl, by decide⟩
    obtain ⟨u, hu, hdot⟩ := hsome
    rw [hu] at htop
    refine ⟨hf, hc, head_dot q hc ?_ ?_ ?_, ?_⟩
    · rintro a b rfl; rw [topType] at htop; injection htop with e; rw [e]; exact hdot
    · rintro a b rfl; rw [topType] at htop; cases htop
      all_goals simp
    · rintro a rfl; rw [topType] at htop; cases htop
      all_goals simp
    · rintro rfl; rw [topType] at htop; cases htop
      all_goals simp
  obtain ⟨f1, f2, f3, f4⟩ := side n t hn ht.1
  obtain ⟨g1, g2, g3, g4⟩ := side n' t' hn' ht'.1
  have := dump_inj q f1 g1 f2 g2 f3 g3 f4 g4 ht.2 ht'.2 h
  rw [ht.1, ht'.1] at this
  exact node_inj hn hn' this

end Verif.Proof.Dump

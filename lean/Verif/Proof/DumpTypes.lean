import Verif.Proof.DumpParsed
/-!
# The value in memory is of the declared types
-/
namespace Verif.Proof.Dump
open Verif Verif.Spec

mutual
theorem fits_strip : ∀ (alts : List Alt) (x : RVal), Fits alts x.strip ↔ Fits alts x
  | alts, .nil => by rw [RVal.strip]
  | alts, .ptr a (.struct t fs) => by
    rw [RVal.strip, RVal.strip, Fits, Fits]
    constructor
    · rintro ⟨h, d, hd, hf⟩; exact ⟨h, d, hd, (fitsFields_strip d fs).1 hf⟩
    · rintro ⟨h, d, hd, hf⟩; exact ⟨h, d, hd, (fitsFields_strip d fs).2 hf⟩
  | alts, .ptr a .nil => by simp only [RVal.strip, Fits]
  | alts, .ptr a (.ptr _ _) => by simp only [RVal.strip, Fits]
  | alts, .ptr a (.slice _ _) => by simp only [RVal.strip, Fits]
  | alts, .ptr a (.string _) => by simp only [RVal.strip, Fits]
  | alts, .ptr a (.other _) => by simp only [RVal.strip, Fits]
  | alts, .slice t xs => by
    rw [RVal.strip, Fits, Fits]
    constructor
    · rintro ⟨h, d, hd, hf⟩; exact ⟨h, d, hd, (fitsAll_strip d xs).1 hf⟩
    · rintro ⟨h, d, hd, hf⟩; exact ⟨h, d, hd, (fitsAll_strip d xs).2 hf⟩
  | alts, .struct t fs => by simp only [RVal.strip, Fits]
  | alts, .string s => by rw [RVal.strip]
  | alts, .other s => by rw [RVal.strip]
theorem fitsAll_strip : ∀ (elem : List Alt) (xs : RVals), FitsAll elem xs.strip ↔ FitsAll elem xs
  | _, .nil => by rw [RVals.strip]
  | elem, .cons x xs => by rw [RVals.strip, FitsAll, FitsAll, fits_strip elem x, fitsAll_strip elem xs]
theorem fitsFields_strip : ∀ (d : List (Str × List Alt)) (fs : RFields), FitsFields d fs.strip ↔ FitsFields d fs
  | [], .nil => by rw [RFields.strip]
  | [], .cons m x fs => by simp only [RFields.strip, FitsFields]
  | (n, alts) :: d, .nil => by rw [RFields.strip]
  | (n, alts) :: d, .cons m x fs => by rw [RFields.strip, FitsFields, FitsFields, fits_strip alts x, fitsFields_strip d fs]
end

theorem fits_pos (n : Nat) : Fits [.number] (rPos n) := by rw [rPos, Fits]; exact .inr (.inl ⟨by simp, n, rfl⟩)
theorem fits_text {alts : List Alt} (h : Alt.text ∈ alts) (s : Str) : Fits alts (.other s) := by rw [Fits]; exact .inl h
theorem fits_string {alts : List Alt} (h : Alt.quoted ∈ alts) (s : Str) : Fits alts (.string s) := by rw [Fits]; exact h
theorem fits_nil {alts : List Alt} (h : Alt.nil ∈ alts) : Fits alts .nil := by rw [Fits]; exact h
theorem fits_text1 (s : Str) : Fits [.text] (.other s) := fits_text (by simp) s
theorem fits_string1 (s : Str) : Fits [.quoted] (.string s) := fits_string (by simp) s
theorem fits_nil1 : Fits [.nil] .nil := fits_nil (by simp)
theorem fits_bool (b : Bool) : Fits boolWords (rBool b) := by
  rw [rBool, Fits]; refine .inr (.inr ⟨_, List.mem_singleton.2 rfl, ?_⟩); cases b <;> simp
theorem fits_kind (k : LitKind) : Fits kindWords (.other k.str) := by
  rw [Fits]; refine .inr (.inr ⟨_, List.mem_singleton.2 rfl, ?_⟩); cases k <;> simp [LitKind.str]

theorem fits_struct {alts : List Alt} {t : Str} {fs : List (Str × RVal)} {d : List (Str × List Alt)} (h : Alt.ptr t ∈ alts) (hd : (t, d) ∈ structDecls)
    (hf : FitsFields d (mkFields fs)) : Fits alts (rStruct t fs) := by
  rw [rStruct, Fits]; exact ⟨h, d, hd, hf⟩

theorem fits_field {n : Str} {alts : List Alt} {d : List (Str × List Alt)} {x : RVal} {fs : List (Str × RVal)} (h : Fits alts x) (hf : FitsFields d (mkFields fs)) :
    FitsFields ((n, alts) :: d) (mkFields ((n, x) :: fs)) := by
  rw [mkFields, FitsFields]; exact ⟨rfl, h, hf⟩
theorem fits_end : FitsFields [] (mkFields []) := by rw [mkFields, FitsFields]; trivial

theorem fitsAll_mk {elem : List Alt} : ∀ {xs : List RVal}, (∀ x ∈ xs, Fits elem x) → FitsAll elem (mkVals xs)
  | [], _ => by rw [mkVals, FitsAll]; trivial
  | x :: xs, h => by
    rw [mkVals, FitsAll]
    exact ⟨h x (by simp), fitsAll_mk fun y hy => h y (by simp [hy])⟩

theorem fits_slice {alts elem : List Alt} {t : Str} {xs : List RVal} (h : Alt.slice t ∈ alts) (hd : (t, elem) ∈ sliceDecls) (hx : ∀ x ∈ xs, Fits elem x) :
    Fits alts (.slice t (mkVals xs)) := by
  rw [Fits]; exact ⟨h, elem, hd, fitsAll_mk hx⟩
theorem fits_rSlice {alts elem : List Alt} {t : Str} {xs : List RVal} (h0 : Alt.nil ∈ alts) (h : Alt.slice t ∈ alts) (hd : (t, elem) ∈ sliceDecls) (hx : ∀ x ∈ xs, Fits elem x) :
    Fits alts (rSlice t xs) := by
  unfold rSlice
  split
  · exact fits_nil h0
  · exact fits_slice h hd hx

theorem fits_ident {alts : List Alt} (h : Alt.ptr "ast.Ident".toList ∈ alts) (p : Nat) (n : Str) : Fits alts (rIdent p n) :=
  fits_struct h (by simp [structDecls]) (fits_field (fits_pos p) (fits_field (fits_string1 n) (fits_field fits_nil1 fits_end)))

mutual
theorem fits_go : ∀ e, GoClear e → Fits goTypes e.rval
  | .nil, _ => fits_nil (by simp [goTypes])
  | .ident p n, _ => fits_ident (by simp [goTypes]) p n
  | .basicLit p k v, _ =>
    fits_struct (by simp [goTypes]) (by simp [structDecls]) (fits_field (fits_pos p) (fits_field (fits_kind k) (fits_field (fits_string1 v) fits_end)))
  | .paren l x r, h =>
    fits_struct (by simp [goTypes]) (by simp [structDecls]) (fits_field (fits_pos l) (fits_field (fits_go x h) (fits_field (fits_pos r) fits_end)))
  | .unary p op x, h =>
    fits_struct (by simp [goTypes]) (by simp [structDecls]) (fits_field (fits_pos p) (fits_field (fits_text1 _) (fits_field (fits_go x h.2) fits_end)))
  | .binary x p op y, h =>
    fits_struct (by simp [goTypes]) (by simp [structDecls]) (fits_field (fits_go x h.1) (fits_field (fits_pos p) (fits_field (fits_text1 _) (fits_field (fits_go y h.2.2) fits_end))))
  | .call f l args e r, h =>
    fits_struct (by simp [goTypes]) (by simp [structDecls]) (fits_field (fits_go f h.1) (fits_field (fits_pos l)
      (fits_field (fits_rSlice (alts := [.nil, .slice "[]ast.Expr".toList]) (by simp) (by simp) (elem := goTypes) (by simp [sliceDecls]) (fits_gos args h.2)) (fits_field (fits_pos e) (fits_field (fits_pos r) fits_end)))))
  | .star p x, h => fits_struct (by simp [goTypes]) (by simp [structDecls]) (fits_field (fits_pos p) (fits_field (fits_go x h) fits_end))
  | .selector x p n, h => fits_struct (by simp [goTypes]) (by simp [structDecls]) (fits_field (fits_go x h) (fits_field (fits_ident (alts := [.ptr "ast.Ident".toList]) (by simp) p n) fits_end))
  | .other k, h => h.elim
theorem fits_gos : ∀ es, GoClears es → ∀ x ∈ goRvals es, Fits goTypes x
  | [], _, x, hx => by simp [goRvals] at hx
  | e :: es, h, x, hx => by
    rw [goRvals] at hx
    rcases List.mem_cons.1 hx with rfl | hx
    · exact fits_go e h.1.2
    · exact fits_gos es h.2 x hx
end

theorem fits_expr {alts : List Alt} (ha : Alt.ptr "ast.Expr".toList ∈ alts) {e} (h : GoClear e) : Fits alts (exprRval e) :=
  fits_struct ha (by simp [structDecls]) (fits_field (fits_go e h) fits_end)
theorem fits_opt {o} (h : OptClear o) : Fits optExpr (optRval o) := by
  cases o with
  | none => exact fits_nil (by simp [optExpr])
  | some e => exact fits_expr (by simp [optExpr]) h

theorem fits_alt {alts : List Alt} (ha : Alt.slice "ast.OpcodeAlt".toList ∈ alts) (cs : List Str) : Fits alts (altRval cs) := by
  refine fits_slice ha (elem := [.text]) (by simp [sliceDecls]) ?_
  intro x hx
  obtain ⟨c, -, rfl⟩ := List.mem_map.1 hx
  exact fits_text (by simp) c
theorem fits_parts {alts : List Alt} (ha : Alt.slice "ast.OpcodeParts".toList ∈ alts) {ps : List OpPart} (h : ∀ p ∈ ps, PartClear p) : Fits alts (partsRval ps) := by
  refine fits_slice ha (elem := [.text, .slice "ast.OpcodeAlt".toList]) (by simp [sliceDecls]) ?_
  intro x hx
  obtain ⟨p, hp, rfl⟩ := List.mem_map.1 hx
  cases p with
  | nil => exact (h _ hp).elim
  | opcode s => exact fits_text (by simp) s
  | alt cs => exact fits_alt (by simp) cs
theorem fits_op {op} (h : OpClear op) : Fits opTypes op.rval := by
  cases op with
  | nil => exact fits_nil (by simp [opTypes])
  | opcode s => exact fits_text (by simp [opTypes]) s
  | parts ps => exact fits_parts (by simp [opTypes]) h

theorem fits_sexpr {alts : List Alt} (ha : Alt.ptr "ast.SExpr".toList ∈ alts) {h : Hdr} {args : List RVal} (ho : OpClear h.op) (hi : OptClear h.auxInt) (hx : OptClear h.aux)
    (hv : ∀ x ∈ args, Fits valueAlts x) : Fits alts (sexprRval h args) :=
  fits_struct ha (by simp [structDecls]) (fits_field (fits_text1 _) (fits_field (fits_op ho) (fits_field (fits_text1 _) (fits_field (fits_opt hi) (fits_field (fits_opt hx)
    (fits_field (fits_rSlice (alts := [.nil, .slice "[]ast.Value".toList]) (by simp) (by simp) (elem := valueAlts) (by simp [sliceDecls]) hv) (fits_field (fits_bool _) (fits_field (fits_bool _) fits_end))))))))

mutual
theorem fits_value : ∀ v, ValueClear v → Fits valueAlts v.rval
  | .nil, _ => fits_nil (by simp [valueAlts])
  | .sexpr h args, hv => by
    obtain ⟨-, ho, -, hi, hx, ha⟩ := hv
    exact fits_sexpr (by simp [valueAlts]) ho hi hx (fits_values args ha)
  | .expr e, h => fits_expr (by simp [valueAlts]) h
  | .var v, _ => fits_text (by simp [valueAlts]) v
theorem fits_values : ∀ vs, ValuesClear vs → ∀ x ∈ valueRvals vs, Fits valueAlts x
  | [], _, x, hx => by simp [valueRvals] at hx
  | v :: vs, h, x, hx => by
    rw [valueRvals] at hx
    rcases List.mem_cons.1 hx with rfl | hx
    · exact fits_value v h.1.2
    · exact fits_values vs h.2 x hx
end

theorem fits_rule {alts : List Alt} (ha : Alt.ptr "ast.Rule".toList ∈ alts) {r : Rule} (h : RuleClear r) : Fits alts r.rval :=
  fits_struct ha (by simp [structDecls]) (fits_field (fits_value _ h.1) (fits_field (fits_opt h.2.1) (fits_field (fits_string1 _) (fits_field (fits_value _ h.2.2) fits_end))))

theorem fits_node {n : Node} (h : NodeClear n) : Fits nodeTypes n.rval := by
  cases n with
  | nil => exact h.elim
  | file f =>
    refine fits_struct (by simp [nodeTypes]) (by simp [structDecls]) (fits_field (fits_rSlice (alts := [.nil, .slice "[]*ast.Rule".toList]) (by simp) (by simp) (elem := [.ptr "ast.Rule".toList]) (by simp [sliceDecls]) ?_) fits_end)
    intro x hx
    obtain ⟨r, hr, rfl⟩ := List.mem_map.1 hx
    exact fits_rule (by simp) (h r hr)
  | rule r => exact fits_rule (by simp [nodeTypes]) h
  | sexpr hd args => exact fits_sexpr (by simp [nodeTypes]) h.2.1 h.2.2.2.1 h.2.2.2.2.1 (fits_values args h.2.2.2.2.2)
  | opcode s => exact h.elim
  | parts ps => exact fits_parts (by simp [nodeTypes]) h
  | alt cs => exact fits_alt (by simp [nodeTypes]) cs
  | expr e => exact fits_expr (by simp [nodeTypes]) h
  | var v => exact h.elim

end Verif.Proof.Dump

import Verif.Proof.ParseValue
/-!
# S-expressions, backward
-/
namespace Verif.Proof
open Verif Verif.Spec

section
variable {lib : GoLib}

def ValueSound (lib : GoLib) (n : Nat) : Prop := ∀ cs v cs' fr fr', cs.length ≤ n →
  exec (ruleGrammar lib) (.ruleRef .Value) cs fr = .ok v cs' fr' →
    ∃ t w, cs = t ++ cs' ∧ ValueText (goText lib) t w ∧ v = valDyn w ∧ Follow w cs' ∧ fr' = fr

theorem operand_sound {n cs v cs' fr fr'} (ih : ValueSound lib n) (hn : cs.length ≤ n)
    (h : exec (ruleGrammar lib) (.ruleRef .Operand) cs fr = .ok v cs' fr') :
    ∃ t o, cs = t ++ cs' ∧ OperandText (goText lib) t o ∧ v = operandDyn o ∧ fr' = fr := by
  obtain ⟨rfl, fr1, h⟩ := ruleRef_inv h
  have h : exec (ruleGrammar lib) gOperand cs Frame.empty = .ok v cs' fr1 := h
  rw [gOperand, exec_choice] at h
  obtain ⟨pre, e, post, fr2, he, -, h1, -⟩ := choice_inv h
  have hmem : e ∈ [gType, gAuxInt, gAux, .ruleRef .Value] := by rw [he]; simp
  simp only [List.mem_cons, List.not_mem_nil, or_false] at hmem
  rcases hmem with rfl | rfl | rfl | rfl
  · rw [gType] at h1
    obtain ⟨t, rfl, k1, k2, k3, -⟩ := delim_inv h1
    have k3 : ActOut.ok (.type (inner ('<' :: t ++ ['>']))) = .ok v := k3
    rw [inner_eq] at k3; simp only [ActOut.ok.injEq] at k3
    exact ⟨_, .type t, rfl, .type k1 k2, k3.symm, rfl⟩
  · rw [gAuxInt] at h1
    obtain ⟨t, rfl, k1, k2, k3, -⟩ := delim_inv h1
    have k3 : viaGo lib (inner ('[' :: t ++ [']'])) .auxint = .ok v := k3
    rw [inner_eq, viaGo] at k3
    cases hgo : goexprParse lib t with
    | err e => rw [hgo] at k3; simp at k3
    | panic => rw [hgo] at k3; simp at k3
    | ok e =>
      rw [hgo] at k3; simp only [ActOut.ok.injEq] at k3
      exact ⟨_, .auxInt e, rfl, .auxInt k1 k2 hgo, k3.symm, rfl⟩
  · rw [gAux] at h1
    obtain ⟨t, rfl, k1, k2, k3, -⟩ := delim_inv h1
    have k3 : viaGo lib (inner ('{' :: t ++ ['}'])) .aux = .ok v := k3
    rw [inner_eq, viaGo] at k3
    cases hgo : goexprParse lib t with
    | err e => rw [hgo] at k3; simp at k3
    | panic => rw [hgo] at k3; simp at k3
    | ok e =>
      rw [hgo] at k3; simp only [ActOut.ok.injEq] at k3
      exact ⟨_, .aux e, rfl, .aux k1 k2 hgo, k3.symm, rfl⟩
  · obtain ⟨t, w, rfl, hw, rfl, -, -⟩ := ih _ _ _ _ _ hn h1
    exact ⟨t, .arg w, rfl, .arg hw, rfl, rfl⟩

theorem items_sound {n cs ds cs'} (ih : ValueSound lib n) (h : Items (ruleGrammar lib) gItem cs ds cs') (hn : cs.length ≤ n) :
    ∃ ot ops, cs = ot ++ cs' ∧ OperandsText (goText lib) ot ops ∧ OperandDyns ds ops := by
  induction h with
  | nil _ => exact ⟨[], [], rfl, .nil, .nil⟩
  | cons h1 _ ih2 =>
    rw [gItem, exec_seq] at h1
    obtain ⟨v1, cs1, fr1, g1, h1a⟩ := seq_inv h1
    obtain ⟨s, rfl, k1, -, rfl⟩ := skip1_inv g1
    obtain ⟨v2, cs2, fr2, g2, h1b⟩ := seq_inv h1a
    obtain ⟨t, o, rfl, ho, rfl, rfl⟩ := operand_sound ih (by simp at hn; omega) g2
    obtain ⟨rfl, rfl, rfl⟩ := seq_nil_inv h1b
    obtain ⟨ot, ops, rfl, k3, k4⟩ := ih2 (by simp at hn ⊢; omega)
    refine ⟨s ++ t ++ ot, o :: ops, by simp, .cons k1 ho k3, .cons ?_ k4⟩
    rintro v rfl
    cases ho with
    | arg h => exact valueText_ne_nil h

theorem mark_sound {m : Str} {cs v cs' fr fr'} (h : exec (ruleGrammar lib) (.zeroOrOne (.seq [g__, .lit m])) cs fr = .ok v cs' fr') :
    ∃ t b, cs = t ++ cs' ∧ MarkText m t b ∧ markDyn v b ∧ fr' = fr := by
  obtain ⟨rfl, ⟨fr1, h⟩ | ⟨-, rfl, rfl⟩⟩ := zeroOrOne_inv h
  · rw [exec_seq] at h
    obtain ⟨v1, cs1, fr2, g1, h1⟩ := seq_inv h
    obtain ⟨s, rfl, k1, -, rfl⟩ := skip1_inv g1
    obtain ⟨v2, cs2, fr3, g2, h2⟩ := seq_inv h1
    obtain ⟨rfl, rfl, rfl⟩ := exec_lit_inv g2
    obtain ⟨rfl, rfl, rfl⟩ := seq_nil_inv h2
    exact ⟨s ++ m, true, by simp, .some k1, ⟨_, rfl⟩, rfl⟩
  · exact ⟨[], false, rfl, .none, rfl, rfl⟩

theorem binding_sound {cs v cs' fr fr'}
    (h : exec (ruleGrammar lib) (.zeroOrOne (.seq [.action .onSExpr6 gIdent, .lit [':']])) cs fr = .ok v cs' fr') :
    ∃ bt b, cs = bt ++ cs' ∧ BindingText bt b ∧ v = bindDyn b ∧ fr' = fr := by
  obtain ⟨rfl, ⟨fr1, h⟩ | ⟨-, rfl, rfl⟩⟩ := zeroOrOne_inv h
  · rw [exec_seq] at h
    obtain ⟨v1, cs1, fr2, g1, h1⟩ := seq_inv h
    obtain ⟨v3, k1, k2⟩ := action_inv g1
    obtain ⟨x, rfl, hx, -, rfl⟩ := ident_inv k1
    rw [slice_append] at k2
    have k2 : ActOut.ok (.variable x) = .ok v1 := k2
    simp only [ActOut.ok.injEq] at k2
    obtain ⟨v2, cs2, fr3, g2, h2⟩ := seq_inv h1
    obtain ⟨rfl, rfl, rfl⟩ := exec_lit_inv g2
    obtain ⟨rfl, rfl, rfl⟩ := seq_nil_inv h2
    have hne : x ≠ [] := by rintro rfl; obtain ⟨c, t, h, -⟩ := hx; simp at h
    refine ⟨x ++ [':'], x, by simp, .some hx, ?_, rfl⟩
    rw [← k2]; simp [bindDyn, hne]
  · exact ⟨[], [], rfl, .none, rfl, rfl⟩

theorem sexpr_sound {n cs v cs' fr fr'} (ih : ∀ m, m < n → ValueSound lib m) (hn : cs.length ≤ n)
    (h : exec (ruleGrammar lib) (.ruleRef .SExpr) cs fr = .ok v cs' fr') :
    ∃ t hd args, cs = t ++ cs' ∧ ValueText (goText lib) t (.sexpr hd args) ∧ v = .sexpr hd args ∧ fr' = fr := by
  obtain ⟨rfl, fr1, h⟩ := ruleRef_inv h
  have h : exec (ruleGrammar lib) gSExpr cs Frame.empty = .ok v cs' fr1 := h
  rw [gSExpr] at h
  obtain ⟨v0, h0, hact⟩ := action_inv h
  clear h
  rw [exec_seq] at h0
  obtain ⟨v1, cs1, fr1, g1, h1⟩ := seq_inv h0
  clear h0
  obtain ⟨⟨_, p1⟩, rfl⟩ := labeled_inv g1
  obtain ⟨bt, b, rfl, hb, rfl, -⟩ := binding_sound p1
  obtain ⟨v2, cs2, fr2, g2, h2⟩ := seq_inv h1
  obtain ⟨rfl, rfl, rfl⟩ := exec_lit_inv g2
  obtain ⟨v3, cs3, fr3, g3, h3⟩ := seq_inv h2
  obtain ⟨s0, rfl, k0, -, rfl⟩ := skip_inv g3
  obtain ⟨v4, cs4, fr4, g4, h4⟩ := seq_inv h3
  obtain ⟨⟨_, p4⟩, rfl⟩ := labeled_inv g4
  obtain ⟨op, rfl, ho, rfl⟩ := op_inv p4
  obtain ⟨v5, cs5, fr5, g5, h5⟩ := seq_inv h4
  obtain ⟨⟨_, p5⟩, rfl⟩ := labeled_inv g5
  rw [exec_zeroOrMore] at p5
  obtain ⟨ds, hi, rfl, -, -⟩ := items_of_loop p5
  obtain ⟨ot, ops, rfl, hot, hds⟩ := items_sound (ih (n - 1) (by simp at hn; omega)) hi (by simp at hn; omega)
  obtain ⟨v6, cs6, fr6, g6, h6⟩ := seq_inv h5
  obtain ⟨⟨_, p6⟩, rfl⟩ := labeled_inv g6
  obtain ⟨et, ell, rfl, he, hem, -⟩ := mark_sound p6
  obtain ⟨v7, cs7, fr7, g7, h7⟩ := seq_inv h6
  obtain ⟨⟨_, p7⟩, rfl⟩ := labeled_inv g7
  obtain ⟨tt, tr, rfl, ht, htm, -⟩ := mark_sound p7
  obtain ⟨v8, cs8, fr8, g8, h8⟩ := seq_inv h7
  obtain ⟨s1, rfl, k1, -, rfl⟩ := skip_inv g8
  obtain ⟨v9, cs9, fr9, g9, h9⟩ := seq_inv h8
  obtain ⟨rfl, rfl, rfl⟩ := exec_lit_inv g9
  obtain ⟨rfl, rfl, rfl⟩ := seq_nil_inv h9
  have hact : onSExpr1 (bindDyn b) (opDyn op) (.list ds) v6 v7 = .ok v := hact
  rw [onSExpr1_eq ho hds hem htm] at hact
  simp only [ActOut.ok.injEq] at hact
  refine ⟨_, _, _, ?_, .sexpr hb k0 ho hot he ht k1, hact.symm, rfl⟩
  simp

theorem value_sound (n : Nat) : ValueSound lib n := by
  induction n using Nat.strongRecOn with
  | ind n ih =>
    intro cs v cs' fr fr' hn h
    obtain ⟨rfl, fr1, h⟩ := ruleRef_inv h
    have h : exec (ruleGrammar lib) gValue cs Frame.empty = .ok v cs' fr1 := h
    rw [gValue, exec_choice] at h
    obtain ⟨pre, e, post, fr2, he, -, h1, -⟩ := choice_inv h
    have hmem : e ∈ [PExpr.ruleRef .SExpr, .ruleRef .Expr] := by rw [he]; simp
    simp only [List.mem_cons, List.not_mem_nil, or_false] at hmem
    rcases hmem with rfl | rfl
    · obtain ⟨t, hd, args, k1, k2, k3, -⟩ := sexpr_sound ih hn h1
      exact ⟨t, _, k1, k2, k3, trivial, rfl⟩
    · obtain ⟨t, w, k1, k2, k3, k4, -⟩ := expr_sound n _ _ _ _ _ hn h1
      exact ⟨t, w, k1, .expr k2, k3, k4, rfl⟩

end
end Verif.Proof

import Verif.Proof.Size
import Verif.Proof.FuseRules
/-!
# Proofs about the size of the printed form of what was parsed
-/
namespace Verif.Proof
open Verif Verif.Spec

/-! ## Go expressions -/

/-- Blanks the printer may write for a token. -/
def extra : GTok → Nat
  | .op _ => 2
  | .comma => 1
  | _ => 0

def tlen (ts : List GTok) : Nat := (ts.map fun k => (tokText k).length + extra k).sum

@[simp] theorem tlen_nil : tlen [] = 0 := rfl
theorem tlen_cons (k : GTok) (ts) : tlen (k :: ts) = (tokText k).length + extra k + tlen ts := by simp [tlen]
theorem tlen_append (a b : List GTok) : tlen (a ++ b) = tlen a + tlen b := by simp [tlen]

theorem tlen_drops {a b : List GTok} (h : Drops a b) : tlen a ≤ tlen b := by
  induction h with
  | nil => simp
  | keep k _ ih => simp only [tlen_cons]; omega
  | drop k _ _ ih => simp only [tlen_cons]; omega

theorem op_len {u : GoVersion} {s k r} (h : operator u s = some (k, r)) : ∃ w, s = w ++ r ∧ (tokText k).length + extra k ≤ 3 * w.length := by
  unfold operator at h
  split at h
  · split at h
    · simp only [Option.some.injEq, Prod.mk.injEq] at h
      obtain ⟨rfl, rfl⟩ := h
      exact ⟨['~'], rfl, by decide⟩
    · simp at h
  · split at h
    · rename_i w k' hf
      have hm := List.mem_of_find?_eq_some hf
      have hp := List.find?_some hf
      have hne : operators.all (fun o => decide ((tokText o.2).length + extra o.2 ≤ 3 * o.1.length)) = true := by decide +kernel
      have hne := List.all_eq_true.1 hne _ hm
      simp only [Option.some.injEq, Prod.mk.injEq] at h
      obtain ⟨rfl, rfl⟩ := h
      refine ⟨w, ?_, by simpa using hne⟩
      obtain ⟨z, hz⟩ := List.isPrefixOf_iff_prefix.1 hp
      rw [← hz]; simp
    · simp at h

theorem word_extra {k : GTok} (h : isWord k = true) : extra k = 0 := by
  cases k <;> simp [isWord] at h <;> rfl

theorem lexTok_len {u : GoVersion} {c s k r} (h : lexTok u (c :: s) = some (k, r)) : (tokText k).length + extra k + 3 * r.length ≤ 3 * (c :: s).length := by
  by_cases hw : isWord k = true
  · obtain ⟨h1, w, h2, h3⟩ := lexTok_again h hw
    rw [h2, List.length_append, word_extra hw]
    have : (tokText k).length ≤ w.length := by
      rcases h3 with h3 | h3
      · rw [h3]; exact Nat.le_refl _
      · rw [h3]; exact List.length_filter_le _ _
    omega
  · have hsuf := lexTok_rest h
    obtain ⟨w, -, hw2⟩ := hsuf
    rw [lexTok_eq] at h
    split at h
    · rename_i hc
      simp only [Option.some.injEq, Prod.mk.injEq] at h
      have : k = .other := by
        rw [← h.1] at hw ⊢
        split
        · rfl
        · rename_i hk; rw [if_neg hk] at hw; simp [isWord] at hw
      rw [hw2, List.length_append, this]; simp [tokText, extra]; omega
    split at h
    · obtain ⟨kd, h1, -⟩ := number_lit h
      rw [h1] at hw; simp [isWord] at hw
    split at h
    · cases hb : quoted '"' .body s with
      | none => rw [hb] at h; simp at h
      | some z =>
        rw [hb] at h
        simp only [Option.map_some, Option.some.injEq, Prod.mk.injEq] at h
        rw [← h.1] at hw; simp [isWord] at hw
    split at h
    · split at h
      · simp only [Option.some.injEq, Prod.mk.injEq] at h
        rw [← h.1] at hw; simp [isWord] at hw
      · simp at h
    split at h
    · cases hb : rawBody s with
      | none => rw [hb] at h; simp at h
      | some z =>
        rw [hb] at h
        simp only [Option.map_some, Option.some.injEq, Prod.mk.injEq] at h
        rw [← h.1] at hw; simp [isWord] at hw
    · obtain ⟨w', e, hn⟩ := op_len h
      rw [e, List.length_append]; omega

theorem tlen_semi (ts : List GTok) : tlen (.semi :: ts) = tlen ts := by simp [tlen_cons, tokText, extra]

theorem lexGo_len {u : GoVersion} : ∀ {n nl s ts}, lexGo u n nl s = some ts → tlen ts ≤ 3 * s.length
  | 0, _, _, _, h => by simp [lexGo] at h
  | n + 1, nl, [], ts, h => by simp [lexGo] at h; subst h; simp
  | n + 1, nl, c :: s, ts, h => by
    rw [lexGo_cons] at h
    have hle : (c :: s).length = s.length + 1 := rfl
    split at h
    · split at h
      · cases hr : lexGo u n false s with
        | none => rw [hr] at h; simp at h
        | some z =>
          rw [hr] at h; simp at h; subst h
          have := lexGo_len hr
          rw [tlen_semi]; omega
      · have := lexGo_len h; omega
    split at h
    · have := lexGo_len h; omega
    split at h
    · rename_i s _ _
      have := lexGo_len h
      have h2 : (s.dropWhile (· != '\n')).length ≤ s.length := by
        have := congrArg List.length (List.takeWhile_append_dropWhile (p := (· != '\n')) (l := s))
        rw [List.length_append] at this; omega
      simp only [List.length_cons] at *
      omega
    · rename_i s _ _
      split at h
      · simp at h
      · rename_i b s' hcc
        obtain ⟨w, hw⟩ := closeComment_suffix hcc
        have h2 : s'.length ≤ s.length := by rw [hw, List.length_append]; omega
        simp only [List.length_cons] at *
        split at h
        · cases hr : lexGo u n false s' with
          | none => rw [hr] at h; simp at h
          | some z =>
            rw [hr] at h; simp at h; subst h
            have := lexGo_len hr
            rw [tlen_semi]; omega
        · have := lexGo_len h; omega
    · split at h
      · simp at h
      · rename_i k r hk
        cases hr : lexGo u n (endsLine k) r with
        | none => rw [hr] at h; simp at h
        | some z =>
          rw [hr] at h; simp at h; subst h
          have := lexGo_len hr
          have := lexTok_len hk
          rw [tlen_cons]; omega

mutual
theorem gText_tlen : ∀ e : GoExpr, (gText (pieces e)).length ≤ tlen (toksOf (pieces e))
  | .ident _ n => by simp [pieces, tlen_cons]
  | .basicLit _ k v => by simp [pieces, tlen_cons]
  | .paren _ x _ => by
    have := gText_tlen x
    simp [pieces, tlen_cons, tlen_append]; omega
  | .unary _ op x => by
    have := gText_tlen x
    simp [pieces, tlen_cons]; omega
  | .star _ x => by
    have := gText_tlen x
    simp [pieces, tlen_cons]; omega
  | .binary x _ op y => by
    have h1 := gText_tlen x
    have h2 := gText_tlen y
    simp only [pieces, gText_append, toksOf_append, tlen_append, List.length_append]
    split
    · simp [tlen_cons, extra]; omega
    · simp [tlen_cons]; omega
  | .call fn _ args _ _ => by
    have h1 := gText_tlen fn
    have h2 := argText_tlen args
    simp [pieces, tlen_cons, tlen_append]; omega
  | .selector x _ sel => by
    have := gText_tlen x
    simp [pieces, tlen_cons, tlen_append]; omega
  | .other _ => by simp [pieces]
  | .nil => by simp [pieces]
theorem argText_tlen : ∀ es : List GoExpr, (gText (argPieces es)).length ≤ tlen (toksOf (argPieces es))
  | [] => by simp [argPieces]
  | e :: es => by
    have h1 := gText_tlen e
    have h2 := argTextTail_tlen es
    simp [argPieces, tlen_append]; omega
theorem argTextTail_tlen : ∀ es : List GoExpr, (gText (argPiecesTail es)).length ≤ tlen (toksOf (argPiecesTail es))
  | [] => by simp [argPiecesTail]
  | e :: es => by
    have h1 := gText_tlen e
    have h2 := argTextTail_tlen es
    simp [argPiecesTail, tlen_append, tlen_cons, extra]; omega
end

/-- The printed form of a Go expression is at most three times as long as the text it was read from. -/
theorem goSyntax_len {u : GoVersion} {t e} (h : goSyntax u t = some e) : (showGo e).length ≤ 3 * t.length := by
  unfold goSyntax lexAll at h
  cases hm : noMarks t with
  | none => rw [hm] at h; simp at h
  | some t' =>
    rw [hm] at h
    simp only [Option.bind_some] at h
    cases hl : lexGo u (t'.length + 1) false t' with
    | none => rw [hl] at h; simp at h
    | some ts =>
      rw [hl] at h
      obtain ⟨c, hd, hc⟩ := parseToks_sub h
      have h1 : tlen (toksOf (pieces e)) ≤ tlen ts := by
        have := tlen_drops hd
        rcases hc with rfl | rfl
        · exact this
        · rw [tlen_append]; exact Nat.le_trans this (by omega)
      have h2 := lexGo_len hl
      have h3 : t'.length ≤ t.length := by
        obtain ⟨⟨w, hw⟩, -⟩ := noMarks_some hm
        rw [hw, List.length_append]; omega
      have h4 := gText_tlen e
      rw [show_eq]
      omega

/-! ## Rules -/

section
variable {go : Str → GoExpr → Prop} {u : GoVersion}

def olen : Operand → Nat
  | .type t => t.length + 3
  | .auxInt e => (showGo e).length + 3
  | .aux e => (showGo e).length + 3
  | .arg v => (showValue v).length + 1

def olens (ops : List Operand) : Nat := (ops.map olen).sum

def shownLen (ops : List Operand) : Nat :=
  (showType (lastType ops)).length + (showAuxInt (lastAuxInt ops)).length + (showAux (lastAux ops)).length + (showArgs (argsOf ops)).length

theorem showArgs_append_len (a b : List Value) : (showArgs (a ++ b)).length = (showArgs a).length + (showArgs b).length := by
  induction a with
  | nil => simp [showArgs]
  | cons v a ih => simp only [List.cons_append, showArgs, List.length_append, ih, List.length_cons]; omega

theorem shownLen_concat (ops : List Operand) (o : Operand) : shownLen (ops ++ [o]) ≤ shownLen ops + olen o := by
  have t1 : ∀ x y : List Operand, typesOf (x ++ y) = typesOf x ++ typesOf y := by intro x y; simp [typesOf]
  have a1 : ∀ x y : List Operand, argsOf (x ++ y) = argsOf x ++ argsOf y := by intro x y; simp [argsOf]
  unfold shownLen
  cases o with
  | type t =>
    have e1 : lastType (ops ++ [.type t]) = t := by
      unfold lastType; rw [t1]; simp [typesOf]
    have e2 : lastAuxInt (ops ++ [.type t]) = lastAuxInt ops := by unfold lastAuxInt; rw [List.filterMap_append]; simp
    have e3 : lastAux (ops ++ [.type t]) = lastAux ops := by unfold lastAux; rw [List.filterMap_append]; simp
    have e4 : argsOf (ops ++ [.type t]) = argsOf ops := by rw [a1]; simp [argsOf]
    rw [e1, e2, e3, e4]
    have : (showType t).length ≤ t.length + 3 := by unfold showType; split <;> simp
    simp only [olen]
    omega
  | auxInt e =>
    have e1 : lastType (ops ++ [.auxInt e]) = lastType ops := by
      unfold lastType; rw [t1]; simp [typesOf]
    have e2 : lastAuxInt (ops ++ [.auxInt e]) = some e := by unfold lastAuxInt; rw [List.filterMap_append]; simp
    have e3 : lastAux (ops ++ [.auxInt e]) = lastAux ops := by unfold lastAux; rw [List.filterMap_append]; simp
    have e4 : argsOf (ops ++ [.auxInt e]) = argsOf ops := by rw [a1]; simp [argsOf]
    rw [e1, e2, e3, e4]
    have : (showAuxInt (some e)).length = (showGo e).length + 3 := by simp [showAuxInt]
    simp only [olen]
    omega
  | aux e =>
    have e1 : lastType (ops ++ [.aux e]) = lastType ops := by
      unfold lastType; rw [t1]; simp [typesOf]
    have e2 : lastAuxInt (ops ++ [.aux e]) = lastAuxInt ops := by unfold lastAuxInt; rw [List.filterMap_append]; simp
    have e3 : lastAux (ops ++ [.aux e]) = some e := by unfold lastAux; rw [List.filterMap_append]; simp
    have e4 : argsOf (ops ++ [.aux e]) = argsOf ops := by rw [a1]; simp [argsOf]
    rw [e1, e2, e3, e4]
    have : (showAux (some e)).length = (showGo e).length + 3 := by simp [showAux]
    simp only [olen]
    omega
  | arg v =>
    have e1 : lastType (ops ++ [.arg v]) = lastType ops := by
      unfold lastType; rw [t1]; simp [typesOf]
    have e2 : lastAuxInt (ops ++ [.arg v]) = lastAuxInt ops := by unfold lastAuxInt; rw [List.filterMap_append]; simp
    have e3 : lastAux (ops ++ [.arg v]) = lastAux ops := by unfold lastAux; rw [List.filterMap_append]; simp
    have e4 : argsOf (ops ++ [.arg v]) = argsOf ops ++ [v] := by rw [a1]; simp [argsOf]
    rw [e1, e2, e3, e4, showArgs_append_len]
    simp only [olen, showArgs, List.append_nil, List.length_cons]
    omega

theorem shownLen_le (ops : List Operand) : shownLen ops ≤ olens ops := by
  have key : ∀ (post pre : List Operand), shownLen pre ≤ olens pre → shownLen (pre ++ post) ≤ olens (pre ++ post) := by
    intro post
    induction post with
    | nil => intro pre h; simpa using h
    | cons o post ih =>
      intro pre h
      have e : pre ++ o :: post = (pre ++ [o]) ++ post := by simp
      rw [e]
      refine ih _ ?_
      have := shownLen_concat pre o
      simp only [olens, List.map_append, List.sum_append, List.map_cons, List.map_nil, List.sum_cons, List.sum_nil] at h ⊢
      omega
  exact key ops [] (Nat.le_refl _)

theorem skip1_len {s : Str} (h : Skip1 s) : 1 ≤ s.length := by
  have := h.2
  cases s with
  | nil => exact absurd rfl this
  | cons => simp

theorem exprText_len (hgo : ∀ t e, go t e → goSyntax u t = some e) {t v} (h : ExprText go t v) : (showValue v).length ≤ 3 * t.length := by
  cases h with
  | var h => simp [showValue]; omega
  | placeholder => simp [showValue]
  | call _ _ _ _ _ hg => exact goSyntax_len (hgo _ _ hg)

theorem mark_len {m t b} (h : MarkText m t b) : (if b then ' ' :: m else []).length ≤ t.length := by
  cases h with
  | none => simp
  | some h => have := skip1_len h; simp; omega

theorem valueText_len (hgo : ∀ t e, go t e → goSyntax u t = some e) {t v} (h : ValueText go t v) : (showValue v).length ≤ 3 * t.length := by
  refine ValueText.rec (go := go) (motive_1 := fun t v _ => (showValue v).length ≤ 3 * t.length)
    (motive_2 := fun t ops _ => olens ops ≤ 3 * t.length) (motive_3 := fun t o _ => olen o ≤ 3 * t.length + 3) ?_ ?_ ?_ ?_ ?_ ?_ ?_ ?_ h
  · intro t v h; exact exprText_len hgo h
  · intro bt b s0 op ot ops et ell tt tr s1 hb _ ho _ he ht _ ih
    have h1 := shownLen_le ops
    unfold shownLen at h1
    have h2 := mark_len he
    have h3 := mark_len ht
    have h4 : (showBinding b).length ≤ bt.length := by
      cases hb with
      | none => simp [showBinding]
      | some h => unfold showBinding; split <;> simp
    rw [showValue, dots_eq, trail_eq]
    simp only [List.cons_append, List.length_append, List.length_cons, List.length_nil]
    omega
  · simp [olens]
  · intro s t o rest os hs _ _ h1 h2
    have := skip1_len hs
    simp only [olens, List.map_cons, List.sum_cons, List.length_append] at h2 ⊢; omega
  · intro t _ _; simp [olen]; omega
  · intro t e _ _ h
    have := goSyntax_len (hgo _ _ h)
    simp [olen]; omega
  · intro t e _ _ h
    have := goSyntax_len (hgo _ _ h)
    simp [olen]; omega
  · intro t v _ h; simp only [olen]; omega

theorem cond_len (hgo : ∀ t e, go t e → goSyntax u t = some e) {t o} (h : CondText go t o) : (showCond o).length ≤ 3 * t.length := by
  cases h with
  | none => simp [showCond]
  | @some s0 s1 raw c t e h0 h1 _ _ _ _ _ htr hg =>
    have k1 := goSyntax_len (hgo _ _ hg)
    have k2 := skip1_len h0
    have k3 := skip1_len h1
    have k4 : t.length ≤ raw.length := by
      obtain ⟨pre, post, e, -⟩ := htr
      have := congrArg List.length e
      simp only [List.length_map, List.length_append] at this
      omega
    simp only [showCond, List.length_append, List.length_cons, List.length_nil]
    omega

theorem block_len {t b} (h : BlockText t b) : (showBlock b).length ≤ t.length := by
  cases h with
  | none => simp [showBlock]
  | some _ hb _ _ _ =>
    unfold showBlock
    rw [if_neg hb]
    simp only [List.length_append, List.length_cons, List.length_nil]
    omega

theorem ruleText_len (hgo : ∀ t e, go t e → goSyntax u t = some e) {t r} (h : RuleText go t r) : (showRule r).length + 1 ≤ 3 * t.length := by
  cases h with
  | mk hm hc hb hr =>
    have h1 := valueText_len hgo hm
    have h2 := cond_len hgo hc
    have h3 := block_len hb
    have h4 := valueText_len hgo hr
    simp only [showRule, List.length_append, List.length_cons]
    omega

theorem fileText_len (hgo : ∀ t e, go t e → goSyntax u t = some e) {t rs} (h : FileText go t rs) : linesLen rs ≤ 3 * t.length := by
  induction h with
  | nil => simp [linesLen]
  | cons _ hr _ _ _ ih =>
    have := ruleText_len hgo hr
    simp only [linesLen, List.map_cons, List.sum_cons, List.length_append] at ih ⊢
    omega
end

end Verif.Proof

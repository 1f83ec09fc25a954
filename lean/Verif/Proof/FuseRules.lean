import Verif.Proof.Reparse
import Verif.Proof.FuseGo
import Verif.Proof.PegAsked
/-!
# A printed file that is read back has no fused tokens

First: nothing of the printed text is skipped when it is read back, so the parts of a rule are found where they were written; in particular there
is no arrow in a condition.  Second: every Go expression of the rules is given to the Go parser in its printed form.
-/
namespace Verif.Proof
open Verif Verif.Spec

/-! ## Counting characters that are not blank -/

theorem nbc_zero {s : Str} (h : nbc s = 0) : ∀ c ∈ s, isBlank c = true := by
  intro c hc
  cases hb : isBlank c with
  | true => rfl
  | false =>
    obtain ⟨a, b, rfl⟩ := List.append_of_mem hc
    rw [nbc_append, nbc_cons_one _ hb] at h
    omega

/-- First and last character are not blank. -/
def Solid (s : Str) : Prop := (∃ c t, s = c :: t ∧ isBlank c = false) ∧ ∃ t c, s = t ++ [c] ∧ isBlank c = false

theorem solid_pos {s : Str} (h : Solid s) : 0 < nbc s := by
  obtain ⟨⟨c, t, rfl, hb⟩, -⟩ := h
  rw [nbc_cons_one _ hb]; omega

/-- Of two beginnings of a text, one with a solid end and no more solid characters than the other is a beginning of the other. -/
theorem prefix_of_nbc : ∀ {a b x y : Str}, a ++ x = b ++ y → (∀ t c, a = t ++ [c] → isBlank c = false) → nbc a ≤ nbc b → ∃ z, b = a ++ z
  | [], b, x, y, _, _, _ => ⟨b, rfl⟩
  | c :: a, [], x, y, _, h, hn => by
    have : ∃ t d, c :: a = t ++ [d] := by
      rcases List.eq_nil_or_concat (c :: a) with h | ⟨t, d, h⟩
      · simp at h
      · exact ⟨t, d, by simpa using h⟩
    obtain ⟨t, d, e⟩ := this
    have hb := h t d e
    rw [e, nbc_append, nbc_one hb] at hn
    simp at hn
  | c :: a, d :: b, x, y, e, h, hn => by
    simp only [List.cons_append, List.cons.injEq] at e
    obtain ⟨rfl, e⟩ := e
    rw [nbc_cons, nbc_cons c b] at hn
    obtain ⟨z, rfl⟩ := prefix_of_nbc e (fun t d e => h (c :: t) d (by rw [e]; rfl)) (by omega)
    exact ⟨z, rfl⟩

theorem eq_of_nbc {a b x y : Str} (e : a ++ x = b ++ y) (ha : Solid a) (hb : Solid b) (hn : nbc a = nbc b) : a = b := by
  have la : ∀ {s : Str}, Solid s → ∀ t c, s = t ++ [c] → isBlank c = false := by
    rintro s ⟨-, t, c, e1, h⟩ t' c' e2
    rw [e1] at e2
    have := List.append_inj' e2 rfl
    simp at this; rw [← this.2]; exact h
  obtain ⟨z, rfl⟩ := prefix_of_nbc e (la ha) (by omega)
  obtain ⟨-, t, c, e1, h⟩ := hb
  rcases List.eq_nil_or_concat z with rfl | ⟨z', d, rfl⟩
  · simp
  · exfalso
    have e2 : a ++ z' ++ [d] = t ++ [c] := by rw [← e1]; simp
    have := List.append_inj' e2 rfl
    simp at this
    have hd : isBlank d = false := by rw [this.2]; exact h
    rw [List.concat_eq_append, nbc_append, nbc_append, nbc_one hd] at hn
    omega

/-- Blanks before two solid texts. -/
theorem blanks_eq : ∀ {a b x y : Str}, a ++ x = b ++ y → nbc a = 0 → nbc b = 0 → (∀ c t, x = c :: t → isBlank c = false) →
    (∀ c t, y = c :: t → isBlank c = false) → (x = [] ↔ y = []) → a = b ∧ x = y
  | [], [], x, y, e, _, _, _, _, _ => ⟨rfl, e⟩
  | [], c :: b, x, y, e, _, hb, hx, _, _ => by
    have := nbc_zero hb c (by simp)
    rw [hx c (b ++ y) (by simpa using e)] at this; simp at this
  | c :: a, [], x, y, e, ha, _, _, hy, _ => by
    have := nbc_zero ha c (by simp)
    rw [hy c (a ++ x) (by simpa using e.symm)] at this; simp at this
  | c :: a, d :: b, x, y, e, ha, hb, hx, hy, hxy => by
    simp only [List.cons_append, List.cons.injEq] at e
    obtain ⟨rfl, e⟩ := e
    have h1 := nbc_zero ha c (by simp)
    rw [nbc_cons_blank _ h1] at ha hb
    obtain ⟨rfl, rfl⟩ := blanks_eq e ha hb hx hy hxy
    exact ⟨rfl, rfl⟩

section
variable {u : GoVersion} {go : Str → GoExpr → Prop}

/-! ## What is read is at least as long as what is printed -/

def onbc : Operand → Nat
  | .type t => nbc t + 2
  | .auxInt e => nbc (showGo e) + 2
  | .aux e => nbc (showGo e) + 2
  | .arg v => nbc (showValue v)

def onbcs : List Operand → Nat
  | [] => 0
  | o :: os => onbc o + onbcs os

theorem onbcs_append (a b : List Operand) : onbcs (a ++ b) = onbcs a + onbcs b := by
  induction a with
  | nil => simp [onbcs]
  | cons o a ih => simp only [List.cons_append, onbcs, ih]; omega

def shown (ops : List Operand) : Nat :=
  nbc (showType (lastType ops)) + nbc (showAuxInt (lastAuxInt ops)) + nbc (showAux (lastAux ops)) + nbc (showArgs (argsOf ops))

theorem nbc_showType (t : Str) : nbc (showType t) = if t = [] then 0 else nbc t + 2 := by
  unfold showType
  split
  · rfl
  · rw [nbc_append, nbc_cons_blank _ (by decide), nbc_cons_one _ (by decide), nbc_one (by decide)]
theorem nbc_showAuxInt (o : Option GoExpr) : nbc (showAuxInt o) = match o with | none => 0 | some e => nbc (showGo e) + 2 := by
  cases o with
  | none => rfl
  | some e => simp only [showAuxInt]; rw [nbc_append, nbc_cons_blank _ (by decide), nbc_cons_one _ (by decide), nbc_one (by decide)]
theorem nbc_showAux (o : Option GoExpr) : nbc (showAux o) = match o with | none => 0 | some e => nbc (showGo e) + 2 := by
  cases o with
  | none => rfl
  | some e => simp only [showAux]; rw [nbc_append, nbc_cons_blank _ (by decide), nbc_cons_one _ (by decide), nbc_one (by decide)]
theorem nbc_showArgs_append (a b : List Value) : nbc (showArgs (a ++ b)) = nbc (showArgs a) + nbc (showArgs b) := by
  induction a with
  | nil => simp [showArgs]
  | cons v a ih => simp only [List.cons_append, showArgs, nbc_append, ih, nbc_cons_blank _ (show isBlank ' ' = true from by decide)]; omega

theorem shown_concat (ops : List Operand) (o : Operand) : shown (ops ++ [o]) ≤ shown ops + onbc o := by
  have t1 : ∀ x y : List Operand, typesOf (x ++ y) = typesOf x ++ typesOf y := by intro x y; simp [typesOf]
  have a1 : ∀ x y : List Operand, argsOf (x ++ y) = argsOf x ++ argsOf y := by intro x y; simp [argsOf]
  unfold shown
  cases o with
  | type t =>
    have e1 : lastType (ops ++ [.type t]) = t := by
      unfold lastType; rw [t1]; simp [typesOf]
    have e2 : lastAuxInt (ops ++ [.type t]) = lastAuxInt ops := by unfold lastAuxInt; rw [List.filterMap_append]; simp
    have e3 : lastAux (ops ++ [.type t]) = lastAux ops := by unfold lastAux; rw [List.filterMap_append]; simp
    have e4 : argsOf (ops ++ [.type t]) = argsOf ops := by rw [a1]; simp [argsOf]
    rw [e1, e2, e3, e4, nbc_showType t]
    simp only [onbc]
    split <;> omega
  | auxInt e =>
    have e1 : lastType (ops ++ [.auxInt e]) = lastType ops := by
      unfold lastType; rw [t1]; simp [typesOf]
    have e2 : lastAuxInt (ops ++ [.auxInt e]) = some e := by unfold lastAuxInt; rw [List.filterMap_append]; simp
    have e3 : lastAux (ops ++ [.auxInt e]) = lastAux ops := by unfold lastAux; rw [List.filterMap_append]; simp
    have e4 : argsOf (ops ++ [.auxInt e]) = argsOf ops := by rw [a1]; simp [argsOf]
    rw [e1, e2, e3, e4, nbc_showAuxInt (some e)]
    simp only [onbc]
    omega
  | aux e =>
    have e1 : lastType (ops ++ [.aux e]) = lastType ops := by
      unfold lastType; rw [t1]; simp [typesOf]
    have e2 : lastAuxInt (ops ++ [.aux e]) = lastAuxInt ops := by unfold lastAuxInt; rw [List.filterMap_append]; simp
    have e3 : lastAux (ops ++ [.aux e]) = some e := by unfold lastAux; rw [List.filterMap_append]; simp
    have e4 : argsOf (ops ++ [.aux e]) = argsOf ops := by rw [a1]; simp [argsOf]
    rw [e1, e2, e3, e4, nbc_showAux (some e)]
    simp only [onbc]
    omega
  | arg v =>
    have e1 : lastType (ops ++ [.arg v]) = lastType ops := by
      unfold lastType; rw [t1]; simp [typesOf]
    have e2 : lastAuxInt (ops ++ [.arg v]) = lastAuxInt ops := by unfold lastAuxInt; rw [List.filterMap_append]; simp
    have e3 : lastAux (ops ++ [.arg v]) = lastAux ops := by unfold lastAux; rw [List.filterMap_append]; simp
    have e4 : argsOf (ops ++ [.arg v]) = argsOf ops ++ [v] := by rw [a1]; simp [argsOf]
    rw [e1, e2, e3, e4, nbc_showArgs_append]
    simp only [onbc, showArgs, List.append_nil]
    rw [nbc_cons_blank _ (by decide)]
    omega

theorem shown_le (ops : List Operand) : shown ops ≤ onbcs ops := by
  have key : ∀ (post pre : List Operand), shown pre ≤ onbcs pre → shown (pre ++ post) ≤ onbcs (pre ++ post) := by
    intro post
    induction post with
    | nil => intro pre h; simpa using h
    | cons o post ih =>
      intro pre h
      have e : pre ++ o :: post = (pre ++ [o]) ++ post := by simp
      rw [e]
      refine ih _ ?_
      have := shown_concat pre o
      rw [onbcs_append]
      simp only [onbcs]; omega
  exact key ops [] (Nat.le_refl _)

theorem exprText_nbc (hgo : ∀ t e, go t e → goSyntax u t = some e) {t v} (h : ExprText go t v) : nbc (showValue v) ≤ nbc t := by
  cases h with
  | var h => simp [showValue]
  | placeholder => simp [showValue]
  | call _ _ _ _ _ hg => exact goSyntax_nbc (hgo _ _ hg)

theorem nbc_mark {m t b} (h : MarkText m t b) : nbc (if b then ' ' :: m else []) ≤ nbc t := by
  cases h with
  | none => simp
  | some _ => simp only [if_true, nbc_append]; rw [nbc_cons_blank _ (by decide)]; omega

theorem valueText_nbc (hgo : ∀ t e, go t e → goSyntax u t = some e) {t v} (h : ValueText go t v) : nbc (showValue v) ≤ nbc t := by
  refine ValueText.rec (go := go) (motive_1 := fun t v _ => nbc (showValue v) ≤ nbc t)
    (motive_2 := fun t ops _ => onbcs ops ≤ nbc t) (motive_3 := fun t o _ => onbc o ≤ nbc t) ?_ ?_ ?_ ?_ ?_ ?_ ?_ ?_ h
  · intro t v h; exact exprText_nbc hgo h
  · intro bt b s0 op ot ops et ell tt tr s1 hb _ ho _ he ht _ ih
    have h1 := shown_le ops
    unfold shown at h1
    have h2 := nbc_mark he
    have h3 := nbc_mark ht
    have h4 : nbc (showBinding b) ≤ nbc bt := by
      cases hb with
      | none => simp [showBinding]
      | some h => unfold showBinding; split <;> simp
    rw [showValue, dots_eq, trail_eq]
    simp only [List.cons_append, nbc_append, nbc_cons_one _ (show isBlank '(' = false from by decide)]
    omega
  · simp [onbcs]
  · intro s t o rest os _ _ _ h1 h2
    simp only [onbcs, nbc_append]; omega
  · intro t _ _; simp only [onbc, List.cons_append, nbc_append, nbc_cons_one _ (show isBlank '<' = false from by decide), nbc_one (show isBlank '>' = false from by decide)]; omega
  · intro t e _ _ h
    have := goSyntax_nbc (hgo _ _ h)
    simp only [onbc, List.cons_append, nbc_append, nbc_cons_one _ (show isBlank '[' = false from by decide), nbc_one (show isBlank ']' = false from by decide)]; omega
  · intro t e _ _ h
    have := goSyntax_nbc (hgo _ _ h)
    simp only [onbc, List.cons_append, nbc_append, nbc_cons_one _ (show isBlank '{' = false from by decide), nbc_one (show isBlank '}' = false from by decide)]; omega
  · intro t v _ h; exact h

/-! ## Ends -/

theorem wordChar_not_blank {c : Char} (h : isWordChar c = true) : isBlank c = false := by
  cases hb : isBlank c with
  | false => rfl
  | true =>
    simp only [isBlank, Bool.or_eq_true, beq_iff_eq] at hb
    rcases hb with ((rfl | rfl) | rfl) | rfl <;> exact absurd h (by decide)

theorem lower_wordChar {c : Char} (h : isLower c = true) : isWordChar c = true := by simp [isWordChar, h]

theorem solid_ident {s : Str} (h : Ident s) : Solid s := by
  obtain ⟨c, t, rfl, hc, ht⟩ := h
  have all : ∀ d ∈ c :: t, isBlank d = false := by
    intro d hd
    rcases List.mem_cons.1 hd with rfl | hd
    · exact wordChar_not_blank (lower_wordChar hc)
    · exact wordChar_not_blank (ht d hd)
  refine ⟨⟨c, t, rfl, all c (by simp)⟩, ?_⟩
  rcases List.eq_nil_or_concat (c :: t) with h | ⟨t', d, h⟩
  · simp at h
  · exact ⟨t', d, by simpa using h, all d (by rw [h]; simp)⟩

theorem exprText_solid {t v} (h : ExprText go t v) : Solid t := by
  cases h with
  | var h => exact solid_ident h
  | placeholder => exact ⟨⟨'_', [], rfl, by decide⟩, [], '_', rfl, by decide⟩
  | call h _ _ _ _ _ =>
    obtain ⟨⟨c, t, rfl, hc⟩, -⟩ := solid_ident h
    exact ⟨⟨c, _, by simp only [List.cons_append]; rfl, hc⟩, _, ')', rfl, by decide⟩

theorem valueText_solid {t v} (h : ValueText go t v) : Solid t := by
  cases h with
  | expr h => exact exprText_solid h
  | sexpr hb _ _ _ _ _ _ =>
    refine ⟨?_, _, ')', rfl, by decide⟩
    cases hb with
    | none => exact ⟨'(', _, by simp only [List.nil_append, List.cons_append]; rfl, by decide⟩
    | some h =>
      obtain ⟨⟨c, t, rfl, hc⟩, -⟩ := solid_ident h
      exact ⟨c, _, by simp only [List.cons_append]; rfl, hc⟩

theorem not_space_blank {c : Char} (h : c.toNat ∉ whiteSpace) : isBlank c = false := by
  cases hb : isBlank c with
  | false => rfl
  | true =>
    simp only [isBlank, Bool.or_eq_true, beq_iff_eq] at hb
    rcases hb with ((rfl | rfl) | rfl) | rfl <;> exact absurd (by decide) h

theorem solid_showGo {e} (h : GoWF u e) : Solid (showGo e) := by
  obtain ⟨⟨c, s, e1, -, -, hb⟩, c', hl, hs⟩ := show_ends h
  refine ⟨⟨c, s, e1, hb⟩, ?_⟩
  obtain ⟨t, ht⟩ := List.getLast?_eq_some_iff.1 hl
  exact ⟨t, c', ht, not_space_blank hs⟩

theorem solid_showValue (hgo : ∀ t e, go t e → goSyntax u t = some e) {t v} (h : ValueText go t v) : Solid (showValue v) := by
  cases h with
  | expr h =>
    cases h with
    | var h => exact solid_ident h
    | placeholder => exact ⟨⟨'_', [], rfl, by decide⟩, [], '_', rfl, by decide⟩
    | call _ _ _ _ _ hg => exact solid_showGo (goSyntax_sound (hgo _ _ hg)).1
  | sexpr hb _ _ _ _ _ _ =>
    rw [showValue]
    refine ⟨?_, _, ')', rfl, by decide⟩
    cases hb with
    | none => simp only [showBinding, if_true]; exact ⟨'(', _, by simp only [List.nil_append, List.cons_append]; rfl, by decide⟩
    | some h =>
      obtain ⟨⟨c, t, rfl, hc⟩, -⟩ := solid_ident h
      simp only [showBinding, List.cons_ne_nil, if_false]
      exact ⟨c, _, by simp only [List.cons_append]; rfl, hc⟩

/-! ## Rules -/

theorem nbc_newlines (s : Str) : nbc (s.map fun d => if d = '\n' then ' ' else d) = nbc s := by
  induction s with
  | nil => rfl
  | cons c s ih =>
    rw [List.map_cons, nbc_cons, ih, nbc_cons c]
    split
    · rename_i h; subst h; rfl
    · rfl

theorem trimmed_nbc {raw t : Str} (h : Trimmed (raw.map fun d => if d = '\n' then ' ' else d) t) : nbc t ≤ nbc raw := by
  obtain ⟨pre, post, e, -⟩ := h
  rw [← nbc_newlines raw, e]
  simp only [nbc_append]; omega

theorem gText_mem {k : GTok} : ∀ {ps : List Piece}, .tok k ∈ ps → ∃ a b, gText ps = a ++ tokText k ++ b
  | [], h => by simp at h
  | p :: ps, h => by
    rcases List.mem_cons.1 h with rfl | h
    · exact ⟨[], gText ps, by simp⟩
    · obtain ⟨a, b, e⟩ := gText_mem h
      have : gText (p :: ps) = pieceText p ++ gText ps := rfl
      exact ⟨pieceText p ++ a, b, by rw [this, e]; simp⟩

theorem lits_of_show {e : GoExpr} {raw z : Str} (hw : GoWF u e) (hz : raw = showGo e ++ z) (ha : NoArrow raw.tail) : LitsNoArrow e := by
  intro k v hk
  have hok := (printed u e hw).ok _ hk
  obtain ⟨c, s, e3, hc⟩ := gword_head hok rfl
  have e3 : v = c :: s := e3
  subst e3
  obtain ⟨pre, post, e1⟩ := gText_mem hk
  have e1 : gText (pieces e) = pre ++ (c :: s) ++ post := e1
  rintro ⟨a, b, e4⟩
  cases a with
  | nil =>
    simp only [List.nil_append, List.cons.injEq] at e4
    exact wordChar_ne hc (d := '=') (by decide) (by decide) (by decide) (by decide) e4.1
  | cons d a =>
    simp only [List.cons_append, List.cons.injEq] at e4
    apply ha
    rw [hz, show_eq, e1, e4.2]
    cases pre with
    | nil => exact ⟨a, b ++ (post ++ z), by simp⟩
    | cons p pre => exact ⟨pre ++ c :: a, b ++ (post ++ z), by simp⟩

theorem cond_nbc (hgo : ∀ t e, go t e → goSyntax u t = some e) {t o} (h : CondText go t o) : nbc (showCond o) ≤ nbc t := by
  cases h with
  | none => simp [showCond]
  | @some s0 s1 raw c t e _ _ _ _ _ _ _ htr hg =>
    have h1 := goSyntax_nbc (hgo _ _ hg)
    have h2 := trimmed_nbc htr
    simp only [showCond, List.cons_append, nbc_append, nbc_cons_blank _ (show isBlank ' ' = true from by decide),
      nbc_cons_one _ (show isBlank '&' = false from by decide)]
    omega

theorem block_nbc {t b} (h : BlockText t b) : nbc (showBlock b) ≤ nbc t := by
  cases h with
  | none => simp [showBlock]
  | some _ hb _ _ _ =>
    unfold showBlock
    rw [if_neg hb]
    simp only [List.cons_append, nbc_append, nbc_cons_one _ (show isBlank '@' = false from by decide), nbc_blank (show isBlank ' ' = true from by decide)]
    omega

theorem nbc_showRule (r : Rule) : nbc (showRule r) = nbc (showValue r.match) + nbc (showCond r.condition) + 2 + nbc (showBlock r.block) + nbc (showValue r.result) := by
  unfold showRule
  simp only [List.cons_append, nbc_append, nbc_cons_one _ (show isBlank '=' = false from by decide), nbc_cons_one _ (show isBlank '>' = false from by decide),
    nbc_cons_blank _ (show isBlank ' ' = true from by decide)]
  omega

theorem ruleText_nbc (hgo : ∀ t e, go t e → goSyntax u t = some e) {t r} (h : RuleText go t r) : nbc (showRule r) ≤ nbc t := by
  cases h with
  | mk hm hc hb hr =>
    have h1 := valueText_nbc hgo hm
    have h2 := cond_nbc hgo hc
    have h3 := block_nbc hb
    have h4 := valueText_nbc hgo hr
    rw [nbc_showRule]
    simp only [List.cons_append, nbc_append, nbc_cons_one _ (show isBlank '=' = false from by decide), nbc_cons_one _ (show isBlank '>' = false from by decide)]
    omega

theorem ruleText_solid {t r} (h : RuleText go t r) : Solid t := by
  cases h with
  | mk hm hc hb hr =>
    obtain ⟨⟨c, t, rfl, h1⟩, -⟩ := valueText_solid hm
    obtain ⟨-, t, c', rfl, h2⟩ := valueText_solid hr
    exact ⟨⟨c, _, by simp only [List.cons_append]; rfl, h1⟩, _, c', by rw [← List.append_assoc], h2⟩

theorem solid_showRule (hgo : ∀ t e, go t e → goSyntax u t = some e) {t r} (h : RuleText go t r) : Solid (showRule r) := by
  cases h with
  | @mk mt m ct c bt b rt r hm hc hb hr =>
    obtain ⟨⟨c, t, e1, h1⟩, -⟩ := solid_showValue hgo hm
    obtain ⟨-, t', c', e2, h2⟩ := solid_showValue hgo hr
    unfold showRule
    simp only [e1, e2]
    exact ⟨⟨c, _, by simp only [List.cons_append]; rfl, h1⟩, _, c', by rw [← List.append_assoc], h2⟩

theorem fileText_nbc (hgo : ∀ t e, go t e → goSyntax u t = some e) {t rs} (h : FileText go t rs) : nbc (rs.flatMap fun r => showRule r ++ ['\n']) ≤ nbc t := by
  induction h with
  | nil => simp
  | cons _ hr _ _ _ ih =>
    have := ruleText_nbc hgo hr
    rw [List.flatMap_cons]
    simp only [nbc_append, nbc_blank (show isBlank '\n' = true from by decide)] at ih ⊢
    omega

/-- A rule that is read back from its printed form has no arrow in its condition. -/
theorem ruleText_own (hgo : ∀ t e, go t e → goSyntax u t = some e) {r} (h : RuleText go (showRule r) r) : Opt LitsNoArrow r.condition := by
  generalize ht : showRule r = t at h
  have hle : nbc t = nbc (showRule r) := by rw [ht]
  cases h with
  | @mk mt m ct c bt b rt r hm hc hb hr =>
    cases hc with
    | none => trivial
    | @some s0 s1 raw c t e hs0 hs1 hne ha hc hhd _ htr hg =>
      have h1 := valueText_nbc hgo hm
      have h3 := block_nbc hb
      have h4 := valueText_nbc hgo hr
      have h5 := goSyntax_nbc (hgo _ _ hg)
      have h6 := trimmed_nbc htr
      have hw := (goSyntax_sound (hgo _ _ hg)).1
      rw [nbc_showRule] at hle
      simp only [showCond, List.cons_append, nbc_append, nbc_cons_one _ (show isBlank '=' = false from by decide), nbc_cons_one _ (show isBlank '>' = false from by decide),
        nbc_cons_blank _ (show isBlank ' ' = true from by decide), nbc_cons_one _ (show isBlank '&' = false from by decide), nbc_blank hc] at hle
      have e0 : showValue m ++ (' ' :: '&' :: '&' :: ' ' :: (showGo e ++ ' ' :: '=' :: '>' :: ' ' :: (showBlock b ++ showValue r))) =
          mt ++ (s0 ++ '&' :: '&' :: (s1 ++ (raw ++ (c :: '=' :: '>' :: (bt ++ rt))))) := by
        have := ht
        simp only [showRule, showCond, List.append_assoc, List.cons_append, List.nil_append] at this
        simpa using this
      have e1 := eq_of_nbc e0 (solid_showValue hgo hm) (valueText_solid hm) (by omega)
      rw [e1] at e0
      have e2 := List.append_cancel_left e0
      obtain ⟨-, e3⟩ := blanks_eq (a := [' ']) (x := '&' :: '&' :: ' ' :: _) e2 (by decide) (by omega)
        (by intro c t h; simp only [List.cons.injEq] at h; rw [← h.1]; decide) (by intro c t h; simp only [List.cons.injEq] at h; rw [← h.1]; decide) (by simp)
      simp only [List.cons.injEq, true_and] at e3
      obtain ⟨⟨d, s, eg, hd⟩, sl, dl, egl, hdl⟩ := solid_showGo hw
      obtain ⟨r0, rs, rfl⟩ : ∃ r0 rs, raw = r0 :: rs := by cases raw with | nil => exact absurd rfl hne | cons a b => exact ⟨a, b, rfl⟩
      obtain ⟨-, e4⟩ := blanks_eq (a := [' ']) (x := showGo e ++ _) e3 (by decide) (by omega)
        (by intro c t h; rw [eg] at h; simp only [List.cons_append, List.cons.injEq] at h; rw [← h.1]; exact hd)
        (by intro c t h; simp only [List.cons_append, List.cons.injEq] at h; rw [← h.1]; exact hhd _ rfl) (by simp [eg])
      obtain ⟨z, ez⟩ := prefix_of_nbc e4 (by
        intro t c h
        rw [egl] at h
        have := List.append_inj' h rfl
        simp at this; rw [← this.2]; exact hdl) (by omega)
      exact lits_of_show hw ez ha

/-- Each rule of a file that is read back from its printed form is read from its own part of the text. -/
theorem fileText_own (hgo : ∀ t e, go t e → goSyntax u t = some e) {t rs} (h : FileText go t rs) : ∀ w, nbc w = 0 →
    t = w ++ (rs.flatMap fun r => showRule r ++ ['\n']) → ∀ r ∈ rs, RuleText go (showRule r) r := by
  induction h with
  | nil => simp
  | @cons s0 t r s1 rest rs hs0 hr hs1 _ hf ih =>
    intro w hw e
    have h1 := ruleText_nbc hgo hr
    have h2 := fileText_nbc hgo hf
    have hn := congrArg nbc e
    rw [List.flatMap_cons] at e hn
    simp only [nbc_append, nbc_blank (show isBlank '\n' = true from by decide)] at hn
    obtain ⟨⟨c, x, ec, hc⟩, -⟩ := ruleText_solid hr
    obtain ⟨⟨c', x', ec', hc'⟩, -⟩ := solid_showRule hgo hr
    have e0 : s0 ++ (t ++ (s1 ++ rest)) = w ++ (showRule r ++ ('\n' :: rs.flatMap fun r => showRule r ++ ['\n'])) := by
      rw [← List.append_assoc, ← List.append_assoc, e]; simp
    obtain ⟨-, e1⟩ := blanks_eq e0 (by omega) hw
      (by intro d y h; rw [ec] at h; simp only [List.cons_append, List.cons.injEq] at h; rw [← h.1]; exact hc)
      (by intro d y h; rw [ec'] at h; simp only [List.cons_append, List.cons.injEq] at h; rw [← h.1]; exact hc') (by simp [ec, ec'])
    have e2 := eq_of_nbc e1 (ruleText_solid hr) (solid_showRule hgo hr) (by omega)
    rw [e2] at e1 hr
    have e3 := List.append_cancel_left e1
    intro r' hr'
    rcases List.mem_cons.1 hr' with rfl | hr'
    · exact hr
    · cases s1 with
      | nil => exact ih ['\n'] (by decide) (by simpa using e3) r' hr'
      | cons d s1 =>
        simp only [List.cons_append, List.cons.injEq] at e3
        have hz : nbc s1 = 0 := by
          have : nbc (d :: s1) = 0 := by omega
          rw [nbc_cons] at this; omega
        cases s1 with
        | nil => exact ih [] rfl (by simpa using e3.2) r' hr'
        | cons d' s1 =>
          exfalso
          have hb := nbc_zero hz d' (by simp)
          cases hf with
          | nil => simp at hr'
          | cons _ hr2 _ _ _ =>
            obtain ⟨⟨c2, x2, ec2, hc2⟩, -⟩ := solid_showRule hgo hr2
            have e4 := e3.2
            rw [List.flatMap_cons, ec2] at e4
            simp only [List.cons_append, List.cons.injEq] at e4
            rw [e4.1, hc2] at hb
            simp at hb

/-! ## Values whose Go expressions may fuse -/

mutual
theorem argShape_toks : ∀ e, ArgShape e → ∀ k, .tok k ∈ pieces e → (∃ s, k = .ident s) ∨ k = .lparen ∨ k = .rparen ∨ k = .comma
  | .ident p s, _, k, h => by
    simp only [pieces, List.mem_singleton, Piece.tok.injEq] at h
    exact .inl ⟨s, h⟩
  | .call (.ident p f) q args r t, h, k, hk => by
    simp only [pieces, List.mem_append, List.mem_cons, List.not_mem_nil, or_false, Piece.tok.injEq] at hk
    rcases hk with (h1 | h1 | h1) | h1
    · exact .inl ⟨f, h1⟩
    · exact .inr (.inl h1)
    · exact argShapes_toks args h.2.2 k h1
    · exact .inr (.inr (.inl h1))
  | .basicLit .., h, _, _ => h.elim
  | .paren .., h, _, _ => h.elim
  | .unary .., h, _, _ => h.elim
  | .binary .., h, _, _ => h.elim
  | .star .., h, _, _ => h.elim
  | .selector .., h, _, _ => h.elim
  | .other _, h, _, _ => h.elim
  | .nil, h, _, _ => h.elim
  | .call .nil .., h, _, _ => h.elim
  | .call (.basicLit ..) .., h, _, _ => h.elim
  | .call (.paren ..) .., h, _, _ => h.elim
  | .call (.unary ..) .., h, _, _ => h.elim
  | .call (.binary ..) .., h, _, _ => h.elim
  | .call (.call ..) .., h, _, _ => h.elim
  | .call (.star ..) .., h, _, _ => h.elim
  | .call (.selector ..) .., h, _, _ => h.elim
  | .call (.other _) .., h, _, _ => h.elim
theorem argShapes_toks : ∀ es, ArgShapes es → ∀ k, .tok k ∈ argPieces es → (∃ s, k = .ident s) ∨ k = .lparen ∨ k = .rparen ∨ k = .comma
  | [], _, k, h => by simp [argPieces] at h
  | e :: es, h, k, hk => by
    simp only [argPieces, List.mem_append] at hk
    rcases hk with hk | hk
    · exact argShape_toks e h.1 k hk
    · exact argTail_toks es h.2 k hk
theorem argTail_toks : ∀ es, ArgShapes es → ∀ k, .tok k ∈ argPiecesTail es → (∃ s, k = .ident s) ∨ k = .lparen ∨ k = .rparen ∨ k = .comma
  | [], _, k, h => by simp [argPiecesTail] at h
  | e :: es, h, k, hk => by
    simp only [argPiecesTail, List.cons_append, List.mem_cons, List.mem_append, Piece.tok.injEq, reduceCtorEq, false_or] at hk
    rcases hk with hk | hk | hk
    · exact .inr (.inr (.inr hk))
    · exact argShape_toks e h.1 k hk
    · exact argTail_toks es h.2 k hk
end

theorem callShape_noFuse {e} (h : CallShape e) : NoFuse (pieces e) := by
  intro pre a b post e1 hf
  have := argShape_toks e h.1 a (by rw [e1]; simp)
  rcases this with ⟨s, rfl⟩ | rfl | rfl | rfl <;> exact hf

mutual
/-- As `ValueStable`, without the condition that no tokens fuse. -/
def ValueRead (u : GoVersion) : Value → Prop
  | .var s => Ident s ∨ s = ['_']
  | .expr e => CallShape e ∧ GoStable u e
  | .sexpr h args =>
    (h.binding = [] ∨ Ident h.binding) ∧ OpWF h.op ∧ '>' ∉ h.type ∧ Opt (fun e => GoWF u e ∧ ']' ∉ showGo e) h.auxInt ∧
      Opt (fun e => GoWF u e ∧ '}' ∉ showGo e) h.aux ∧ ValuesRead u args
  | .nil => False
def ValuesRead (u : GoVersion) : List Value → Prop
  | [] => True
  | v :: vs => ValueRead u v ∧ ValuesRead u vs
end

def OperandRead (u : GoVersion) : Operand → Prop
  | .type t => '>' ∉ t
  | .auxInt e => GoWF u e ∧ ']' ∉ showGo e
  | .aux e => GoWF u e ∧ '}' ∉ showGo e
  | .arg v => ValueRead u v

theorem argsOf_read {ops : List Operand} (h : ∀ o ∈ ops, OperandRead u o) : ValuesRead u (argsOf ops) := by
  induction ops with
  | nil => trivial
  | cons o ops ih =>
    have h1 := h o (by simp)
    have h2 := ih (fun o ho => h o (by simp [ho]))
    cases o with
    | arg v => exact ⟨h1, h2⟩
    | _ => exact h2

theorem lastType_read {ops : List Operand} (h : ∀ o ∈ ops, OperandRead u o) : '>' ∉ lastType ops := by
  unfold lastType
  cases hl : (typesOf ops).getLast? with
  | none => simp
  | some t =>
    have := List.mem_of_getLast? hl
    simp only [typesOf, List.mem_filterMap] at this
    obtain ⟨o, ho, hot⟩ := this
    cases o with
    | type t' => simp at hot; subst hot; exact h _ ho
    | _ => simp at hot

theorem lastAuxInt_read {ops : List Operand} (h : ∀ o ∈ ops, OperandRead u o) : Opt (fun e => GoWF u e ∧ ']' ∉ showGo e) (lastAuxInt ops) := by
  cases hl : lastAuxInt ops with
  | none => trivial
  | some t =>
    unfold lastAuxInt at hl
    have := List.mem_of_getLast? hl
    simp only [List.mem_filterMap] at this
    obtain ⟨o, ho, hot⟩ := this
    cases o with
    | auxInt t' => simp at hot; subst hot; exact h _ ho
    | _ => simp at hot

theorem lastAux_read {ops : List Operand} (h : ∀ o ∈ ops, OperandRead u o) : Opt (fun e => GoWF u e ∧ '}' ∉ showGo e) (lastAux ops) := by
  cases hl : lastAux ops with
  | none => trivial
  | some t =>
    unfold lastAux at hl
    have := List.mem_of_getLast? hl
    simp only [List.mem_filterMap] at this
    obtain ⟨o, ho, hot⟩ := this
    cases o with
    | aux t' => simp at hot; subst hot; exact h _ ho
    | _ => simp at hot

theorem valueText_read (hgo : ∀ t e, go t e → goSyntax u t = some e) {t v} (h : ValueText go t v) : ValueRead u v := by
  refine ValueText.rec (go := go) (motive_1 := fun _ v _ => ValueRead u v)
    (motive_2 := fun _ ops _ => ∀ o ∈ ops, OperandRead u o) (motive_3 := fun _ o _ => OperandRead u o) ?_ ?_ ?_ ?_ ?_ ?_ ?_ ?_ h
  · intro t v h
    have h' := h
    cases h with
    | var h => exact .inl h
    | placeholder => exact .inr rfl
    | call _ _ _ _ _ hg =>
      have hc := callShape_of_text hgo h'
      exact ⟨hc, (goSyntax_sound (hgo _ _ hg)).1, callShape_noFuse hc⟩
  · intro bt b s0 op ot ops et ell tt tr s1 hb _ ho _ _ _ _ this
    refine ⟨?_, ho, lastType_read this, lastAuxInt_read this, lastAux_read this, argsOf_read this⟩
    cases hb with
    | none => exact .inl rfl
    | some h => exact .inr h
  · simp
  · intro s t o rest os _ _ _ h1 h2 o' h
    rcases List.mem_cons.1 h with rfl | h
    · exact h1
    · exact h2 o' h
  · intro t _ h; exact h
  · intro t e _ hb h; exact ⟨(goSyntax_sound (hgo _ _ h)).1, show_chars (hgo _ _ h) (by simp) hb⟩
  · intro t e _ hb h; exact ⟨(goSyntax_sound (hgo _ _ h)).1, show_chars (hgo _ _ h) (by simp) hb⟩
  · intro t v _ h; exact h

/-- As `RuleStable`, without the condition that no tokens fuse. -/
def RuleRead (u : GoVersion) (r : Rule) : Prop :=
  ValueRead u r.match ∧ Opt (fun e => GoWF u e ∧ NoArrow (showGo e) ∧ '\n' ∉ showGo e) r.condition ∧
    (∀ c ∈ r.block, c ≠ ' ' ∧ c ≠ '\t' ∧ c ≠ '\r') ∧ ValueRead u r.result

theorem ruleText_read (hgo : ∀ t e, go t e → goSyntax u t = some e) {t r} (h : RuleText go t r) (hl : Opt LitsNoArrow r.condition) : RuleRead u r := by
  cases h with
  | mk hm hc hb hr =>
    refine ⟨valueText_read hgo hm, ?_, ?_, valueText_read hgo hr⟩
    · cases hc with
      | none => trivial
      | some _ _ _ ha _ _ _ htr hg =>
        have hw := (goSyntax_sound (hgo _ _ hg)).1
        exact ⟨hw, show_noArrow hw hl, show_chars (hgo _ _ hg) (by simp) (trimmed_chars htr ha).1⟩
    · cases hb with
      | none => simp
      | some _ _ h _ _ => exact h

/-! ## Other expressions in the same places -/

mutual
/-- The value with other Go expressions. -/
def mapV (φ : GoExpr → GoExpr) : Value → Value
  | .sexpr h args => .sexpr { h with auxInt := h.auxInt.map φ, aux := h.aux.map φ } (mapVs φ args)
  | .expr e => .expr (φ e)
  | .var s => .var s
  | .nil => .nil
def mapVs (φ : GoExpr → GoExpr) : List Value → List Value
  | [] => []
  | v :: vs => mapV φ v :: mapVs φ vs
end

def mapR (φ : GoExpr → GoExpr) (r : Rule) : Rule :=
  { r with «match» := mapV φ r.match, condition := r.condition.map φ, result := mapV φ r.result }

mutual
theorem mapV_id : ∀ v, mapV id v = v
  | .sexpr h args => by simp [mapV, mapVs_id args]
  | .expr e => by simp [mapV]
  | .var s => by simp [mapV]
  | .nil => by simp [mapV]
theorem mapVs_id : ∀ vs, mapVs id vs = vs
  | [] => by simp [mapVs]
  | v :: vs => by simp [mapVs, mapV_id v, mapVs_id vs]
end
theorem mapR_id (r : Rule) : mapR id r = r := by simp [mapR, mapV_id]

theorem opt_map_inj {φ ψ : GoExpr → GoExpr} {o : Option GoExpr} (h : o.map φ = o.map ψ) : ∀ e ∈ o.toList, φ e = ψ e := by
  cases o with
  | none => simp
  | some x => simpa using h

mutual
theorem mapV_inj {φ ψ : GoExpr → GoExpr} : ∀ v, mapV φ v = mapV ψ v → ∀ e ∈ exprsOf v, φ e = ψ e
  | .sexpr h args, hm, e, he => by
    simp only [mapV, Value.sexpr.injEq, Hdr.mk.injEq] at hm
    simp only [exprsOf, List.mem_append] at he
    rcases he with (he | he) | he
    · exact opt_map_inj (by simp_all) e he
    · exact opt_map_inj (by simp_all) e he
    · exact mapVs_inj args hm.2 e he
  | .expr x, hm, e, he => by
    simp only [mapV, Value.expr.injEq] at hm
    simp only [exprsOf, List.mem_singleton] at he
    subst he; exact hm
  | .var s, _, e, he => by simp [exprsOf] at he
  | .nil, _, e, he => by simp [exprsOf] at he
theorem mapVs_inj {φ ψ : GoExpr → GoExpr} : ∀ vs, mapVs φ vs = mapVs ψ vs → ∀ e ∈ exprsOfs vs, φ e = ψ e
  | [], _, e, he => by simp [exprsOfs] at he
  | v :: vs, hm, e, he => by
    simp only [mapVs, List.cons.injEq] at hm
    simp only [exprsOfs, List.mem_append] at he
    rcases he with he | he
    · exact mapV_inj v hm.1 e he
    · exact mapVs_inj vs hm.2 e he
end

theorem mapR_inj {φ ψ : GoExpr → GoExpr} {r : Rule} (h : mapR φ r = mapR ψ r) : ∀ e ∈ ruleExprs r, φ e = ψ e := by
  simp only [mapR, Rule.mk.injEq] at h
  intro e he
  simp only [ruleExprs, List.mem_append] at he
  rcases he with (he | he) | he
  · exact mapV_inj _ h.1 e he
  · exact opt_map_inj h.2.1 e he
  · exact mapV_inj _ h.2.2.2 e he

section
variable {φ : GoExpr → GoExpr}

def valueOfφ (φ : GoExpr → GoExpr) : GoExpr → Value
  | .ident _ s => .var s
  | e => .expr (φ e)

mutual
theorem arg_textφ (hgo : ∀ e, GoStable u e → go (showGo e) (φ e)) : ∀ e, ArgShape e → GoStable u e → ExprText go (showGo e) (valueOfφ φ e)
  | .ident p s, h, _ => by
    rcases h with h | rfl
    · exact .var h
    · exact .placeholder
  | .call (.ident p f) q args r t, h, hs => by
    obtain ⟨hf, hne, ha⟩ := h
    have hg := hgo _ hs
    match args, hne, ha with
    | a :: as, _, ha =>
      have h1 := arg_textφ hgo a ha.1 (stable_arg hs (by simp))
      have h2 := args_textφ hgo as ha.2 (fun e he => stable_arg hs (by simp [he]))
      have e : showGo (.call (.ident p f) q (a :: as) r t) = f ++ '(' :: [] ++ showGo a ++ [] ++ showGoArgsTail as ++ [')'] := by
        simp [showGo, showGoArgs]
      rw [e] at hg ⊢
      exact .call hf skip_nil' h1 skip_nil' h2 hg
  | .basicLit .., h, _ => h.elim
  | .paren .., h, _ => h.elim
  | .unary .., h, _ => h.elim
  | .binary .., h, _ => h.elim
  | .star .., h, _ => h.elim
  | .selector .., h, _ => h.elim
  | .other _, h, _ => h.elim
  | .nil, h, _ => h.elim
  | .call .nil .., h, _ => h.elim
  | .call (.basicLit ..) .., h, _ => h.elim
  | .call (.paren ..) .., h, _ => h.elim
  | .call (.unary ..) .., h, _ => h.elim
  | .call (.binary ..) .., h, _ => h.elim
  | .call (.call ..) .., h, _ => h.elim
  | .call (.star ..) .., h, _ => h.elim
  | .call (.selector ..) .., h, _ => h.elim
  | .call (.other _) .., h, _ => h.elim
theorem args_textφ (hgo : ∀ e, GoStable u e → go (showGo e) (φ e)) : ∀ es, ArgShapes es → (∀ e ∈ es, GoStable u e) → MoreArgs go (showGoArgsTail es)
  | [], _, _ => .nil
  | e :: es, h, hs => by
    have h1 := arg_textφ hgo e h.1 (hs e (by simp))
    have h2 := args_textφ hgo es h.2 (fun e he => hs e (by simp [he]))
    have := MoreArgs.cons skip_blank h1 skip_nil' h2
    simpa [showGoArgsTail] using this
end

theorem call_textφ (hgo : ∀ e, GoStable u e → go (showGo e) (φ e)) {e} (h : CallShape e) (hs : GoStable u e) : ExprText go (showGo e) (.expr (φ e)) := by
  obtain ⟨h1, fn, p, args, q, r, rfl⟩ := h
  exact arg_textφ hgo _ h1 hs

mutual
theorem value_textφ (hgo : ∀ e, GoStable u e → go (showGo e) (φ e)) : ∀ v, ValueRead u v → (∀ e ∈ exprsOf v, go (showGo e) (φ e)) →
    ValueText go (showValue v) (mapV φ v)
  | .var s, h, _ => by
    rcases h with h | rfl
    · exact .expr (.var h)
    · exact .expr .placeholder
  | .expr e, h, _ => .expr (call_textφ hgo h.1 h.2)
  | .nil, h, _ => h.elim
  | .sexpr h args, hs, hE => by
    obtain ⟨hb, ho, ht, hai, ha, hargs⟩ := hs
    simp only [exprsOf, List.mem_append] at hE
    have hai' : OperandsText go (showAuxInt h.auxInt) (auxIntOps (h.auxInt.map φ)) := by
      cases hx : h.auxInt with
      | none => exact .nil
      | some e =>
        rw [hx] at hai
        exact operands_one (.auxInt (showGo_ne hai.1) hai.2 (hE e (.inl (.inl (by simp [hx])))))
    have ha' : OperandsText go (showAux h.aux) (auxOps (h.aux.map φ)) := by
      cases hx : h.aux with
      | none => exact .nil
      | some e =>
        rw [hx] at ha
        exact operands_one (.aux (showGo_ne ha.1) ha.2 (hE e (.inl (.inr (by simp [hx])))))
    have h1 := operands_append (operands_append (operands_append (type_text ht) hai') ha')
      (values_textφ hgo args hargs fun e he => hE e (.inr he))
    have := ValueText.sexpr (binding_text hb) skip_nil' ho h1 (mark_text ['.', '.', '.'] h.ellipsis) (mark_text ['_', '_', '_'] h.trailing) skip_nil'
    rw [lastType_ops, lastAuxInt_ops, lastAux_ops, argsOf_ops] at this
    have e : showValue (.sexpr h args) = showBinding h.binding ++ '(' :: [] ++ showOp h.op ++
        (showType h.type ++ showAuxInt h.auxInt ++ showAux h.aux ++ showArgs args) ++
        (if h.ellipsis = true then [' ', '.', '.', '.'] else []) ++ (if h.trailing = true then [' ', '_', '_', '_'] else []) ++ [] ++ [')'] := by
      rw [showValue, dots_eq, trail_eq]
      simp [List.append_assoc]
    rw [e]
    exact this
theorem values_textφ (hgo : ∀ e, GoStable u e → go (showGo e) (φ e)) : ∀ vs, ValuesRead u vs → (∀ e ∈ exprsOfs vs, go (showGo e) (φ e)) →
    OperandsText go (showArgs vs) ((mapVs φ vs).map .arg)
  | [], _, _ => .nil
  | v :: vs, h, hE => by
    simp only [exprsOfs, List.mem_append] at hE
    have := operands_append (operands_one (.arg (value_textφ hgo v h.1 fun e he => hE e (.inl he)))) (values_textφ hgo vs h.2 fun e he => hE e (.inr he))
    simpa [showArgs, mapVs] using this
end

theorem rule_textφ (hgo : ∀ e, GoStable u e → go (showGo e) (φ e)) {r} (h : RuleRead u r) (hE : ∀ e ∈ ruleExprs r, go (showGo e) (φ e)) :
    RuleText go (showRule r) (mapR φ r) := by
  obtain ⟨hm, hc, hb, hr⟩ := h
  simp only [ruleExprs, List.mem_append] at hE
  have hc' : CondText go (showCond r.condition ++ [' ']) (r.condition.map φ) := by
    cases hx : r.condition with
    | none => exact .none skip_blank
    | some e =>
      rw [hx] at hc
      obtain ⟨hs, ha, hn⟩ := hc
      obtain ⟨⟨c, s, hcs, hsp, hsl, hbl⟩, c', hl, hsp'⟩ := show_ends hs
      have := CondText.some (go := go) (t := showGo e) (e := φ e) (s0 := [' ']) (s1 := [' ']) (raw := showGo e) (c := ' ') skip1_blank skip1_blank
        (showGo_ne hs) (noArrow_tail ha) (by decide)
        (by intro d hd; rw [hcs] at hd; simp at hd; subst hd; exact hbl)
        (by intro x hx; rw [hcs] at hx; simp at hx; exact absurd hx.1 hsl)
        ⟨[], [], by rw [map_newline hn]; simp, by simp, (by intro d hd; rw [hcs] at hd; simp at hd; subst hd; exact hsp),
          (by intro d hd; rw [hl] at hd; simp at hd; subst hd; exact hsp')⟩ (hE e (.inl (.inr (by simp [hx]))))
      simpa [showCond] using this
  have := RuleText.mk (value_textφ hgo _ hm fun e he => hE e (.inl (.inl he))) hc' (block_text hb) (value_textφ hgo _ hr fun e he => hE e (.inr he))
  simpa [showRule, mapR] using this

theorem file_textφ (hgo : ∀ e, GoStable u e → go (showGo e) (φ e)) : ∀ {rs : List Rule}, (∀ r ∈ rs, RuleRead u r) →
    (∀ r ∈ rs, ∀ e ∈ ruleExprs r, go (showGo e) (φ e)) → FileText go (rs.flatMap fun r => showRule r ++ ['\n']) (rs.map (mapR φ))
  | [], _, _ => .nil
  | r :: rs, h, hE => by
    have h1 := rule_textφ hgo (h r (by simp)) (hE r (by simp))
    have h2 := file_textφ hgo (rs := rs) (fun r hr => h r (by simp [hr])) (fun r hr => hE r (by simp [hr]))
    have hf : Follow (mapR φ r).result (['\n'] ++ rs.flatMap fun r => showRule r ++ ['\n']) := by
      cases (mapR φ r).result with
      | var v =>
        simp only [Follow, List.cons_append, List.head?_cons]
        split
        · simp
        · refine ⟨by intro c hc; simp at hc; subst hc; decide, ?_⟩
          rintro ⟨s0, x, s1, rest, e, -⟩
          simp at e
      | _ => trivial
    have := FileText.cons skip_nil' h1 skip_newline hf h2
    simpa using this

end

/-! ## Which texts are submitted -/

theorem opt_mem {P : GoExpr → Prop} {o : Option GoExpr} (h : Opt P o) {e} (he : e ∈ o.toList) : P e := by
  cases o with
  | none => simp at he
  | some x => simp at he; subst he; exact h

mutual
theorem valueRead_wf : ∀ v, ValueRead u v → ∀ e ∈ exprsOf v, GoWF u e
  | .sexpr h args, hv, e, he => by
    obtain ⟨-, -, -, h1, h2, h3⟩ := hv
    simp only [exprsOf, List.mem_append] at he
    rcases he with (he | he) | he
    · exact (opt_mem h1 he).1
    · exact (opt_mem h2 he).1
    · exact valuesRead_wf args h3 e he
  | .expr x, hv, e, he => by
    simp only [exprsOf, List.mem_singleton] at he
    subst he; exact hv.2.1
  | .var s, _, e, he => by simp [exprsOf] at he
  | .nil, _, e, he => by simp [exprsOf] at he
theorem valuesRead_wf : ∀ vs, ValuesRead u vs → ∀ e ∈ exprsOfs vs, GoWF u e
  | [], _, e, he => by simp [exprsOfs] at he
  | v :: vs, h, e, he => by
    simp only [exprsOfs, List.mem_append] at he
    rcases he with he | he
    · exact valueRead_wf v h.1 e he
    · exact valuesRead_wf vs h.2 e he
end

theorem ruleRead_wf {r : Rule} (h : RuleRead u r) : ∀ e ∈ ruleExprs r, GoWF u e := by
  intro e he
  simp only [ruleExprs, List.mem_append] at he
  rcases he with (he | he) | he
  · exact valueRead_wf _ h.1 e he
  · exact (opt_mem h.2.1 he).1
  · exact valueRead_wf _ h.2.2.2 e he

/-- The library, with other answers for some texts. -/
noncomputable def withAnswers (lib : GoLib) (T : List Str) (A : Str → GoExpr) : GoLib where
  parseExpr t := if t ∈ T then some (A t) else lib.parseExpr t

def nameX : GoExpr := .ident 0 ['x']
def nameY : GoExpr := .ident 0 ['y']

theorem goText_in {lib T} {A : Str → GoExpr} {t} (h : t ∈ T) (hA : A t = nameX ∨ A t = nameY) : GoText (withAnswers lib T A) t (A t) := by
  refine ⟨A t, if_pos h, ?_⟩
  rcases hA with e | e <;> rw [e] <;> exact ⟨rfl, rfl⟩

theorem goText_out {lib T} {A : Str → GoExpr} {t e} (h : t ∉ T) : GoText (withAnswers lib T A) t e ↔ GoText lib t e := by
  have e1 : (withAnswers lib T A).parseExpr t = lib.parseExpr t := if_neg h
  unfold GoText; rw [e1]

theorem parse_answers {lib : GoLib} (hl : FollowsGo u lib) {rs : List Rule} (hr : ∀ r ∈ rs, RuleRead u r) (T : List Str)
    (hT : ∀ t, t ∈ T ↔ ∃ r ∈ rs, ∃ e ∈ ruleExprs r, showGo e = t)
    (A : Str → GoExpr) (hA : ∀ t, A t = nameX ∨ A t = nameY) :
    parseBytes (withAnswers lib T A) (utf8 (rs.flatMap fun r => showRule r ++ ['\n'])) =
      .ok ⟨rs.map (mapR fun e => if showGo e ∈ T then A (showGo e) else e)⟩ := by
  have hf : FileText (GoText (withAnswers lib T A)) (rs.flatMap fun r => showRule r ++ ['\n'])
      (rs.map (mapR fun e => if showGo e ∈ T then A (showGo e) else e)) := by
    refine file_textφ (u := u) ?_ hr ?_
    · intro e he
      by_cases h : showGo e ∈ T
      · simp only [if_pos h]; exact goText_in h (hA _)
      · simp only [if_neg h]; exact (goText_out h).2 (go_show hl e he)
    · intro r hrm e he
      have h : showGo e ∈ T := (hT _).2 ⟨r, hrm, e, he, rfl⟩
      simp only [if_pos h]; exact goText_in h (hA _)
  rw [← goText_eq] at hf
  refine parse_complete ?_ hf
  intro t hn
  by_cases h : ('/' :: '/' :: t) ∈ T
  · obtain ⟨r, hrm, e, he, e1⟩ := (hT _).1 h
    obtain ⟨⟨c, s, e2, -, hc, -⟩, -⟩ := show_ends (ruleRead_wf (hr r hrm) e he)
    rw [e2] at e1
    simp only [List.cons.injEq] at e1
    exact absurd e1.1 hc
  · rintro ⟨e, he⟩
    exact rejects_of_follows hl t hn ⟨e, (goText_out h).1 he⟩

theorem parse_complete' {lib : GoLib} (hl : RejectsComment lib) {cs rs} (h : FileText (GoText lib) cs rs) : parseBytes lib (utf8 cs) = .ok ⟨rs⟩ := by
  rw [← goText_eq] at h; exact parse_complete hl h

theorem map_eq_mem {φ ψ : GoExpr → GoExpr} {rs : List Rule} (h : rs.map (mapR φ) = rs.map (mapR ψ)) : ∀ r ∈ rs, mapR φ r = mapR ψ r := by
  intro r hr
  exact List.map_inj_left.1 h r hr

/-- Every Go expression of the rules is submitted in its printed form when the printed rules are parsed. -/
theorem submitted_show {lib : GoLib} (hl : FollowsGo u lib) {rs : List Rule} (hr : ∀ r ∈ rs, RuleRead u r) {r e} (hrm : r ∈ rs) (he : e ∈ ruleExprs r) :
    showGo e ∈ submitted (utf8 (rs.flatMap fun r => showRule r ++ ['\n'])) := by
  have hT : ∀ t, t ∈ rs.flatMap (fun r => (ruleExprs r).map showGo) ↔ ∃ r ∈ rs, ∃ e ∈ ruleExprs r, showGo e = t := by
    intro t; simp [List.mem_flatMap]
  generalize rs.flatMap (fun r => (ruleExprs r).map showGo) = T at hT
  have h0 : showGo e ∈ T := (hT _).2 ⟨r, hrm, e, he, rfl⟩
  refine Classical.byContradiction fun hn => ?_
  have h1 := parse_answers hl hr T hT (fun _ => nameX) (fun _ => .inl rfl)
  have h2 := parse_answers hl hr T hT (fun t => if t = showGo e then nameY else nameX) (by intro t; by_cases h : t = showGo e <;> simp [h])
  have h3 := parse_agree (lib' := withAnswers lib T (fun t => if t = showGo e then nameY else nameX)) (fun t ht => by
    show (if t ∈ T then _ else _) = (if t ∈ T then _ else _)
    have : t ≠ showGo e := by rintro rfl; exact hn ht
    simp only [if_neg this]) h1
  rw [h2] at h3
  simp only [Res.ok.injEq, File.mk.injEq] at h3
  have := mapR_inj (map_eq_mem h3 r hrm) e he
  simp [h0, nameX, nameY] at this

/-- If the printed form of a file is parsed as this file, no tokens fuse in it and no literal of a condition contains the arrow. -/
theorem reparse_only {lib : GoLib} (hl : FollowsGo u lib) {rs : List Rule}
    (h : parseBytes lib (utf8 (rs.flatMap fun r => showRule r ++ ['\n'])) = .ok ⟨rs⟩) :
    (∀ r ∈ rs, ∀ e ∈ ruleExprs r, NoFuse (pieces e)) ∧ ∀ r ∈ rs, Opt LitsNoArrow r.condition := by
  have hgo : ∀ t e, GoText lib t e → goSyntax u t = some e := fun t e => (hl t e).1
  obtain ⟨cs, hcs, ht⟩ := parse_bytes_sound h
  have hcs := utf8_inj hcs
  subst hcs
  rw [goText_eq] at ht
  have hown := fileText_own hgo ht [] rfl rfl
  have hlit : ∀ r ∈ rs, Opt LitsNoArrow r.condition := fun r hr => ruleText_own hgo (hown r hr)
  refine ⟨?_, hlit⟩
  have hread : ∀ r ∈ rs, RuleRead u r := fun r hr => ruleText_read hgo (hown r hr) (hlit r hr)
  have hsome : ∀ r ∈ rs, ∀ e ∈ ruleExprs r, GoText lib (showGo e) ((goSyntax u (showGo e)).getD e) := by
    intro r hr e he
    obtain ⟨e', h'⟩ := accepted_submitted h _ (submitted_show hl hread hr he)
    rw [hgo _ _ h']; exact h'
  have hf := file_textφ (φ := fun e => (goSyntax u (showGo e)).getD e) (u := u) (go := GoText lib)
    (by intro e he; have := go_show hl e he; simp only [hgo _ _ this]; exact this) hread hsome
  have h2 := parse_complete' (rejects_of_follows hl) hf
  rw [h] at h2
  simp only [Res.ok.injEq, File.mk.injEq] at h2
  intro r hr e he
  have h3 : rs.map (mapR fun e => (goSyntax u (showGo e)).getD e) = rs.map (mapR id) := by
    rw [← h2]; symm
    have : mapR id = id := by funext r; exact mapR_id r
    rw [this]; simp
  have h4 := mapR_inj (map_eq_mem h3 r hr) e he
  have h5 := hgo _ _ (hsome r hr e he)
  simp only [id] at h4
  rw [h4] at h5
  exact noFuse_of_show h5

end
end Verif.Proof

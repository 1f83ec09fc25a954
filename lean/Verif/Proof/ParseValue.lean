import Verif.Proof.ParseExpr
/-!
# S-expressions: the grammar against `ValueText`
-/
namespace Verif.Proof
open Verif Verif.Spec

section
variable {lib : GoLib}

/-! ## Delimited operands -/

theorem delim_fwd {o c : Char} {a : Act} {t rest : Str} (h1 : t ≠ []) (h2 : c ∉ t) (fr) :
    exec (ruleGrammar lib) (.action a (.seq [.lit [o], .oneOrMore (.cls [c] [] true), .lit [c]])) ((o :: t ++ [c]) ++ rest) fr =
      actC (ruleGrammar lib) a ((o :: t ++ [c]) ++ rest) rest fr := by
  have htxt : (o :: t ++ [c]) ++ rest = o :: (t ++ c :: rest) := by simp
  have e0 : exec (ruleGrammar lib) (.lit [o]) (o :: (t ++ c :: rest)) fr = .ok (.bytes [o]) (t ++ c :: rest) fr := exec_lit_ok [o] _ _
  have ht := takeWhile_stop (p := fun d => d != c) (t := t) (rest := c :: rest)
    (by intro d hd; simp; rintro rfl; exact h2 hd) (by intro d hd; simp at hd; simp [← hd])
  have e1 := oneChar_one (inv_one (G := ruleGrammar lib) c) (t ++ c :: rest) fr
  rw [ht.1, ht.2, if_neg h1] at e1
  have e2 : exec (ruleGrammar lib) (.lit [c]) (c :: rest) fr = .ok (.bytes [c]) rest fr := exec_lit_ok [c] _ _
  have e : ∃ v, exec (ruleGrammar lib) (.seq [.lit [o], .oneOrMore (.cls [c] [] true), .lit [c]]) (o :: (t ++ c :: rest)) fr =
      .ok v rest fr := by
    rw [exec_seq, seq_step e0, seq_step e1, seq_step e2, execSeq_nil]
    exact ⟨_, rfl⟩
  obtain ⟨v, hv⟩ := e
  rw [htxt]
  exact action_eq hv

theorem delim_inv {o c : Char} {a : Act} {cs v cs' fr fr'}
    (h : exec (ruleGrammar lib) (.action a (.seq [.lit [o], .oneOrMore (.cls [c] [] true), .lit [c]])) cs fr = .ok v cs' fr') :
    ∃ t, cs = (o :: t ++ [c]) ++ cs' ∧ t ≠ [] ∧ c ∉ t ∧ (ruleGrammar lib).act a fr' (o :: t ++ [c]) = .ok v ∧ fr' = fr := by
  obtain ⟨v0, h0, hact⟩ := action_inv h
  rw [exec_seq] at h0
  obtain ⟨v1, cs1, fr1, g1, h1⟩ := seq_inv h0
  obtain ⟨rfl, rfl, rfl⟩ := exec_lit_inv g1
  obtain ⟨v2, cs2, fr2, g2, h2⟩ := seq_inv h1
  rw [oneChar_one (inv_one c)] at g2
  split at g2
  · simp at g2
  · rename_i hne
    simp only [COut.ok.injEq] at g2
    obtain ⟨rfl, rfl, rfl⟩ := g2
    obtain ⟨v3, cs3, fr3, g3, h3⟩ := seq_inv h2
    obtain ⟨g3', rfl, rfl⟩ := exec_lit_inv g3
    obtain ⟨rfl, rfl, rfl⟩ := seq_nil_inv h3
    have hcs : cs1 = cs1.takeWhile (fun d => d != c) ++ c :: cs' := by
      conv => lhs; rw [takeWhile_append_dropWhile' (fun d => d != c) cs1, g3']
      rfl
    have hall := takeWhile_all (fun d => d != c) cs1
    generalize cs1.takeWhile (fun d => d != c) = t at hcs hall hne
    have htxt : [o] ++ cs1 = (o :: t ++ [c]) ++ cs' := by rw [hcs]; simp
    rw [htxt, slice_append] at hact
    refine ⟨t, htxt, hne, ?_, hact, rfl⟩
    intro hc; have := hall c hc; simp at this

theorem delim_none {o c : Char} {a : Act} {cs : Str} (h : cs.head? ≠ some o) (fr) :
    exec (ruleGrammar lib) (.action a (.seq [.lit [o], .oneOrMore (.cls [c] [] true), .lit [c]])) cs fr = .fail := by
  apply action_fail; rw [exec_seq]; exact seq_fail (exec_lit_head h)

theorem inner_eq (o c : Char) (t : Str) : inner (o :: t ++ [c]) = t := by
  simp [inner]

/-! ## Operand values -/

def operandDyn : Operand → Dyn
  | .type t => .type t
  | .auxInt e => .auxint e
  | .aux e => .aux e
  | .arg v => valDyn v

/-- The values of `( __ Operand )*`. -/
inductive OperandDyns : List Dyn → List Operand → Prop where
  | nil : OperandDyns [] []
  | cons {s o ds os} : (∀ v, o = .arg v → v ≠ .nil) → OperandDyns ds os → OperandDyns (.list [s, operandDyn o] :: ds) (o :: os)

theorem getLast_cons {α} (x : α) (l : List α) (d : α) : ((x :: l).getLast?).getD d = (l.getLast?).getD x := by
  cases l with
  | nil => rfl
  | cons y l => rw [List.getLast?_cons_cons]; cases h : (y :: l).getLast? with
    | none => simp at h
    | some z => rfl

theorem or_getLast {α} (x : α) (l : List α) (d : Option α) : ((x :: l).getLast?).or d = (l.getLast?).or (some x) := by
  cases l with
  | nil => rfl
  | cons y l => rw [List.getLast?_cons_cons]; cases h : (y :: l).getLast? with
    | none => simp at h
    | some z => rfl

theorem sexprOperands_eq {ds ops} (hd : OperandDyns ds ops) (h : Hdr) (args : List Value) :
    sexprOperands ds h args = some (some (
      { h with type := ((typesOf ops).getLast?).getD h.type,
               auxInt := (lastAuxInt ops).or h.auxInt, aux := (lastAux ops).or h.aux }, args ++ argsOf ops)) := by
  induction hd generalizing h args with
  | nil => simp [sexprOperands, argsOf, lastAuxInt, lastAux, typesOf]
  | @cons s o ds os hv _ ih =>
    have hi : (Dyn.list [s, operandDyn o]).index 1 = some (operandDyn o) := rfl
    rw [sexprOperands, hi]
    cases o with
    | type t =>
      simp only [operandDyn, Option.bind_eq_bind, Option.bind_some]
      rw [ih]
      simp only [lastAuxInt, lastAux, argsOf, typesOf, List.filterMap_cons, getLast_cons]
    | auxInt e =>
      simp only [operandDyn, Option.bind_eq_bind, Option.bind_some]
      rw [ih]
      simp only [lastAuxInt, lastAux, argsOf, typesOf, List.filterMap_cons, or_getLast]
    | aux e =>
      simp only [operandDyn, Option.bind_eq_bind, Option.bind_some]
      rw [ih]
      simp only [lastAuxInt, lastAux, argsOf, typesOf, List.filterMap_cons, or_getLast]
    | arg v =>
      have hn := hv v rfl
      cases v with
      | nil => exact absurd rfl hn
      | _ =>
        simp only [operandDyn, valDyn, Dyn.asValue, Option.bind_eq_bind, Option.bind_some]
        rw [ih]
        simp only [lastAuxInt, lastAux, argsOf, typesOf, List.filterMap_cons, List.append_assoc, List.singleton_append]

/-- Values of the optional binding. -/
def bindDyn (b : Str) : Dyn := if b = [] then .nil else .list [.variable b, .bytes [':']]

/-- Values of an optional mark. -/
def markDyn (d : Dyn) : Bool → Prop
  | false => d = .nil
  | true => ∃ l, d = .list l

theorem onSExpr1_eq {b op ds ops e ell t tr} (ho : OpWF op) (hd : OperandDyns ds ops) (he : markDyn e ell) (ht : markDyn t tr) :
    onSExpr1 (bindDyn b) (opDyn op) (.list ds) e t = .ok (.sexpr
      { binding := b, op := op, type := lastType ops, auxInt := lastAuxInt ops, aux := lastAux ops, ellipsis := ell, trailing := tr }
      (argsOf ops)) := by
  have ho' : (opDyn op).asOp = some op := by
    cases op with
    | nil => exact absurd ho (by simp [OpWF])
    | opcode s => rfl
    | parts ps => rfl
  have hs := sexprOperands_eq hd { binding := b, op := op } []
  simp only [List.nil_append, Option.or_none] at hs
  have key : ∀ bd, (bd = .nil ∧ b = [] ∨ bd = .list [.variable b, .bytes [':']]) →
      onSExpr1 bd (opDyn op) (.list ds) e t = .ok (.sexpr
      { binding := b, op := op, type := lastType ops, auxInt := lastAuxInt ops, aux := lastAux ops, ellipsis := ell, trailing := tr }
      (argsOf ops)) := by
    intro bd hbd
    have fin : ∀ e t : Dyn, markDyn e ell → markDyn t tr → onSExpr1 bd (opDyn op) (.list ds) e t = .ok (.sexpr
      { binding := b, op := op, type := lastType ops, auxInt := lastAuxInt ops, aux := lastAux ops, ellipsis := ell, trailing := tr }
      (argsOf ops)) := by
      intro e t he ht
      unfold onSExpr1
      cases ell <;> cases tr <;> simp only [markDyn] at he ht
      · subst he; subst ht
        rcases hbd with ⟨rfl, rfl⟩ | rfl
        · simp [ho', Dyn.asList, hs, lastType]
        · simp [ho', Dyn.asList, Dyn.index, Dyn.asVariable, hs, lastType]
      · subst he; obtain ⟨l, rfl⟩ := ht
        rcases hbd with ⟨rfl, rfl⟩ | rfl
        · simp [ho', Dyn.asList, hs, lastType]
        · simp [ho', Dyn.asList, Dyn.index, Dyn.asVariable, hs, lastType]
      · subst ht; obtain ⟨l, rfl⟩ := he
        rcases hbd with ⟨rfl, rfl⟩ | rfl
        · simp [ho', Dyn.asList, hs, lastType]
        · simp [ho', Dyn.asList, Dyn.index, Dyn.asVariable, hs, lastType]
      · obtain ⟨l, rfl⟩ := he; obtain ⟨l', rfl⟩ := ht
        rcases hbd with ⟨rfl, rfl⟩ | rfl
        · simp [ho', Dyn.asList, hs, lastType]
        · simp [ho', Dyn.asList, Dyn.index, Dyn.asVariable, hs, lastType]
    exact fin e t he ht
  apply key
  unfold bindDyn
  by_cases hb : b = []
  · rw [if_pos hb]; exact Or.inl ⟨rfl, hb⟩
  · rw [if_neg hb]; exact Or.inr rfl

/-! ## Forward -/

/-- What may follow a value for the parser to stop there. -/
def Okay (lib : GoLib) : Value → Str → Prop
  | .var x, rest => if x = ['_'] then rest.head? ≠ some '_' else
      Stops isWordChar rest ∧ rest.head? ≠ some ':' ∧ exec (ruleGrammar lib) (.ruleRef .Call) (x ++ rest) Frame.empty = .fail
  | _, _ => True

theorem okay_cont {t v rest} (h : ValueText (goText lib) t v) (hr : Cont rest) : Okay lib v rest := by
  cases h with
  | sexpr => trivial
  | expr h =>
    cases h with
    | call => trivial
    | placeholder => rw [Okay, if_pos rfl]; exact fun hc => absurd (hr _ hc).1 (by decide)
    | var hx =>
      have hne : t ≠ ['_'] := by
        rintro rfl; obtain ⟨c, u, he, hc, -⟩ := hx; simp at he; rw [← he.1] at hc; exact absurd hc (by decide)
      rw [Okay, if_neg hne]
      have h1 : Stops isWordChar rest := fun c hc => (hr c hc).1
      exact ⟨h1, fun hc => (hr _ hc).2.2 rfl, call_none hx h1 (fun hc => (hr _ hc).2.1 rfl) _⟩

/-- The text does not start with an S-expression. -/
theorem sexpr_none {cs : Str} (h1 : cs.head? ≠ some '(') (h2 : ∀ x rest, cs = x ++ rest → Ident x → Stops isWordChar rest → rest.head? ≠ some ':') (fr) :
    exec (ruleGrammar lib) (.ruleRef .SExpr) cs fr = .fail := by
  apply ruleRef_fail
  show exec _ gSExpr _ _ = _
  rw [gSExpr]; apply action_fail; rw [exec_seq]
  have e0 : exec (ruleGrammar lib) (.seq [.action .onSExpr6 gIdent, .lit [':']]) cs Frame.empty = .fail := by
    rw [exec_seq, execSeq_cons]
    cases hi : exec (ruleGrammar lib) (.action .onSExpr6 gIdent) cs Frame.empty with
    | fail => rfl
    | abort =>
      exfalso
      rw [exec_action] at hi
      cases hg : exec (ruleGrammar lib) gIdent cs Frame.empty with
      | abort => exact ident_noabort hg
      | fail => rw [hg] at hi; simp at hi
      | ok v cs1 fr1 => rw [hg] at hi; simp [actC, ruleGrammar, gAct] at hi
    | ok v cs1 fr1 =>
      obtain ⟨v1, k1, -⟩ := action_inv hi
      obtain ⟨x, rfl, hx, hs, rfl⟩ := ident_inv k1
      exact seq_fail (exec_lit_head (h2 x cs1 rfl hx hs))
  have e1 : exec (ruleGrammar lib) (.zeroOrOne (.seq [.action .onSExpr6 gIdent, .lit [':']])) cs Frame.empty = .ok .nil cs Frame.empty := by
    rw [exec_zeroOrOne, e0]
  rw [seq_step (labeled_ok e1)]
  exact seq_fail (exec_lit_head h1)

theorem value_sexpr {cs v rest fr1} (h : exec (ruleGrammar lib) (.ruleRef .SExpr) cs Frame.empty = .ok v rest fr1) (fr) :
    exec (ruleGrammar lib) (.ruleRef .Value) cs fr = .ok v rest fr := by
  have : exec (ruleGrammar lib) gValue cs Frame.empty = .ok v rest Frame.empty := by
    rw [gValue, exec_choice, execChoice_cons, h]
  exact ruleRef_ok this fr

theorem value_expr {cs v rest fr1} (h0 : exec (ruleGrammar lib) (.ruleRef .SExpr) cs Frame.empty = .fail)
    (h : exec (ruleGrammar lib) (.ruleRef .Expr) cs Frame.empty = .ok v rest fr1) (fr) :
    exec (ruleGrammar lib) (.ruleRef .Value) cs fr = .ok v rest fr := by
  have : exec (ruleGrammar lib) gValue cs Frame.empty = .ok v rest Frame.empty := by
    rw [gValue, exec_choice, execChoice_cons, h0]
    simp only []
    rw [execChoice_cons, h]
  exact ruleRef_ok this fr

theorem value_none {cs} (h0 : exec (ruleGrammar lib) (.ruleRef .SExpr) cs Frame.empty = .fail)
    (h : exec (ruleGrammar lib) (.ruleRef .Expr) cs Frame.empty = .fail) (fr) :
    exec (ruleGrammar lib) (.ruleRef .Value) cs fr = .fail := by
  apply ruleRef_fail
  show exec _ gValue _ _ = _
  rw [gValue, exec_choice, execChoice_cons, h0]
  simp only []
  rw [execChoice_cons, h]
  simp only [execChoice_nil]

/-- An identifier is determined by where it stops. -/
theorem ident_unique {x y r s : Str} (h : x ++ r = y ++ s) (hx : Ident x) (hy : Ident y) (hr : Stops isWordChar r) (hs : Stops isWordChar s) :
    x = y ∧ r = s := by
  obtain ⟨c, t, rfl, hc, ht⟩ := hx
  obtain ⟨d, u, rfl, hd, hu⟩ := hy
  simp only [List.cons_append, List.cons.injEq] at h
  obtain ⟨rfl, h⟩ := h
  have h1 := takeWhile_stop ht hr
  have h2 := takeWhile_stop hu hs
  rw [h] at h1
  exact ⟨by rw [← h1.1, h2.1], by rw [← h1.2, h2.2]⟩

theorem expr_value_fwd {t v} (h : ExprText (goText lib) t v) (rest) (hr : Okay lib v rest) (fr) :
    exec (ruleGrammar lib) (.ruleRef .Value) (t ++ rest) fr = .ok (valDyn v) rest fr := by
  cases h with
  | var hx =>
    have hne : t ≠ ['_'] := by
      rintro rfl; obtain ⟨c, u, he, hc, -⟩ := hx; simp at he; rw [← he.1] at hc; exact absurd hc (by decide)
    rw [Okay, if_neg hne] at hr
    obtain ⟨h1, h2, h3⟩ := hr
    refine value_expr (sexpr_none ?_ ?_ _) (expr_var hx h1 h3 Frame.empty) fr
    · obtain ⟨c, u, rfl, hc, -⟩ := hx
      have := (lower_facts hc).1
      simpa using this
    · intro y r he hy hs
      obtain ⟨-, rfl⟩ := ident_unique he hx hy h1 hs
      exact h2
  | placeholder =>
    rw [Okay, if_pos rfl] at hr
    refine value_expr (sexpr_none (by simp) ?_ _) (expr_placeholder hr Frame.empty) fr
    intro y r he hy hs
    obtain ⟨c, u, rfl, hc, -⟩ := hy
    simp at he; rw [← he.1] at hc; exact absurd hc (by decide)
  | @call f s0 a v s1 more e hf h0 ha h1 hm hgo =>
    have he := expr_fwd (.call hf h0 ha h1 hm hgo) rest (fun hc => absurd rfl (hc e)) Frame.empty
    refine value_expr (sexpr_none ?_ ?_ _) he fr
    · obtain ⟨c, u, rfl, hc, -⟩ := hf
      have := (lower_facts hc).1
      simpa using this
    · intro y r he hy hs
      have he : f ++ ('(' :: (s0 ++ a ++ s1 ++ more ++ [')'] ++ rest)) = y ++ r := by rw [← he]; simp
      obtain ⟨-, rfl⟩ := ident_unique he hf hy (by intro d hd; simp at hd; subst hd; decide) hs
      simp

/-- One operand with the skipped text before it. -/
def gItem : PExpr := .seq [g__, .ruleRef .Operand]

/-- No operand starts here. -/
theorem operand_none {cs : Str} (h : cs.head? = some '.' ∨ cs.head? = some ')' ∨ (∃ r, cs = '_' :: '_' :: r)) (fr) :
    exec (ruleGrammar lib) (.ruleRef .Operand) cs fr = .fail := by
  have hlow : Stops isLower cs := by
    intro c hc
    rcases h with h | h | ⟨r, rfl⟩
    · rw [h] at hc; simp at hc; subst hc; decide
    · rw [h] at hc; simp at hc; subst hc; decide
    · simp at hc; subst hc; decide
  have hhead : ∀ d, d = '<' ∨ d = '[' ∨ d = '{' ∨ d = '(' → cs.head? ≠ some d := by
    intro d hd hc
    rcases h with h | h | ⟨r, rfl⟩
    · rw [h] at hc; simp at hc; subst hc; exact absurd hd (by decide)
    · rw [h] at hc; simp at hc; subst hc; exact absurd hd (by decide)
    · simp at hc; subst hc; exact absurd hd (by decide)
  apply ruleRef_fail
  show exec _ gOperand _ _ = _
  have hv : exec (ruleGrammar lib) (.ruleRef .Value) cs Frame.empty = .fail := by
    apply value_none
    · apply sexpr_none (hhead _ (by simp))
      intro x r he hx _
      obtain ⟨c, u, rfl, hc, -⟩ := hx
      have := hlow c (by rw [he]; rfl)
      rw [hc] at this; simp at this
    · apply expr_none hlow
      rintro r rfl
      rcases h with h | h | ⟨r', h⟩
      · simp at h
      · simp at h
      · simp at h; rw [h]; rfl
  rw [gOperand, exec_choice, execChoice_cons, gType, delim_none (hhead _ (by simp))]
  simp only []
  rw [execChoice_cons, gAuxInt, delim_none (hhead _ (by simp))]
  simp only []
  rw [execChoice_cons, gAux, delim_none (hhead _ (by simp))]
  simp only []
  rw [execChoice_cons, hv]
  simp only [execChoice_nil]

theorem operand_value {cs v rest} (h1 : cs.head? ≠ some '<') (h2 : cs.head? ≠ some '[') (h3 : cs.head? ≠ some '{')
    (h : ∀ fr, exec (ruleGrammar lib) (.ruleRef .Value) cs fr = .ok v rest fr) (fr) :
    exec (ruleGrammar lib) (.ruleRef .Operand) cs fr = .ok v rest fr := by
  have : exec (ruleGrammar lib) gOperand cs Frame.empty = .ok v rest Frame.empty := by
    rw [gOperand, exec_choice, execChoice_cons, gType, delim_none h1]
    simp only []
    rw [execChoice_cons, gAuxInt, delim_none h2]
    simp only []
    rw [execChoice_cons, gAux, delim_none h3]
    simp only []
    rw [execChoice_cons, h]
  exact ruleRef_ok this fr

/-- How the text of a value starts. -/
theorem valueText_head {go t v} (h : ValueText go t v) : ∃ c u, t = c :: u ∧ (isLower c = true ∨ c = '_' ∨ c = '(') := by
  cases h with
  | expr h =>
    cases h with
    | var hx => obtain ⟨c, u, rfl, hc, -⟩ := hx; exact ⟨c, u, rfl, Or.inl hc⟩
    | placeholder => exact ⟨_, _, rfl, by simp⟩
    | call hx => obtain ⟨c, u, rfl, hc, -⟩ := hx; exact ⟨c, _, by simp only [List.cons_append]; rfl, Or.inl hc⟩
  | sexpr hb =>
    cases hb with
    | none => exact ⟨'(', _, by simp only [List.nil_append, List.cons_append]; rfl, by simp⟩
    | some hx => obtain ⟨c, u, rfl, hc, -⟩ := hx; exact ⟨c, _, by simp only [List.cons_append]; rfl, Or.inl hc⟩

theorem valueText_noSkip {go t v rest} (h : ValueText go t v) : NoSkip (t ++ rest) := by
  obtain ⟨c, u, rfl, hc⟩ := valueText_head h
  apply noSkip_cons
  · rcases hc with hc | rfl | rfl
    · exact (lower_facts hc).2.2.2.1
    · decide
    · decide
  · rcases hc with hc | rfl | rfl
    · exact (lower_facts hc).2.2.1
    · decide
    · decide

theorem valueText_head_ne {go t v} (h : ValueText go t v) (rest : Str) :
    (t ++ rest).head? ≠ some '<' ∧ (t ++ rest).head? ≠ some '[' ∧ (t ++ rest).head? ≠ some '{' ∧ (t ++ rest).head? ≠ some '@' := by
  obtain ⟨c, u, rfl, hc⟩ := valueText_head h
  rcases hc with hc | rfl | rfl
  · have := lower_facts hc
    simp; exact ⟨this.2.2.2.2.1, this.2.2.2.2.2.1, this.2.2.2.2.2.2.1, this.2.2.2.2.2.2.2.1⟩
  · simp
  · simp

theorem operandText_noSkip {go t o rest} (h : OperandText go t o) : NoSkip (t ++ rest) := by
  cases h with
  | type => exact noSkip_cons (by decide) (by decide)
  | auxInt => exact noSkip_cons (by decide) (by decide)
  | aux => exact noSkip_cons (by decide) (by decide)
  | arg h => exact valueText_noSkip h

theorem valueText_ne_nil {go t v} (h : ValueText go t v) : v ≠ .nil := by
  cases h with
  | expr h => cases h <;> simp
  | sexpr => simp

theorem gItem_none {cs : Str} (h : ∃ s r, cs = s ++ r ∧ Skip s ∧ (r.head? = some '.' ∨ r.head? = some ')' ∨ (∃ r', r = '_' :: '_' :: r'))) :
    exec (ruleGrammar lib) gItem cs Frame.empty = .fail := by
  obtain ⟨s, r, rfl, hs, hr⟩ := h
  have hn : NoSkip r := by
    rcases hr with hr | hr | ⟨r', rfl⟩
    · cases r with
      | nil => simp at hr
      | cons c r => simp at hr; subst hr; exact noSkip_cons (by decide) (by decide)
    · cases r with
      | nil => simp at hr
      | cons c r => simp at hr; subst hr; exact noSkip_cons (by decide) (by decide)
    · exact noSkip_cons (by decide) (by decide)
  rw [gItem, exec_seq]
  by_cases hs0 : s = []
  · subst hs0
    exact seq_fail (exec_skip1_none hn _)
  · obtain ⟨vs, hv⟩ := exec_skip1 (G := ruleGrammar lib) ⟨hs, hs0⟩ hn
    rw [seq_step (hv _)]
    exact seq_fail (operand_none hr _)

/-- An optional mark that is absent. -/
theorem mark_none {m : Char} {ms cs : Str} (h : ∃ s r, cs = s ++ r ∧ Skip s ∧ NoSkip r ∧ r.head? ≠ some m) (fr) :
    exec (ruleGrammar lib) (.zeroOrOne (.seq [g__, .lit (m :: ms)])) cs fr = .ok .nil cs fr := by
  obtain ⟨s, r, rfl, hs, hn, hr⟩ := h
  have : exec (ruleGrammar lib) (.seq [g__, .lit (m :: ms)]) (s ++ r) Frame.empty = .fail := by
    rw [exec_seq]
    by_cases hs0 : s = []
    · subst hs0; exact seq_fail (exec_skip1_none hn _)
    · obtain ⟨vs, hv⟩ := exec_skip1 (G := ruleGrammar lib) ⟨hs, hs0⟩ hn
      rw [seq_step (hv _)]
      exact seq_fail (exec_lit_head hr)
  rw [exec_zeroOrOne, this]

theorem mark_some {m : Char} {ms s rest : Str} (hs : Skip1 s) (hm : NoSkip (m :: ms ++ rest)) :
    ∃ l, ∀ fr, exec (ruleGrammar lib) (.zeroOrOne (.seq [g__, .lit (m :: ms)])) (s ++ (m :: ms) ++ rest) fr = .ok (.list l) rest fr := by
  obtain ⟨vs, hv⟩ := exec_skip1 (G := ruleGrammar lib) hs hm
  refine ⟨[] ++ [.list vs] ++ [.bytes (m :: ms)], fun fr => ?_⟩
  have : exec (ruleGrammar lib) (.seq [g__, .lit (m :: ms)]) (s ++ (m :: ms) ++ rest) Frame.empty =
      .ok (.list ([] ++ [.list vs] ++ [.bytes (m :: ms)])) rest Frame.empty := by
    rw [List.append_assoc, exec_seq, seq_step (hv _), seq_step (exec_lit_ok _ _ _), execSeq_nil]
  rw [exec_zeroOrOne, this]

/-- The closing part of an S-expression. -/
theorem closing_fwd {et ell tt tr s1} (he : MarkText ['.', '.', '.'] et ell) (ht : MarkText ['_', '_', '_'] tt tr) (h1 : Skip s1) (tail : Str) :
    (∃ s r, et ++ tt ++ s1 ++ ')' :: tail = s ++ r ∧ Skip s ∧ (r.head? = some '.' ∨ r.head? = some ')' ∨ (∃ r', r = '_' :: '_' :: r'))) ∧
    (∃ d1, markDyn d1 ell ∧ ∀ fr, exec (ruleGrammar lib) (.zeroOrOne (.seq [g__, .lit ['.', '.', '.']])) (et ++ tt ++ s1 ++ ')' :: tail) fr =
      .ok d1 (tt ++ s1 ++ ')' :: tail) fr) ∧
    (∃ d2, markDyn d2 tr ∧ ∀ fr, exec (ruleGrammar lib) (.zeroOrOne (.seq [g__, .lit ['_', '_', '_']])) (tt ++ s1 ++ ')' :: tail) fr =
      .ok d2 (s1 ++ ')' :: tail) fr) ∧
    (∃ vs, ∀ fr, exec (ruleGrammar lib) g_ (s1 ++ ')' :: tail) fr = .ok (.list vs) (')' :: tail) fr) := by
  have hclose : NoSkip (')' :: tail) := noSkip_cons (by decide) (by decide)
  have h4 := exec_skip (G := ruleGrammar lib) h1 hclose
  have h3 : ∃ d2, markDyn d2 tr ∧ ∀ fr, exec (ruleGrammar lib) (.zeroOrOne (.seq [g__, .lit ['_', '_', '_']])) (tt ++ s1 ++ ')' :: tail) fr =
      .ok d2 (s1 ++ ')' :: tail) fr := by
    cases ht with
    | none =>
      refine ⟨.nil, rfl, fun fr => ?_⟩
      rw [List.nil_append]
      exact mark_none ⟨s1, ')' :: tail, rfl, h1, hclose, by simp⟩ fr
    | @some s hs =>
      obtain ⟨l, hl⟩ := mark_some (lib := lib) (m := '_') (ms := ['_', '_']) (rest := s1 ++ ')' :: tail) hs (noSkip_cons (by decide) (by decide))
      refine ⟨.list l, ⟨l, rfl⟩, fun fr => ?_⟩
      rw [← hl fr]; simp
  have h12 : ∃ s r, tt ++ s1 ++ ')' :: tail = s ++ r ∧ Skip s ∧ (r.head? = some ')' ∨ (∃ r', r = '_' :: '_' :: r')) := by
    cases ht with
    | none => exact ⟨s1, ')' :: tail, rfl, h1, Or.inl rfl⟩
    | @some s hs => exact ⟨s, '_' :: '_' :: '_' :: (s1 ++ ')' :: tail), by simp, hs.1, Or.inr ⟨_, rfl⟩⟩
  refine ⟨?_, ?_, h3, h4⟩
  · cases he with
    | none =>
      obtain ⟨s, r, h, hs, hr⟩ := h12
      exact ⟨s, r, by rw [← h]; simp, hs, Or.inr hr⟩
    | @some s hs => exact ⟨s, '.' :: '.' :: '.' :: (tt ++ s1 ++ ')' :: tail), by simp, hs.1, Or.inl rfl⟩
  · cases he with
    | none =>
      refine ⟨.nil, rfl, fun fr => ?_⟩
      rw [List.nil_append]
      obtain ⟨s, r, h, hs, hr⟩ := h12
      refine mark_none ⟨s, r, h, hs, ?_, ?_⟩ fr
      · rcases hr with hr | ⟨r', rfl⟩
        · cases r with
          | nil => simp at hr
          | cons c r => simp at hr; subst hr; exact noSkip_cons (by decide) (by decide)
        · exact noSkip_cons (by decide) (by decide)
      · rcases hr with hr | ⟨r', rfl⟩
        · rw [hr]; simp
        · simp
    | @some s hs =>
      obtain ⟨l, hl⟩ := mark_some (lib := lib) (m := '.') (ms := ['.', '.']) (rest := tt ++ s1 ++ ')' :: tail) hs (noSkip_cons (by decide) (by decide))
      refine ⟨.list l, ⟨l, rfl⟩, fun fr => ?_⟩
      rw [← hl fr]; simp

/-- Text that starts with skipped text or a character that continues nothing. -/
theorem cont_of_closing {cs : Str} (h : ∃ s r, cs = s ++ r ∧ Skip s ∧ (s = [] → Cont r)) : Cont cs := by
  obtain ⟨s, r, rfl, hs, hr⟩ := h
  rcases skip_cases hs with rfl | ⟨c, t, rfl, hc | rfl⟩
  · exact hr rfl
  · have := blank_facts hc
    exact cont_cons ⟨blank_not_word hc, this.1, this.2.1⟩
  · exact cont_cons (by decide)

theorem closing_cont {et ell tt tr s1} (he : MarkText ['.', '.', '.'] et ell) (ht : MarkText ['_', '_', '_'] tt tr) (h1 : Skip s1) (tail : Str) :
    Cont (et ++ tt ++ s1 ++ ')' :: tail) := by
  cases he with
  | some hs =>
    apply cont_of_closing
    exact ⟨_, _, by simp only [List.append_assoc]; rfl, hs.1, fun h => absurd h hs.2⟩
  | none =>
    cases ht with
    | some hs =>
      apply cont_of_closing
      exact ⟨_, _, by simp only [List.append_assoc, List.nil_append]; rfl, hs.1, fun h => absurd h hs.2⟩
    | none =>
      apply cont_of_closing
      exact ⟨s1, ')' :: tail, by simp, h1, fun _ => cont_cons (by decide)⟩

theorem operands_cont {go ot ops E} (h : OperandsText go ot ops) (hE : Cont E) : Cont (ot ++ E) := by
  cases h with
  | nil => exact hE
  | cons hs _ _ =>
    apply cont_of_closing
    exact ⟨_, _, by simp only [List.append_assoc]; rfl, hs.1, fun h => absurd h hs.2⟩

theorem binding_fwd {bt b cs} (hb : BindingText bt b) (fr) :
    exec (ruleGrammar lib) (.zeroOrOne (.seq [.action .onSExpr6 gIdent, .lit [':']])) (bt ++ '(' :: cs) fr = .ok (bindDyn b) ('(' :: cs) fr := by
  cases hb with
  | none =>
    have : exec (ruleGrammar lib) (.seq [.action .onSExpr6 gIdent, .lit [':']]) ('(' :: cs) Frame.empty = .fail := by
      rw [exec_seq]
      exact seq_fail (action_fail (ident_none (by intro d hd; simp at hd; subst hd; decide)))
    rw [exec_zeroOrOne, List.nil_append, this]; rfl
  | some hb =>
    obtain ⟨v, hv⟩ := ident_fwd (G := ruleGrammar lib) (fr := Frame.empty) (rest := ':' :: '(' :: cs) hb
      (by intro d hd; simp at hd; subst hd; decide)
    have e1 : exec (ruleGrammar lib) (.action .onSExpr6 gIdent) (b ++ ':' :: '(' :: cs) Frame.empty =
        .ok (.variable b) (':' :: '(' :: cs) Frame.empty := by
      rw [action_eq hv, actC, slice_append]; rfl
    have e2 : exec (ruleGrammar lib) (.lit [':']) (':' :: '(' :: cs) Frame.empty = .ok (.bytes [':']) ('(' :: cs) Frame.empty :=
      exec_lit_ok [':'] _ _
    have htxt : b ++ [':'] ++ '(' :: cs = b ++ ':' :: '(' :: cs := by simp
    have hne : b ≠ [] := by rintro rfl; obtain ⟨c, t, h, -⟩ := hb; simp at h
    have : exec (ruleGrammar lib) (.seq [.action .onSExpr6 gIdent, .lit [':']]) (b ++ [':'] ++ '(' :: cs) Frame.empty =
        .ok (bindDyn b) ('(' :: cs) Frame.empty := by
      rw [htxt, exec_seq, seq_step e1, seq_step e2, execSeq_nil]
      simp [bindDyn, hne]
    rw [exec_zeroOrOne, this]

theorem op_noSkip {op rest} (h : OpWF op) : NoSkip (showOp op ++ rest) := by
  have hw : ∀ s r, Word s → NoSkip (s ++ r) := by
    intro s r hs
    cases s with
    | nil => exact absurd rfl hs.1
    | cons c s =>
      have hc := hs.2 c (by simp)
      apply noSkip_cons
      · cases hb : isBlank c with
        | false => rfl
        | true => rw [blank_not_word hb] at hc; simp at hc
      · rintro rfl; exact absurd hc (by decide)
  cases op with
  | nil => exact absurd h (by simp [OpWF])
  | opcode s => exact hw s rest h
  | parts ps =>
    obtain ⟨h1, h2, -, -⟩ := h
    cases ps with
    | nil => exact absurd rfl h1
    | cons p ps =>
      have hp := h2 p (by simp)
      rw [showOp, List.flatMap_cons, List.append_assoc]
      cases p with
      | nil => exact absurd hp (by simp [PartWF])
      | opcode s => exact hw s _ hp
      | alt cs =>
        cases cs with
        | nil => exact absurd hp (by simp [PartWF])
        | cons c cs => simp only [showPart, showAlt, List.cons_append]; exact noSkip_cons (by decide) (by decide)

theorem sexpr_ok {bt b s0 op ot ops et ell tt tr s1 ds} {tail : Str} (hb : BindingText bt b) (h0 : Skip s0) (ho : OpWF op)
    (hops : OperandsText (goText lib) ot ops) (hds : OperandDyns ds ops)
    (hi : Items (ruleGrammar lib) gItem (ot ++ (et ++ tt ++ s1 ++ ')' :: tail)) ds (et ++ tt ++ s1 ++ ')' :: tail))
    (he : MarkText ['.', '.', '.'] et ell) (ht : MarkText ['_', '_', '_'] tt tr) (h1 : Skip s1) (fr) :
    exec (ruleGrammar lib) (.ruleRef .SExpr) ((bt ++ '(' :: s0 ++ showOp op ++ ot ++ et ++ tt ++ s1 ++ [')']) ++ tail) fr =
      .ok (.sexpr { binding := b, op := op, type := lastType ops, auxInt := lastAuxInt ops, aux := lastAux ops,
                    ellipsis := ell, trailing := tr } (argsOf ops)) tail fr := by
  have htxt : (bt ++ '(' :: s0 ++ showOp op ++ ot ++ et ++ tt ++ s1 ++ [')']) ++ tail =
      bt ++ '(' :: (s0 ++ (showOp op ++ (ot ++ (et ++ tt ++ s1 ++ ')' :: tail)))) := by simp
  rw [htxt]
  obtain ⟨-, ⟨d1, hd1, e6⟩, ⟨d2, hd2, e7⟩, ⟨vs8, e8⟩⟩ := closing_fwd (lib := lib) he ht h1 tail
  have hcE := closing_cont he ht h1 tail
  have hcont := operands_cont hops hcE
  generalize hE : et ++ tt ++ s1 ++ ')' :: tail = E at *
  generalize hE2 : tt ++ s1 ++ ')' :: tail = E2 at *
  have e1 := binding_fwd (lib := lib) (cs := s0 ++ (showOp op ++ (ot ++ E))) hb Frame.empty
  have e2 : ∀ fr, exec (ruleGrammar lib) (.lit ['(']) ('(' :: (s0 ++ (showOp op ++ (ot ++ E)))) fr =
    .ok (.bytes ['(']) (s0 ++ (showOp op ++ (ot ++ E))) fr := fun fr => exec_lit_ok ['('] _ _
  obtain ⟨vs3, e3⟩ := exec_skip (G := ruleGrammar lib) h0 (op_noSkip (rest := ot ++ E) ho)
  obtain ⟨fr4, e4⟩ := op_fwd (lib := lib) (rest := ot ++ E) ho (fun c hc => (hcont c hc).1) (fun hc => (hcont _ hc).2.1 rfl) Frame.empty
  have e5 : exec (ruleGrammar lib) (.zeroOrMore gItem) (ot ++ E) Frame.empty = .ok (.list ds) E Frame.empty := by
    rw [exec_zeroOrMore]; exact loop_of_items (vs := []) hi (by simp)
  have e9 : ∀ fr, exec (ruleGrammar lib) (.lit [')']) (')' :: tail) fr = .ok (.bytes [')']) tail fr := fun fr => exec_lit_ok [')'] _ _
  have hseq : ∃ v, exec (ruleGrammar lib) (.seq [
    .labeled .binding (.zeroOrOne (.seq [.action .onSExpr6 gIdent, .lit [':']])),
    .lit ['('], g_, .labeled .op gOp,
    .labeled .operands (.zeroOrMore (.seq [g__, .ruleRef .Operand])),
    .labeled .ellipsis (.zeroOrOne (.seq [g__, .lit ['.', '.', '.']])),
    .labeled .trailing (.zeroOrOne (.seq [g__, .lit ['_', '_', '_']])),
    g_, .lit [')']]) (bt ++ '(' :: (s0 ++ (showOp op ++ (ot ++ E)))) Frame.empty = .ok v tail
      (((((Frame.empty.set .binding (bindDyn b)).set .op (opDyn op)).set .operands (.list ds)).set .ellipsis d1).set .trailing d2) := by
    rw [exec_seq, seq_step (labeled_ok e1), seq_step (e2 _), seq_step (e3 _), seq_step (labeled_ok e4)]
    rw [show PExpr.seq [g__, .ruleRef .Operand] = gItem from rfl]
    rw [seq_step (labeled_ok e5), seq_step (labeled_ok (e6 _)), seq_step (labeled_ok (e7 _)), seq_step (e8 _), seq_step (e9 _), execSeq_nil]
    exact ⟨_, rfl⟩
  obtain ⟨v, hv⟩ := hseq
  have hact := action_eq (a := .onSExpr1) hv
  have hr : (ruleGrammar lib).act .onSExpr1
      (((((Frame.empty.set .binding (bindDyn b)).set .op (opDyn op)).set .operands (.list ds)).set .ellipsis d1).set .trailing d2)
      (sliceC (bt ++ '(' :: (s0 ++ (showOp op ++ (ot ++ E)))) tail) = _ := onSExpr1_eq (b := b) ho hds hd1 hd2
  rw [actC, hr] at hact
  exact ruleRef_ok (r := .SExpr) hact fr

mutual
theorem value_fwd {t v} (h : ValueText (goText lib) t v) : ∀ rest, Okay lib v rest → ∀ fr,
    exec (ruleGrammar lib) (.ruleRef .Value) (t ++ rest) fr = .ok (valDyn v) rest fr := by
  intro rest hr fr
  cases h with
  | expr h => exact expr_value_fwd h rest hr fr
  | @sexpr bt b s0 op ot ops et ell tt tr s1 hb h0 ho hops he ht h1 =>
    obtain ⟨hstop, -, -, -⟩ := closing_fwd (lib := lib) he ht h1 rest
    obtain ⟨ds, hds, hi⟩ := operands_fwd hops (et ++ tt ++ s1 ++ ')' :: rest) (closing_cont he ht h1 rest) hstop
    exact value_sexpr (sexpr_ok hb h0 ho hops hds hi he ht h1 Frame.empty) fr
termination_by 2 * t.length
decreasing_by
  all_goals
    subst_vars
    try simp only [List.length_append, List.length_cons, List.length_nil]
    omega
theorem operands_fwd {ot ops} (h : OperandsText (goText lib) ot ops) : ∀ E, Cont E →
    (∃ s r, E = s ++ r ∧ Skip s ∧ (r.head? = some '.' ∨ r.head? = some ')' ∨ (∃ r', r = '_' :: '_' :: r'))) →
    ∃ ds, OperandDyns ds ops ∧ Items (ruleGrammar lib) gItem (ot ++ E) ds E := by
  intro E hE hstop
  cases h with
  | nil => exact ⟨[], .nil, .nil (gItem_none hstop)⟩
  | @cons s t o rest os hs ho hrest =>
    obtain ⟨ds, hds, hi⟩ := operands_fwd hrest E hE hstop
    have hcont := operands_cont hrest hE
    have e1 := operand_fwd ho (rest ++ E) hcont
    obtain ⟨vs, e0⟩ := exec_skip1 (G := ruleGrammar lib) hs (operandText_noSkip (rest := rest ++ E) ho)
    refine ⟨.list [.list vs, operandDyn o] :: ds, .cons ?_ hds, ?_⟩
    · rintro v rfl
      cases ho with
      | arg h => exact valueText_ne_nil h
    · have htxt : s ++ t ++ rest ++ E = s ++ (t ++ (rest ++ E)) := by simp
      rw [htxt]
      refine .cons (fr := Frame.empty) ?_ hi
      rw [gItem, exec_seq, seq_step (e0 _), seq_step (e1 _), execSeq_nil]
      rfl
termination_by 2 * ot.length
decreasing_by
  all_goals
    have := List.length_pos_iff.2 hs.2
    subst_vars
    simp only [List.length_append, List.length_cons, List.length_nil]
    omega
theorem operand_fwd {t o} (h : OperandText (goText lib) t o) : ∀ rest, Cont rest → ∀ fr,
    exec (ruleGrammar lib) (.ruleRef .Operand) (t ++ rest) fr = .ok (operandDyn o) rest fr := by
  intro rest hr fr
  cases h with
  | @type t h1 h2 =>
    have : exec (ruleGrammar lib) gOperand (('<' :: t ++ ['>']) ++ rest) Frame.empty = .ok (.type t) rest Frame.empty := by
      rw [gOperand, exec_choice, execChoice_cons, gType, delim_fwd h1 h2, actC, slice_append]
      have : (ruleGrammar lib).act .onOperand2 Frame.empty ('<' :: t ++ ['>']) = .ok (.type t) := by
        show ActOut.ok (.type (inner _)) = _
        rw [inner_eq]
      rw [this]
    exact ruleRef_ok this fr
  | @auxInt t e h1 h2 hgo =>
    have : exec (ruleGrammar lib) gOperand (('[' :: t ++ [']']) ++ rest) Frame.empty = .ok (.auxint e) rest Frame.empty := by
      rw [gOperand, exec_choice, execChoice_cons, gType, delim_none (by simp)]
      simp only []
      rw [execChoice_cons, gAuxInt, delim_fwd h1 h2, actC, slice_append]
      have : (ruleGrammar lib).act .onOperand8 Frame.empty ('[' :: t ++ [']']) = .ok (.auxint e) := by
        show viaGo lib (inner _) _ = _
        rw [inner_eq, viaGo, hgo]
      rw [this]
    exact ruleRef_ok this fr
  | @aux t e h1 h2 hgo =>
    have : exec (ruleGrammar lib) gOperand (('{' :: t ++ ['}']) ++ rest) Frame.empty = .ok (.aux e) rest Frame.empty := by
      rw [gOperand, exec_choice, execChoice_cons, gType, delim_none (by simp)]
      simp only []
      rw [execChoice_cons, gAuxInt, delim_none (by simp)]
      simp only []
      rw [execChoice_cons, gAux, delim_fwd h1 h2, actC, slice_append]
      have : (ruleGrammar lib).act .onOperand14 Frame.empty ('{' :: t ++ ['}']) = .ok (.aux e) := by
        show viaGo lib (inner _) _ = _
        rw [inner_eq, viaGo, hgo]
      rw [this]
    exact ruleRef_ok this fr
  | arg h =>
    have hh := valueText_head_ne h rest
    exact operand_value hh.1 hh.2.1 hh.2.2.1 (value_fwd h rest (okay_cont h hr)) fr
termination_by 2 * t.length + 1
decreasing_by
  all_goals
    subst_vars
    try simp only [List.length_append, List.length_cons, List.length_nil]
    omega
end

end
end Verif.Proof

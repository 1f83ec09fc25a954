import Verif.Proof.Smt2Gen
import Verif.Proof.Cmd
/-!
# Proofs about the sizes of what is printed, expanded and generated
-/
namespace Verif.Proof
open Verif Verif.Spec Verif.Spec.Smt Verif.Spec.Ssa

/-! ## The script of a rule -/

def Shape.cost : Shape → Nat
  | .app f => f.length + 2
  | .neq => 9

unseal rows in
theorem rows_cost : ∀ r ∈ rows, Shape.cost r.sh ≤ 2 * r.o.toList.length + 4 := by decide

theorem render_shape (sh : Shape) (ts : List SExp) : (render (sh.term ts)).length = Shape.cost sh + (ts.flatMap fun x => ' ' :: render x).length := by
  cases sh with
  | app f => simp [Shape.term, render, renders_cons, Shape.cost]; omega
  | neq =>
    simp only [Shape.term, render, renders_cons, Shape.cost]
    simp [render, renders_cons]; omega

mutual
theorem render_le {s : Srt} : ∀ {v : Value}, Fragment s v → (render (termOf v)).length ≤ 2 * (showValue v).length
  | .var x, _ => by simp [termOf, render, showValue]; omega
  | .nil, h => by cases h
  | .expr _, h => by cases h
  | .sexpr h args, hf => by
    obtain ⟨hb, o, r, ho, hr, -, hn, has⟩ := fragment_sexpr_iff.1 hf
    have h1 := rows_cost r (rowOf_mem hr).1
    rw [(rowOf_mem hr).2] at h1
    have h2 := renders_le has
    obtain ⟨b1, b2, b3, b4, b5, b6⟩ := hb
    simp only [termOf, ho, hr]
    rw [render_shape]
    simp only [showValue, b1, b2, b3, b4, b5, b6, ho, showOp, showBinding, showType, showAuxInt, showAux, List.length_append, List.length_cons, List.length_nil, if_true, List.nil_append]
    simp only [Bool.false_eq_true, if_false, List.length_nil]
    omega
theorem renders_le {s : Srt} : ∀ {vs : List Value}, Fragments s vs → ((termsOf vs).flatMap fun x => ' ' :: render x).length ≤ 2 * (showArgs vs).length
  | [], _ => by simp [termsOf]
  | v :: vs, h => by
    obtain ⟨h1, h2⟩ := fragments_cons_iff.1 h
    have k1 := render_le h1
    have k2 := renders_le h2
    simp only [termsOf, List.flatMap_cons, List.length_append, List.length_cons, showArgs, List.cons_append] at k2 ⊢
    omega
end

/-- Lengths of the names, one more for each. -/
def nameCost (l : List Str) : Nat := (l.map fun x => x.length + 1).sum

theorem nameCost_append (a b : List Str) : nameCost (a ++ b) = nameCost a + nameCost b := by simp [nameCost]
theorem nameCost_cons (a : Str) (b : List Str) : nameCost (a :: b) = a.length + 1 + nameCost b := by simp [nameCost]

mutual
theorem vars_le : ∀ v : Value, nameCost (vars v) ≤ (showValue v).length + 1
  | .var x => by simp [vars, nameCost, showValue]
  | .nil => by simp [vars, nameCost]
  | .expr _ => by simp [vars, nameCost]
  | .sexpr h args => by
    have := varss_le args
    simp only [vars, showValue, List.length_append, List.length_cons]
    omega
theorem varss_le : ∀ vs : List Value, nameCost (varss vs) ≤ (showArgs vs).length
  | [] => by simp [varss, nameCost]
  | v :: vs => by
    have h1 := vars_le v
    have h2 := varss_le vs
    simp only [varss, nameCost_append, showArgs, List.length_append, List.length_cons]
    omega
end

theorem addNames_cost (l : List Str) : ∀ names, nameCost (addNames names l) ≤ nameCost names + nameCost l := by
  induction l with
  | nil => intro names; simp [addNames, nameCost]
  | cons x l ih =>
    intro names
    have h : addNames names (x :: l) = addNames (if x ∈ names then names else names ++ [x]) l := rfl
    rw [h, nameCost_cons]
    split
    · have := ih names; omega
    · have := ih (names ++ [x]); rw [nameCost_append] at this; simp only [nameCost_cons] at this; simp only [nameCost, List.map_nil, List.sum_nil] at this ⊢; omega

theorem declLine_le (t : GoType) (x : Str) : (declLine t x).length ≤ 31 * (x.length + 1) := by
  have h : (typesort t).length ≤ 13 := by cases t <;> decide
  unfold declLine
  have h1 : "(declare-const ".toList.length = 15 := by decide
  have h2 : ")\n".toList.length = 2 := by decide
  simp only [List.length_append, h1, h2, List.length_cons, List.length_nil]
  omega

theorem decls_le (t : GoType) (l : List Str) : (l.flatMap (declLine t)).length ≤ 31 * nameCost l := by
  induction l with
  | nil => simp
  | cons x l ih =>
    have := declLine_le t x
    rw [List.flatMap_cons, List.length_append, nameCost_cons]
    omega

theorem replaceNewlines_le (s : Str) : (replaceNewlines s).length ≤ 3 * s.length := by
  induction s with
  | nil => decide
  | cons c s ih =>
    have h : replaceNewlines (c :: s) = (if c = '\n' then "\n; ".toList else [c]) ++ replaceNewlines s := rfl
    rw [h, List.length_append, List.length_cons]
    split
    · have : "\n; ".toList.length = 3 := by decide
      omega
    · simp; omega

theorem script_le {t : GoType} {r : Rule} (h : RuleFragment (srt t) r) : (scriptText t r).length ≤ 36 * (showRule r).length + 93 := by
  obtain ⟨hc, hb, -, hm, hr⟩ := h
  have h1 := render_le hm
  have h2 := render_le hr
  have h3 := vars_le r.match
  have h4 := vars_le r.result
  have h5 := addNames_cost (ruleVars r) []
  have h6 := decls_le t (declNames r)
  have h7 := replaceNewlines_le (showRule r)
  have h8 : (showRule r).length = (showValue r.match).length + 4 + (showValue r.result).length := by
    simp [showRule, hc, hb, showCond, showBlock]; omega
  have h9 : preamble.length = 50 := by decide
  have h10 : "; ".toList.length = 2 := by decide
  have h11 : "\n".toList.length = 1 := by decide
  have h12 : "(assert (not (= ".toList.length = 16 := by decide
  have h13 : ")))\n".toList.length = 4 := by decide
  have h14 : "(check-sat)\n".toList.length = 12 := by decide
  have h15 : "(exit)\n".toList.length = 7 := by decide
  have h16 : nameCost (ruleVars r) = nameCost (vars r.match) + nameCost (vars r.result) := by rw [ruleVars, nameCost_append]
  have h17 : nameCost ([] : List Str) = 0 := rfl
  unfold scriptText commentText assertLine
  unfold declNames at h6 ⊢
  generalize preamble = p1 at *
  generalize "; ".toList = p2 at *
  generalize "\n".toList = p3 at *
  generalize "(assert (not (= ".toList = p4 at *
  generalize ")))\n".toList = p5 at *
  generalize "(check-sat)\n".toList = p6 at *
  generalize "(exit)\n".toList = p7 at *
  generalize List.flatMap (declLine t) (addNames [] (ruleVars r)) = p8 at *
  generalize replaceNewlines (showRule r) = p9 at *
  generalize render (termOf r.match) = p10 at *
  generalize render (termOf r.result) = p11 at *
  simp only [List.length_append, List.length_cons, List.length_nil]
  omega

theorem generate_le {r : Rule} {s : Str} (h : generate r = .ok s) : s.length ≤ 36 * (showRule r).length + 93 := by
  obtain ⟨t, -, h1, rfl⟩ := generate_ok_iff.1 h
  exact script_le h1

/-! ## Expansion -/

theorem getD_showAlt (i : Nat) (cs : List Str) : (cs.getD i []).length + cs.length ≤ (showAlt cs).length + 1 ∧ cs.length ≤ (showAlt cs).length := by
  cases cs with
  | nil => simp [showAlt]
  | cons c cs =>
    have h : ∀ (cs : List Str) (i : Nat), (cs.getD i []).length + cs.length ≤ (cs.flatMap fun c => '|' :: c).length := by
      intro cs
      induction cs with
      | nil => intro i; simp
      | cons c cs ih =>
        intro i
        have h0 := ih 0
        cases i with
        | zero => simp; simp at h0; omega
        | succ i => have := ih i; simp at this ⊢; omega
    cases i with
    | zero => have := h cs 0; simp [showAlt] at this ⊢; omega
    | succ i => have := h cs i; simp [showAlt] at this ⊢; omega

theorem pickOp_le (i : Nat) (o : Op) : (showOp (pickOp i o)).length ≤ (showOp o).length := by
  cases o with
  | opcode s => simp [pickOp]
  | nil => simp [pickOp]
  | parts ps =>
    simp only [pickOp, showOp]
    induction ps with
    | nil => simp
    | cons p ps ih =>
      simp only [List.flatMap_cons, List.length_append]
      have : (pickPart i p).length ≤ (showPart p).length := by
        cases p with
        | opcode s => simp [pickPart, showPart]
        | nil => simp [pickPart, showPart]
        | alt cs =>
          have := getD_showAlt i cs
          simp only [pickPart, showPart]
          cases cs with
          | nil => simp
          | cons c cs => simp only [List.length_cons] at this; omega
      omega

mutual
theorem mapOps_le (i : Nat) : ∀ v : Value, (showValue (mapOps (pickOp i) v)).length ≤ (showValue v).length
  | .var x => by simp [mapOps]
  | .nil => by simp [mapOps]
  | .expr _ => by simp [mapOps]
  | .sexpr h args => by
    have h1 := mapOpss_le i args
    have h2 := pickOp_le i h.op
    simp only [mapOps, showValue, List.length_append, List.length_cons]
    omega
theorem mapOpss_le (i : Nat) : ∀ vs : List Value, (showArgs (mapOpss (pickOp i) vs)).length ≤ (showArgs vs).length
  | [] => by simp [mapOpss]
  | v :: vs => by
    have h1 := mapOps_le i v
    have h2 := mapOpss_le i vs
    simp only [mapOpss, showArgs, List.length_append, List.length_cons]
    omega
end

theorem pickRule_le (i : Nat) (r : Rule) : (showRule (pickRule i r)).length ≤ (showRule r).length := by
  have h1 := mapOps_le i r.match
  have h2 := mapOps_le i r.result
  simp only [pickRule, mapRuleOps, showRule, List.length_append, List.length_cons]
  omega

theorem opSizes_le {o : Op} {n : Nat} (h : n ∈ opSizes o) : n ≤ (showOp o).length := by
  cases o with
  | opcode s => simp [opSizes] at h
  | nil => simp [opSizes] at h
  | parts ps =>
    simp only [opSizes, List.mem_flatMap] at h
    obtain ⟨p, hp, h⟩ := h
    obtain ⟨a, b, rfl⟩ := List.append_of_mem hp
    cases p with
    | opcode s => simp [partSizes] at h
    | nil => simp [partSizes] at h
    | alt cs =>
      simp [partSizes] at h
      have := (getD_showAlt 0 cs).2
      simp only [showOp, List.flatMap_append, List.flatMap_cons, List.length_append, showPart]
      omega

mutual
theorem sizes_le : ∀ (v : Value) {n : Nat}, n ∈ sizes v → n + 1 ≤ (showValue v).length
  | .var x, n, h => by simp [sizes, opsOf] at h
  | .nil, n, h => by simp [sizes, opsOf] at h
  | .expr _, n, h => by simp [sizes, opsOf] at h
  | .sexpr hd args, n, h => by
    simp only [sizes, opsOf, List.flatMap_cons, List.mem_append] at h
    simp only [showValue, List.length_append, List.length_cons]
    rcases h with h | h
    · have := opSizes_le h; omega
    · have := sizess_le args h; omega
theorem sizess_le : ∀ (vs : List Value) {n : Nat}, n ∈ (opsOfs vs).flatMap opSizes → n + 1 ≤ (showArgs vs).length
  | [], n, h => by simp [opsOfs] at h
  | v :: vs, n, h => by
    simp only [opsOfs, List.flatMap_append, List.mem_append] at h
    simp only [showArgs, List.length_append, List.length_cons]
    rcases h with h | h
    · have := sizes_le v h; omega
    · have := sizess_le vs h; omega
end

theorem count_le (r : Rule) : count (ruleSizes r) ≤ (showRule r).length := by
  have hL : (showRule r).length ≥ (showValue r.match).length + 4 + (showValue r.result).length := by
    simp only [showRule, List.length_append, List.length_cons]; omega
  unfold count
  cases h : ruleSizes r with
  | nil => simp; omega
  | cons n l =>
    have : n ∈ ruleSizes r := by rw [h]; simp
    simp only [ruleSizes, List.mem_append] at this
    simp only [List.headD_cons]
    rcases this with h | h
    · have := sizes_le _ h; omega
    · have := sizes_le _ h; omega

theorem expansion_length (r : Rule) : (expansion r).length = count (ruleSizes r) := by simp [expansion]

theorem flat_le {α : Type} (f : α → Nat) (K : Nat) (l : List α) (h : ∀ a ∈ l, f a ≤ K) : (l.map f).sum ≤ l.length * K := by
  induction l with
  | nil => simp
  | cons a l ih =>
    have h1 := h a (by simp)
    have h2 := ih fun b hb => h b (by simp [hb])
    simp only [List.map_cons, List.sum_cons, List.length_cons, Nat.succ_mul]
    omega

mutual
theorem mapOps_printable (i : Nat) : ∀ v : Value, valuePrintable v = true → valuePrintable (mapOps (pickOp i) v) = true
  | .var x, _ => rfl
  | .nil, h => by simp [valuePrintable] at h
  | .expr _, h => h
  | .sexpr hd args, h => by
    simp only [valuePrintable, Bool.and_eq_true, mapOps] at h ⊢
    refine ⟨⟨⟨?_, h.1.1.2⟩, h.1.2⟩, mapOpss_printable i args h.2⟩
    cases ho : hd.op with
    | opcode s => rfl
    | nil => rw [ho] at h; simp [opPrintable] at h
    | parts ps => rfl
theorem mapOpss_printable (i : Nat) : ∀ vs : List Value, valuesPrintable vs = true → valuesPrintable (mapOpss (pickOp i) vs) = true
  | [], _ => rfl
  | v :: vs, h => by
    simp only [valuesPrintable, Bool.and_eq_true, mapOpss] at h ⊢
    exact ⟨mapOps_printable i v h.1, mapOpss_printable i vs h.2⟩
end

theorem pickRule_printable (i : Nat) {r : Rule} (h : rulePrintable r = true) : rulePrintable (pickRule i r) = true := by
  simp only [rulePrintable, Bool.and_eq_true, pickRule, mapRuleOps] at h ⊢
  exact ⟨⟨mapOps_printable i _ h.1.1, h.1.2⟩, mapOps_printable i _ h.2⟩

/-- Length of the printed file with these rules. -/
def linesLen (rs : List Rule) : Nat := (rs.map fun r => (showRule r).length + 1).sum

theorem showFile_length (rs : List Rule) : (showNode (.file ⟨rs⟩)).length = linesLen rs := by
  simp only [showNode, linesLen]
  induction rs with
  | nil => rfl
  | cons r rs ih => simp only [List.flatMap_cons, List.length_append, ih, List.map_cons, List.sum_cons, List.length_cons, List.length_nil]

theorem linesLen_append (a b : List Rule) : linesLen (a ++ b) = linesLen a + linesLen b := by simp [linesLen]

theorem expansion_linesLen (r : Rule) : linesLen (expansion r) ≤ (showRule r).length * ((showRule r).length + 1) := by
  have h := flat_le (fun r => (showRule r).length + 1) ((showRule r).length + 1) (expansion r) fun a ha => by
    simp only [expansion, List.mem_map] at ha
    obtain ⟨i, -, rfl⟩ := ha
    have := pickRule_le i r
    omega
  rw [expansion_length] at h
  have := Nat.mul_le_mul_right ((showRule r).length + 1) (count_le r)
  simp only [linesLen]
  omega

theorem expansions_linesLen (rs : List Rule) : linesLen (rs.flatMap expansion) ≤ linesLen rs * linesLen rs ∧ (rs.flatMap expansion).length ≤ linesLen rs := by
  induction rs with
  | nil => simp [linesLen]
  | cons r rs ih =>
    have h1 := expansion_linesLen r
    have h2 : linesLen (r :: rs) = ((showRule r).length + 1) + linesLen rs := by simp [linesLen]
    have h3 := count_le r
    rw [List.flatMap_cons, linesLen_append, List.length_append, expansion_length, h2]
    refine ⟨?_, by omega⟩
    have h4 := ih.1
    generalize linesLen rs = a at *
    generalize linesLen (rs.flatMap expansion) = b at *
    generalize linesLen (expansion r) = c at *
    generalize (showRule r).length = n at *
    have e : (n + 1 + a) * (n + 1 + a) = n * (n + 1) + a * a + (n + 1 + (n + 1) * a + a * (n + 1)) := by
      simp only [Nat.mul_add, Nat.add_mul, Nat.mul_one, Nat.one_mul]; omega
    rw [e]; omega

/-! ## From the source -/

section
variable {go : Str → GoExpr → Prop}

theorem valueText_sizes {t v} (h : ValueText go t v) : ∀ n ∈ sizes v, n ≤ t.length := by
  refine ValueText.rec (go := go) (motive_1 := fun t v _ => ∀ n ∈ sizes v, n ≤ t.length)
    (motive_2 := fun t ops _ => ∀ n ∈ (opsOfs (argsOf ops)).flatMap opSizes, n ≤ t.length)
    (motive_3 := fun t o _ => ∀ v, o = .arg v → ∀ n ∈ sizes v, n ≤ t.length) ?_ ?_ ?_ ?_ ?_ ?_ ?_ ?_ h
  · intro t v h n hn
    cases h <;> simp [sizes, opsOf] at hn
  · intro bt b s0 op ot ops et ell tt tr s1 _ _ _ _ _ _ _ ih n hn
    simp only [sizes, opsOf, List.flatMap_cons, List.mem_append] at hn
    simp only [List.length_append, List.length_cons]
    rcases hn with hn | hn
    · have := opSizes_le hn; omega
    · have := ih n hn; omega
  · intro n hn; simp [argsOf, opsOfs] at hn
  · intro s t o rest os _ _ _ h1 h2 n hn
    simp only [List.length_append]
    have h3 : ∀ n ∈ (opsOfs (argsOf os)).flatMap opSizes, n ≤ s.length + t.length + rest.length := fun n hn => by have := h2 n hn; omega
    cases o with
    | arg v =>
      have e : argsOf (.arg v :: os) = v :: argsOf os := rfl
      rw [e] at hn
      simp only [opsOfs, List.flatMap_append, List.mem_append] at hn
      rcases hn with hn | hn
      · have := h1 v rfl n hn; omega
      · exact h3 n hn
    | _ => exact h3 n hn
  · intro t _ _ v h; cases h
  · intro t e _ _ _ v h; cases h
  · intro t e _ _ _ v h; cases h
  · intro t v _ h v' e; cases e; exact h

theorem valueText_fragment {t v} (h : ValueText go t v) (s : Srt) (i : Nat) : Fragment s (mapOps (pickOp i) v) → (showValue (mapOps (pickOp i) v)).length ≤ t.length := by
  refine ValueText.rec (go := go) (motive_1 := fun t v _ => Fragment s (mapOps (pickOp i) v) → (showValue (mapOps (pickOp i) v)).length ≤ t.length)
    (motive_2 := fun t ops _ => Fragments s (mapOpss (pickOp i) (argsOf ops)) → (showArgs (mapOpss (pickOp i) (argsOf ops))).length ≤ t.length)
    (motive_3 := fun t o _ => ∀ v, o = .arg v → Fragment s (mapOps (pickOp i) v) → (showValue (mapOps (pickOp i) v)).length ≤ t.length) ?_ ?_ ?_ ?_ ?_ ?_ ?_ ?_ h
  · intro t v h hf
    cases h with
    | var h => simp [mapOps, showValue]
    | placeholder => simp [mapOps, showValue]
    | call => simp only [mapOps] at hf; cases hf
  · intro bt b s0 op ot ops et ell tt tr s1 _ _ _ _ _ _ _ ih hf
    simp only [mapOps] at hf ⊢
    obtain ⟨⟨b1, b2, b3, b4, b5, b6⟩, o, r, -, -, -, -, has⟩ := fragment_sexpr_iff.1 hf
    have h1 := ih has
    have h2 := pickOp_le i op
    simp only at b1 b2 b3 b4 b5 b6
    simp only [showValue, b1, b2, b3, b4, b5, b6, showBinding, showType, showAuxInt, showAux, List.length_append, List.length_cons, List.length_nil, if_true, List.nil_append]
    simp only [Bool.false_eq_true, if_false, List.length_nil]
    omega
  · intro _; simp [argsOf, mapOpss, showArgs]
  · intro s' t o rest os hs _ _ h1 h2 hf
    have hs1 : 1 ≤ s'.length := by
      have := hs.2
      cases s' with
      | nil => exact absurd rfl this
      | cons => simp
    simp only [List.length_append]
    cases o with
    | arg v =>
      have e : argsOf (.arg v :: os) = v :: argsOf os := rfl
      rw [e] at hf ⊢
      simp only [mapOpss] at hf ⊢
      obtain ⟨f1, f2⟩ := fragments_cons_iff.1 hf
      have k1 := h1 v rfl f1
      have k2 := h2 f2
      simp only [showArgs, List.length_cons, List.length_append]
      omega
    | _ => have := h2 hf; exact Nat.le_trans this (by omega)
  · intro t _ _ v h; cases h
  · intro t e _ _ _ v h; cases h
  · intro t e _ _ _ v h; cases h
  · intro t v _ h v' e; cases e; exact h

/-- Length of the generator's script, 0 if it rejects the rule. -/
def scriptLen (r : Rule) : Nat := match generate r with | .ok s => s.length | _ => 0

theorem ruleText_script {t r} (h : RuleText go t r) (i : Nat) : scriptLen (pickRule i r) ≤ 36 * t.length + 165 := by
  unfold scriptLen
  split
  · rename_i s hg
    obtain ⟨ty, -, h1, rfl⟩ := generate_ok_iff.1 hg
    have h2 := script_le h1
    obtain ⟨hc, hb, -, hm, hr⟩ := h1
    cases h with
    | mk tm tc tb tr =>
      have k1 := valueText_fragment tm _ i hm
      have k2 := valueText_fragment tr _ i hr
      simp only [pickRule, mapRuleOps] at hc hb h2 ⊢
      subst hc; subst hb
      simp only [showRule, showCond, showBlock, List.length_append, List.length_cons, List.length_nil, if_true, List.nil_append] at h2 ⊢
      omega
  · omega

theorem ruleText_count {t r} (h : RuleText go t r) : count (ruleSizes r) ≤ t.length := by
  cases h with
  | @mk mt m ct c bt b rt r tm tc tb tr =>
    have h1 := valueText_sizes tm
    have h2 := valueText_sizes tr
    unfold count
    cases hc : ruleSizes ⟨m, c, b, r⟩ with
    | nil => simp; omega
    | cons n l =>
      have : n ∈ ruleSizes ⟨m, c, b, r⟩ := by rw [hc]; simp
      simp only [ruleSizes, List.mem_append] at this
      simp only [List.headD_cons, List.length_append, List.length_cons]
      rcases this with h | h
      · have := h1 n h; omega
      · have := h2 n h; omega

theorem ruleText_total {t r} (h : RuleText go t r) : ((expansion r).map scriptLen).sum ≤ t.length * (36 * t.length + 165) := by
  have h1 := flat_le scriptLen (36 * t.length + 165) (expansion r) fun a ha => by
    simp only [expansion, List.mem_map] at ha
    obtain ⟨i, -, rfl⟩ := ha
    exact ruleText_script h i
  rw [expansion_length] at h1
  exact Nat.le_trans h1 (Nat.mul_le_mul_right _ (ruleText_count h))

theorem super {a b c d : Nat} (h1 : c ≤ a * (36 * a + 165)) (h2 : d ≤ b * (36 * b + 165)) : c + d ≤ (a + b) * (36 * (a + b) + 165) := by
  have e : (a + b) * (36 * (a + b) + 165) = a * (36 * a + 165) + b * (36 * b + 165) + 36 * (a * b) + 36 * (b * a) := by
    rw [Nat.add_mul, Nat.mul_add a, Nat.mul_add b, Nat.mul_add a, Nat.mul_add b, Nat.mul_left_comm a 36 (a + b), Nat.mul_left_comm b 36 (a + b), Nat.mul_add a a b, Nat.mul_add b a b,
      Nat.mul_left_comm a 36 a, Nat.mul_left_comm b 36 b]
    omega
  rw [e]; omega

theorem super_mono {a b : Nat} (h : a ≤ b) : a * (36 * a + 165) ≤ b * (36 * b + 165) := Nat.mul_le_mul h (by omega)

/-- For any selection of the rules of a file. -/
theorem fileText_total (q : Rule → Bool) {t rs} (h : FileText go t rs) : (((rs.filter q).flatMap expansion).map scriptLen).sum ≤ t.length * (36 * t.length + 165) := by
  induction h with
  | nil => simp
  | @cons s0 t r s1 rest rs _ hr _ _ _ ih =>
    have h1 := ruleText_total hr
    rw [List.filter_cons]
    simp only [List.length_append]
    split
    · rw [List.flatMap_cons, List.map_append, List.sum_append]
      refine Nat.le_trans (super h1 ih) (super_mono (by omega))
    · exact Nat.le_trans ih (super_mono (by omega))
end

theorem utf8_length_le (cs : Str) : cs.length ≤ (utf8 cs).length := by
  induction cs with
  | nil => simp
  | cons c cs ih =>
    have h : utf8 (c :: cs) = String.utf8EncodeChar c ++ utf8 cs := by simp [utf8]
    have h1 : 1 ≤ (String.utf8EncodeChar c).length := by rw [String.length_utf8EncodeChar]; exact Char.utf8Size_pos c
    rw [h, List.length_append, List.length_cons]; omega

theorem verified_total {lib inputs files} (h : Loads lib inputs files) :
    ((verified files).map scriptLen).sum ≤ (inputs.map fun i => i.data.length).sum * (36 * (inputs.map fun i => i.data.length).sum + 165) := by
  classical
  have e : verified files = ((allRules files).filter fun r => decide (Simple r)).flatMap expansion := rfl
  rw [e]
  clear e
  generalize (fun r => decide (Simple r)) = q
  induction h with
  | nil => simp [allRules]
  | @cons inp f inps fs _ _ _ hp _ ih =>
    obtain ⟨cs, hcs, hf⟩ := parse_bytes_sound hp
    have h1 := fileText_total q hf
    have h2 : cs.length ≤ inp.data.length := by rw [hcs]; exact utf8_length_le cs
    have h3 := Nat.le_trans h1 (super_mono h2)
    simp only [allRules, List.flatMap_cons, List.filter_append, List.flatMap_append, List.map_append, List.sum_append, List.map_cons, List.sum_cons] at ih ⊢
    exact super h3 ih

theorem rulesEvents_total (outdir : Str) (rs : List Rule) : ∀ i, ((writesOf (rulesEvents outdir i rs)).map fun w => w.2.length).sum = (rs.map scriptLen).sum := by
  induction rs with
  | nil => intro i; rfl
  | cons r rs ih =>
    intro i
    simp only [rulesEvents, writesOf_append, List.map_append, List.sum_append, ih, List.map_cons, List.sum_cons]
    congr 1
    unfold ruleEvents scriptLen
    cases generate r <;> simp [writesOf]

theorem fileText_number (q : Rule → Bool) {go t rs} (h : FileText go t rs) : ((rs.filter q).flatMap expansion).length ≤ t.length := by
  induction h with
  | nil => simp
  | @cons s0 t r s1 rest rs _ hr _ _ _ ih =>
    have h1 := ruleText_count hr
    rw [List.filter_cons]
    simp only [List.length_append]
    split
    · rw [List.flatMap_cons, List.length_append, expansion_length]; omega
    · omega

theorem verified_number {lib inputs files} (h : Loads lib inputs files) : (verified files).length ≤ (inputs.map fun i => i.data.length).sum := by
  classical
  have e : verified files = ((allRules files).filter fun r => decide (Simple r)).flatMap expansion := rfl
  rw [e]
  clear e
  generalize (fun r => decide (Simple r)) = q
  induction h with
  | nil => simp [allRules]
  | @cons inp f inps fs _ _ _ hp _ ih =>
    obtain ⟨cs, hcs, hf⟩ := parse_bytes_sound hp
    have h1 := fileText_number q hf
    have h2 : cs.length ≤ inp.data.length := by rw [hcs]; exact utf8_length_le cs
    simp only [allRules, List.flatMap_cons, List.filter_append, List.flatMap_append, List.length_append, List.map_cons, List.sum_cons] at ih ⊢
    omega

theorem rulesEvents_number (outdir : Str) (rs : List Rule) : ∀ i, (writesOf (rulesEvents outdir i rs)).length ≤ rs.length := by
  induction rs with
  | nil => intro i; simp [rulesEvents, writesOf]
  | cons r rs ih =>
    intro i
    have := ih (i + 1)
    have h : (writesOf (ruleEvents outdir i r)).length ≤ 1 := by
      unfold ruleEvents
      cases generate r <;> simp [writesOf]
    simp only [rulesEvents, writesOf_append, List.length_append, List.length_cons]
    omega

end Verif.Proof

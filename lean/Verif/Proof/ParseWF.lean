import Verif.Proof.ParseMain
import Verif.Proof.GoTree
import Verif.Spec.WellFormed
import Verif.Spec.Expand
/-!
# Consequences of the language description
-/
namespace Verif.Proof
open Verif Verif.Spec

section
variable {lib : GoLib}

theorem goText_eq (lib : GoLib) : goText lib = GoText lib := by
  funext t e; exact propext goexprParse_ok_iff

/-! ## Well-formedness -/

theorem exprText_wf {go t v} (hgo : ∀ t e, go t e → GoClean e) (h : ExprText go t v) : ValueWF v := by
  cases h with
  | var h => exact .inl h
  | placeholder => exact .inr rfl
  | call _ _ _ _ _ hg => exact hgo _ _ hg

theorem valuesWF_append {a b : List Value} : ValuesWF (a ++ b) ↔ ValuesWF a ∧ ValuesWF b := by
  induction a with
  | nil => simp [ValuesWF]
  | cons v a ih => simp [ValuesWF, ih, and_assoc]

def OperandWF : Operand → Prop
  | .type t => '>' ∉ t
  | .auxInt e => GoClean e
  | .aux e => GoClean e
  | .arg v => ValueWF v

theorem argsOf_wf {ops : List Operand} (h : ∀ o ∈ ops, OperandWF o) : ValuesWF (argsOf ops) := by
  induction ops with
  | nil => trivial
  | cons o ops ih =>
    have h1 := h o (by simp)
    have h2 := ih (fun o ho => h o (by simp [ho]))
    cases o with
    | arg v => exact ⟨h1, h2⟩
    | _ => exact h2

theorem lastType_wf {ops : List Operand} (h : ∀ o ∈ ops, OperandWF o) : '>' ∉ lastType ops := by
  unfold lastType
  cases hl : (typesOf ops).getLast? with
  | none => simp
  | some t =>
    have := List.mem_of_getLast? hl
    simp only [typesOf, List.mem_filterMap] at this
    obtain ⟨o, ho, hot⟩ := this
    cases o with
    | type t' => simp at hot; subst hot; exact h _ ho
    | _ => simp at hot

theorem lastAuxInt_wf {ops : List Operand} (h : ∀ o ∈ ops, OperandWF o) : OptClean (lastAuxInt ops) := by
  cases hl : lastAuxInt ops with
  | none => trivial
  | some t =>
    unfold lastAuxInt at hl
    have := List.mem_of_getLast? hl
    simp only [List.mem_filterMap] at this
    obtain ⟨o, ho, hot⟩ := this
    cases o with
    | auxInt t' => simp at hot; subst hot; exact h _ ho
    | _ => simp at hot

theorem lastAux_wf {ops : List Operand} (h : ∀ o ∈ ops, OperandWF o) : OptClean (lastAux ops) := by
  cases hl : lastAux ops with
  | none => trivial
  | some t =>
    unfold lastAux at hl
    have := List.mem_of_getLast? hl
    simp only [List.mem_filterMap] at this
    obtain ⟨o, ho, hot⟩ := this
    cases o with
    | aux t' => simp at hot; subst hot; exact h _ ho
    | _ => simp at hot

theorem valueText_wf {go : Str → GoExpr → Prop} (hgo : ∀ t e, go t e → GoClean e) {t v} (h : ValueText go t v) : ValueWF v := by
  refine ValueText.rec (go := go) (motive_1 := fun _ v _ => ValueWF v) (motive_2 := fun _ ops _ => ∀ o ∈ ops, OperandWF o)
    (motive_3 := fun _ o _ => OperandWF o) ?_ ?_ ?_ ?_ ?_ ?_ ?_ ?_ h
  · intro t v h; exact exprText_wf hgo h
  · intro bt b s0 op ot ops et ell tt tr s1 hb _ ho _ _ _ _ this
    refine ⟨?_, ho, lastType_wf this, lastAuxInt_wf this, lastAux_wf this, argsOf_wf this⟩
    cases hb with
    | none => exact .inl rfl
    | some h => exact .inr h
  · simp
  · intro s t o rest os _ _ _ h1 h2 o' h
    rcases List.mem_cons.1 h with rfl | h
    · exact h1
    · exact h2 o' h
  · intro t _ h; exact h
  · intro t e _ _ h; exact hgo _ _ h
  · intro t e _ _ h; exact hgo _ _ h
  · intro t v _ h; exact h

theorem ruleText_wf {go : Str → GoExpr → Prop} (hgo : ∀ t e, go t e → GoClean e) {t r} (h : RuleText go t r) : RuleWF r := by
  cases h with
  | mk hm hc hb hr =>
    refine ⟨valueText_wf hgo hm, ?_, ?_, valueText_wf hgo hr⟩
    · cases hc with
      | none => trivial
      | some _ _ _ _ _ _ _ _ hg => exact hgo _ _ hg
    · cases hb with
      | none => simp
      | some _ _ h _ _ => exact h

theorem fileText_wf {go : Str → GoExpr → Prop} (hgo : ∀ t e, go t e → GoClean e) {t rs} (h : FileText go t rs) : ∀ r ∈ rs, RuleWF r := by
  induction h with
  | nil => simp
  | cons _ hr _ _ _ ih =>
    intro r hm
    rcases List.mem_cons.1 hm with rfl | hm
    · exact ruleText_wf hgo hr
    · exact ih r hm

theorem parse_wf {bs f} (h : parseBytes lib bs = .ok f) : ∀ r ∈ f.rules, RuleWF r := by
  obtain ⟨cs, -, hf⟩ := parse_bytes_sound h
  rw [goText_eq] at hf
  exact fileText_wf (fun _ _ => goText_clean) hf

/-! ## Well-formed rules are meaningful and printable -/

theorem opWF_alt {ps} (h : OpWF (.parts ps)) : ∃ cs, OpPart.alt cs ∈ ps := by
  obtain ⟨h1, h2, h3, h4⟩ := h
  match ps, h1, h2, h3, h4 with
  | .alt cs :: ps, _, _, _, _ => exact ⟨cs, by simp⟩
  | .nil :: ps, _, h2, _, _ => exact absurd (h2 .nil (by simp)) (by simp [PartWF])
  | [.opcode s], _, _, _, h4 => exact absurd rfl (h4 s)
  | .opcode s :: .alt cs :: ps, _, _, _, _ => exact ⟨cs, by simp⟩
  | .opcode s :: .nil :: ps, _, h2, _, _ => exact absurd (h2 .nil (by simp)) (by simp [PartWF])
  | .opcode s :: .opcode s' :: ps, _, _, h3, _ => exact absurd ⟨rfl, rfl⟩ h3.1

theorem opWF_meaningful {o} (h : OpWF o) : OpMeaningful o := by
  cases o with
  | opcode s => trivial
  | nil => exact h
  | parts ps =>
    refine ⟨fun hn => ?_, opWF_alt h, fun cs hcs => (h.2.1 _ hcs).1⟩
    exact h.2.1 _ hn

mutual
theorem valueWF_meaningful : ∀ {v}, ValueWF v → .nil ∉ valuesOf v ∧ ∀ o ∈ opsOf v, OpMeaningful o
  | .var _, _ => by simp [valuesOf, opsOf]
  | .expr _, _ => by simp [valuesOf, opsOf]
  | .nil, h => absurd h (by simp [ValueWF])
  | .sexpr h args, hw => by
    obtain ⟨_, ho, _, _, _, ha⟩ := hw
    have := valuesWF_meaningful ha
    simp only [valuesOf, opsOf, List.mem_cons]
    refine ⟨?_, ?_⟩
    · rintro (h | h)
      · simp at h
      · exact this.1 h
    · rintro o (rfl | ho')
      · exact opWF_meaningful ho
      · exact this.2 o ho'
theorem valuesWF_meaningful : ∀ {vs}, ValuesWF vs → .nil ∉ valuesOfs vs ∧ ∀ o ∈ opsOfs vs, OpMeaningful o
  | [], _ => by simp [valuesOfs, opsOfs]
  | v :: vs, h => by
    have h1 := valueWF_meaningful h.1
    have h2 := valuesWF_meaningful h.2
    simp only [valuesOfs, opsOfs, List.mem_append]
    constructor
    · rintro (h | h)
      · exact h1.1 h
      · exact h2.1 h
    · rintro o (h | h)
      · exact h1.2 o h
      · exact h2.2 o h
end

theorem ruleWF_meaningful {r} (h : RuleWF r) : RuleMeaningful r :=
  ⟨valueWF_meaningful h.1, valueWF_meaningful h.2.2.2⟩

theorem opWF_printable {o} (h : OpWF o) : opPrintable o = true := by
  cases o with
  | opcode s => rfl
  | nil => exact absurd h (by simp [OpWF])
  | parts ps =>
    simp only [opPrintable, List.all_eq_true, bne_iff_ne]
    rintro p hp rfl
    exact h.2.1 _ hp

theorem optClean_supported {o} (h : OptClean o) : goSupportedOpt o = true := by
  cases o with
  | none => rfl
  | some e => exact h.1

mutual
theorem valueWF_printable : ∀ {v}, ValueWF v → valuePrintable v = true
  | .var _, _ => rfl
  | .expr _, h => h.1
  | .nil, h => absurd h (by simp [ValueWF])
  | .sexpr h args, hw => by
    obtain ⟨_, ho, _, h1, h2, ha⟩ := hw
    simp [valuePrintable, opWF_printable ho, optClean_supported h1, optClean_supported h2, valuesWF_printable ha]
theorem valuesWF_printable : ∀ {vs}, ValuesWF vs → valuesPrintable vs = true
  | [], _ => rfl
  | v :: vs, h => by simp [valuesPrintable, valueWF_printable h.1, valuesWF_printable h.2]
end

theorem ruleWF_printable {r} (h : RuleWF r) : rulePrintable r = true := by
  simp [rulePrintable, valueWF_printable h.1, optClean_supported h.2.1, valueWF_printable h.2.2.2]

/-! ## Skipped text around a file -/

theorem fileText_nil {go cs} (h : FileText go cs []) : cs = [] := by cases h; rfl

theorem file_front {go cs rs s} (h : FileText go cs rs) (hs : Skip s) (hne : rs ≠ []) : FileText go (s ++ cs) rs := by
  cases h with
  | nil => exact absurd rfl hne
  | @cons s0 t r s1 rest rs h0 hr h1 hf hfi =>
    have : s ++ (s0 ++ t ++ s1 ++ rest) = (s ++ s0) ++ t ++ s1 ++ rest := by simp
    rw [this]
    exact .cons (skip_append hs h0) hr h1 hf hfi

theorem cont_of_skip {s : Str} (hs : Skip s) : Cont s := by
  have := cont_skip (rest := []) hs (by intro c hc; simp at hc)
  simpa using this

theorem follow_extend_cont {s1 rest rs rt r s} (hr : ValueText (goText lib) rt r) (h1 : Skip s1) (hf : FileText (goText lib) rest rs)
    (hfo : Follow r (s1 ++ rest)) (hs : Cont s) : Follow r (s1 ++ rest ++ s) := by
  cases r with
  | var x =>
    rw [Follow] at hfo ⊢
    by_cases hx : x = ['_']
    · rw [if_pos hx] at hfo ⊢
      cases he : s1 ++ rest with
      | nil =>
        rw [List.nil_append]; intro hc
        have := (hs _ hc).1; revert this; decide
      | cons c cs => rw [he] at hfo; simpa using hfo
    · rw [if_neg hx] at hfo ⊢
      rcases valueText_var hr x rfl with h | h
      · obtain ⟨k1, -, k3⟩ := okay_of_follow (u := s) h h1 hf (fun _ => hs) hfo.1 hfo.2
        exact ⟨k1, fun hc => call_callLike h hc _ k3⟩
      · exact absurd h hx
  | _ => trivial

theorem follow_extend {s1 rest rs rt r s} (hr : ValueText (goText lib) rt r) (h1 : Skip s1) (hf : FileText (goText lib) rest rs)
    (hfo : Follow r (s1 ++ rest)) (hs : Skip s) : Follow r (s1 ++ rest ++ s) := follow_extend_cont hr h1 hf hfo (cont_of_skip hs)

/-- One file text after another, with skipped text between them. -/
theorem file_concat {a b rs rs' s} (h : FileText (goText lib) a rs) (h' : FileText (goText lib) b rs') (hs : Skip1 s) (hne : rs ≠ [] ∨ rs' ≠ []) :
    FileText (goText lib) (a ++ s ++ b) (rs ++ rs') := by
  have hcont : Cont (s ++ b) := by
    rcases skip_cases hs.1 with rfl | ⟨d, t, rfl, hd⟩
    · exact absurd rfl hs.2
    · refine cont_cons ?_
      rcases hd with hd | rfl
      · exact ⟨blank_not_word hd, (blank_facts hd).1, (blank_facts hd).2.1⟩
      · decide
  induction h with
  | nil =>
    rcases hne with hne | hne
    · exact absurd rfl hne
    · exact file_front h' hs.1 hne
  | @cons s0 t r s1 rest rs h0 hr h1 hf hfi ih =>
    have hfo : Follow r.result (s1 ++ rest ++ (s ++ b)) := by
      cases hr with
      | mk _ _ _ hrt => exact follow_extend_cont hrt h1 hfi hf hcont
    by_cases hrs : rs = [] ∧ rs' = []
    · obtain ⟨rfl, rfl⟩ := hrs
      have := fileText_nil hfi
      subst this
      have := fileText_nil h'
      subst this
      have e : s0 ++ t ++ s1 ++ [] ++ s ++ [] = s0 ++ t ++ (s1 ++ s) ++ [] := by simp
      rw [e]
      exact .cons h0 hr (skip_append h1 hs.1) (by simpa using hfo) .nil
    · have e : s0 ++ t ++ s1 ++ rest ++ s ++ b = s0 ++ t ++ s1 ++ (rest ++ s ++ b) := by simp
      rw [e]
      refine .cons h0 hr h1 (by simpa using hfo) (ih ?_)
      by_cases h1 : rs = []
      · exact .inr fun h2 => hrs ⟨h1, h2⟩
      · exact .inl h1

theorem file_back {cs rs s} (h : FileText (goText lib) cs rs) (hs : Skip s) (hne : rs ≠ []) : FileText (goText lib) (cs ++ s) rs := by
  induction h with
  | nil => exact absurd rfl hne
  | @cons s0 t r s1 rest rs h0 hr h1 hf hfi ih =>
    have hfo : Follow r.result (s1 ++ rest ++ s) := by
      cases hr with
      | mk _ _ _ hrt => exact follow_extend hrt h1 hfi hf hs
    by_cases hrs : rs = []
    · subst hrs
      have := fileText_nil hfi
      subst this
      have e : s0 ++ t ++ s1 ++ [] ++ s = s0 ++ t ++ (s1 ++ s) ++ [] := by simp
      rw [e]
      exact .cons h0 hr (skip_append h1 hs) (by simpa using hfo) .nil
    · have e : s0 ++ t ++ s1 ++ rest ++ s = s0 ++ t ++ s1 ++ (rest ++ s) := by simp
      rw [e]
      exact .cons h0 hr h1 (by simpa using hfo) (ih hrs)

end
end Verif.Proof

import Verif.Spec.ReadBack
import Verif.Proof.Roundtrip
import Verif.Proof.Smt2Gen
import Verif.Proof.ParseMain
/-!
# Reading a script's rule back (C75)
-/
namespace Verif.Proof
open Verif Verif.Spec Verif.Spec.Smt Verif.Spec.Ssa

/-! ## The line -/

theorem takeWhile_line {a x : Str} (h : '\n' ∉ a) : (a ++ '\n' :: x).takeWhile (· ≠ '\n') = a := by
  induction a with
  | nil => rfl
  | cons c a ih =>
    simp only [List.mem_cons, not_or] at h
    rw [List.cons_append, List.takeWhile_cons, if_pos (by simpa using fun e => h.1 e.symm), ih h.2]

theorem dropLine_line {a x : Str} (h : '\n' ∉ a) : dropLine (a ++ '\n' :: x) = x := by
  unfold dropLine
  induction a with
  | nil => rfl
  | cons c a ih =>
    simp only [List.mem_cons, not_or] at h
    rw [List.cons_append, List.dropWhile_cons, if_pos (by simpa using fun e => h.1 e.symm), ih h.2]

theorem preamble_two : ∃ a b : Str, preamble = a ++ '\n' :: (b ++ ['\n']) ∧ '\n' ∉ a ∧ '\n' ∉ b :=
  ⟨"(set-info :smt-lib-version 2.6)".toList, "(set-logic QF_BV)".toList, by decide, by decide, by decide⟩

theorem ruleLine_script {text post : Str} (h : '\n' ∉ text) : ruleLine (preamble ++ ("; ".toList ++ text ++ "\n".toList) ++ post) = some text := by
  obtain ⟨a, b, e, ha, hb⟩ := preamble_two
  have e1 : preamble ++ ("; ".toList ++ text ++ "\n".toList) ++ post = a ++ '\n' :: (b ++ '\n' :: ((';' :: ' ' :: text) ++ '\n' :: post)) := by
    rw [e]; simp [List.append_assoc]
  unfold ruleLine
  rw [e1, dropLine_line ha, dropLine_line hb, takeWhile_line (by simpa using h)]
  rfl

/-! ## The text -/

unseal rows in
theorem rows_word : ∀ r ∈ rows, r.o.toList ≠ [] ∧ ∀ c ∈ r.o.toList, isWordChar c = true := by decide

variable {go : Str → GoExpr → Prop}

mutual
theorem frag_text {s : Srt} : ∀ {v : Value}, Fragment s v → (∀ x ∈ vars v, Ident x ∨ x = ['_']) → ValueText go (showValue v) v
  | _, .var x, hv => by
    rcases hv x (by simp [vars]) with h | rfl
    · exact .expr (.var h)
    · exact .expr .placeholder
  | _, .sexpr (h := h) (o := o) (args := args) hb ho hm _ _ has, hv => by
    have hops := frags_text has (fun x hx => hv x (by simpa [vars] using hx))
    have hw : Word o := by
      rw [meaning_rows] at hm
      cases hr : rowOf o with
      | none => rw [hr] at hm; simp at hm
      | some r =>
        have := rowOf_mem hr
        rw [← this.2]
        exact rows_word r this.1
    have key := ValueText.sexpr (go := go) (b := []) (s0 := []) (op := .opcode o) (s1 := []) .none skip_nil' hw hops .none .none skip_nil'
    have e1 := lastType_ops [] none none args
    have e2 := lastAuxInt_ops [] none none args
    have e3 := lastAux_ops [] none none args
    have e4 := argsOf_ops [] none none args
    simp only [typeOps, auxIntOps, auxOps, if_true, List.nil_append, List.append_nil] at e1 e2 e3 e4
    rw [e1, e2, e3, e4] at key
    obtain ⟨h1, h2, h3, h4, h5, h6⟩ := hb
    obtain ⟨b, op, ty, ai, au, el, tr⟩ := h
    simp only at h1 h2 h3 h4 h5 h6 ho
    subst h1 h2 h3 h4 h5 h6 ho
    simpa [showValue, showBinding, showType, showAuxInt, showAux] using key
theorem frags_text {s : Srt} : ∀ {vs : List Value}, Fragments s vs → (∀ x ∈ varss vs, Ident x ∨ x = ['_']) → OperandsText go (showArgs vs) (vs.map .arg)
  | _, .nil, _ => .nil
  | _, .cons h hs, hv => by
    have := operands_append (operands_one (.arg (frag_text h fun x hx => hv x (by simp [varss, hx])))) (frags_text hs fun x hx => hv x (by simp [varss, hx]))
    simpa [showArgs] using this
end

theorem fragRule_text {s : Srt} {r : Rule} (h : RuleFragment s r) (hv : ∀ x ∈ ruleVars r, Ident x ∨ x = ['_']) : RuleText go (showRule r) r := by
  obtain ⟨hc, hb, _, hm, hr⟩ := h
  obtain ⟨m, c, b, res⟩ := r
  simp only at hc hb hm hr
  subst hc hb
  have := RuleText.mk (frag_text (go := go) hm fun x hx => hv x (by simp [ruleVars, hx])) (.none skip_blank) (.none skip_blank)
    (frag_text (go := go) hr fun x hx => hv x (by simp [ruleVars, hx]))
  simpa [showRule, showCond, showBlock] using this

theorem follow_newline (v : Value) (rest : Str) : Follow v ('\n' :: rest) := by
  cases v with
  | var v =>
    simp only [Follow, List.head?_cons]
    split
    · simp
    · refine ⟨by intro c hc; simp at hc; subst hc; decide, ?_⟩
      rintro ⟨s0, x, s1, rest, e, -⟩
      simp at e
  | _ => trivial

theorem follow_end (v : Value) : Follow v [] := by
  cases v with
  | var v =>
    simp only [Follow, List.head?_nil]
    split
    · simp
    · refine ⟨by simp, ?_⟩
      rintro ⟨s0, x, s1, rest, e, -⟩
      simp at e
  | _ => trivial

theorem fragFile_text : ∀ {rs : List Rule}, (∀ r ∈ rs, (∃ s, RuleFragment s r) ∧ ∀ x ∈ ruleVars r, Ident x ∨ x = ['_']) →
    FileText go (rs.flatMap fun r => showRule r ++ ['\n']) rs
  | [], _ => .nil
  | r :: rs, h => by
    obtain ⟨⟨s, h0⟩, h1⟩ := h r (by simp)
    have h2 := fragFile_text (rs := rs) fun r hr => h r (by simp [hr])
    have := FileText.cons (go := go) skip_nil' (fragRule_text h0 h1) skip_newline (follow_newline r.result _) h2
    simpa using this

end Verif.Proof

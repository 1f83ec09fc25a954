import Verif.Proof.Smt2Gen
/-!
# Proofs about the SMT generator: execution and meaning of the script
-/
namespace Verif

open Verif.Spec Verif.Spec.Smt Verif.Spec.Ssa

theorem commands_append : ∀ (a b : List SExp) (σ : Session), commands σ (a ++ b) = (commands σ a).bind fun σ' => commands σ' b
  | [], b, σ => by simp [commands]
  | e :: es, b, σ => by
    simp only [List.cons_append, commands]
    cases command σ e with
    | none => rfl
    | some σ' => simpa using commands_append es b σ'

theorem parseSort_exp (t : GoType) : parseSort (sortExp t) = some (srt t) := by cases t <;> decide

theorem command_header : commands {} header = some { logic := true } := by rfl

def declsOf (t : GoType) (names : List Str) : List (Str × Srt) := names.map fun x => (x, srt t)

theorem command_decl (t : GoType) (x : Str) (σ : Session) :
    command σ (declCmd t x) = if σ.exited = false ∧ σ.logic = true ∧ legalName x = true ∧ x ∉ σ.decls.map (·.1) then
      some { σ with decls := σ.decls ++ [(x, srt t)] } else none := by
  unfold declCmd command
  simp only
  cases hE : σ.exited with
  | true => rw [if_pos rfl, if_neg (by simp)]
  | false =>
    rw [if_neg (by simp), if_neg (by decide), if_neg (by decide), if_pos trivial, parseSort_exp]
    simp only
    by_cases h : σ.logic = true ∧ legalName x = true ∧ x ∉ σ.decls.map (·.1)
    · rw [if_pos h, if_pos ⟨trivial, h⟩]
    · rw [if_neg h, if_neg (fun hh => h hh.2)]

theorem commands_decls (t : GoType) : ∀ (names : List Str) (σ : Session), σ.exited = false → σ.logic = true →
    (σ.decls.map (·.1) ++ names).Nodup →
    commands σ (names.map (declCmd t)) = if ∀ x ∈ names, legalName x = true then
      some { σ with decls := σ.decls ++ declsOf t names } else none
  | [], σ, _, _, _ => by simp [commands, declsOf]
  | x :: names, σ, he, hl, hn => by
    simp only [List.map_cons, commands]
    rw [command_decl]
    have hx : x ∉ σ.decls.map (·.1) := by
      rw [List.nodup_append] at hn
      intro hmem
      exact hn.2.2 x hmem x (by simp) rfl
    by_cases hleg : legalName x = true
    · rw [if_pos ⟨he, hl, hleg, hx⟩]
      simp only [Option.bind_some]
      rw [commands_decls t names { σ with decls := σ.decls ++ [(x, srt t)] } he hl (by simpa using hn)]
      by_cases hall : ∀ y ∈ names, legalName y = true
      · rw [if_pos hall, if_pos (by simpa [hleg] using hall)]
        simp [declsOf]
      · rw [if_neg hall, if_neg (by simpa [hleg] using hall)]
    · rw [if_neg (fun h => hleg h.2.2.1), if_neg (fun h => hleg (h x (by simp)))]
      rfl

theorem find_decl {t : GoType} {names : List Str} {x : Str} (h : x ∈ names) :
    (declsOf t names).find? (fun d => d.1 == x) = some (x, srt t) := by
  unfold declsOf
  rw [List.find?_map]
  cases hf : names.find? ((fun d : Str × Srt => d.1 == x) ∘ fun x => (x, srt t)) with
  | none =>
    rw [List.find?_eq_none] at hf
    have := hf x h
    simp at this
  | some y =>
    have := List.find?_some hf
    simp at this
    subst this
    rfl

theorem sortOf_app (d : List (Str × Srt)) (f : Str) (args : List SExp) :
    sortOf d (.list (.atom f :: args)) = (sortsOf d args).bind (resultSort f) := by simp [sortOf]

theorem sortOf_shape (d : List (Str × Srt)) (sh : Shape) (args : List SExp) :
    sortOf d (sh.term args) = (sortsOf d args).bind sh.rank := by
  cases sh with
  | app f => rw [Shape.term, sortOf_app]; rfl
  | neq =>
    rw [Shape.term, sortOf_app, sortsOf, sortOf_app]
    unfold Shape.rank
    generalize "=".toList = a
    generalize "not".toList = b
    cases sortsOf d args with
    | none => rfl
    | some ss =>
      simp only [Option.bind_some]
      cases resultSort a ss <;> simp [sortsOf]

mutual
theorem sortOf_term {t : GoType} {names : List Str} : ∀ {v : Value}, Fragment (srt t) v → (∀ x ∈ vars v, x ∈ names) →
    sortOf (declsOf t names) (termOf v) = some (srt t)
  | _, .var x, hv => by
    rw [termOf, sortOf, find_decl (hv x (by simp [vars]))]
    rfl
  | _, .sexpr (h := h) (o := o) (args := args) hb ho hm hs ha has, hv => by
    have ih := sortsOf_terms has (by simpa [vars] using hv)
    rw [meaning_rows] at hm
    cases hr : rowOf o with
    | none => rw [hr] at hm; simp at hm
    | some r =>
      rw [hr] at hm
      simp at hm
      subst hm
      have hg := rows_good1 r (rowOf_mem hr).1
      have hk := rows_rank r (rowOf_mem hr).1
      simp only [termOf, ho, hr]
      rw [sortOf_shape, ih, Option.bind_some, ← ha, hg.2.2.1, ← hs, hg.2.1, hk]
theorem sortsOf_terms {t : GoType} {names : List Str} : ∀ {vs : List Value}, Fragments (srt t) vs → (∀ x ∈ varss vs, x ∈ names) →
    sortsOf (declsOf t names) (termsOf vs) = some (List.replicate vs.length (srt t))
  | _, .nil, _ => rfl
  | _, .cons h hs, hv => by
    rw [termsOf, sortsOf, sortOf_term h (fun x hx => hv x (by simp [varss, hx])),
      sortsOf_terms hs (fun x hx => hv x (by simp [varss, hx]))]
    simp [List.replicate_succ]
end

theorem sortOf_claim {t : GoType} {r : Rule} (h : RuleFragment (srt t) r) :
    sortOf (declsOf t (declNames r)) (claim r) = some .bool := by
  obtain ⟨_, _, _, hm, hr⟩ := h
  have i1 := sortOf_term (names := declNames r) hm (fun x hx => mem_declNames.2 (by simp [ruleVars, hx]))
  have i2 := sortOf_term (names := declNames r) hr (fun x hx => mem_declNames.2 (by simp [ruleVars, hx]))
  unfold claim
  rw [sortOf_app, sortsOf, sortOf_app, sortsOf, sortsOf, sortsOf, i1, i2, sortsOf]
  have e1 : ∀ s : Srt, resultSort "=".toList [s, s] = some .bool := by intro s; simp [resultSort]
  simp only [Option.bind_some, Option.map_some, e1]
  decide

/-- The state after a complete script. -/
def finalSession (t : GoType) (r : Rule) : Session where
  logic := true
  decls := declsOf t (declNames r)
  asserts := [claim r]
  queries := [⟨declsOf t (declNames r), [claim r]⟩]
  exited := true

theorem command_assert (σ : Session) (t : SExp) (h : σ.exited = false) (hl : σ.logic = true) (hs : sortOf σ.decls t = some .bool) :
    command σ (.list [.atom "assert".toList, t]) = some { σ with asserts := σ.asserts ++ [t] } := by
  unfold command
  simp only
  rw [if_neg (by simp [h]), if_neg (by decide), if_neg (by decide), if_neg (by decide), if_pos trivial]
  simp [hl, hs]

theorem command_check (σ : Session) (h : σ.exited = false) (hl : σ.logic = true) :
    command σ checkSat = some { σ with queries := σ.queries ++ [⟨σ.decls, σ.asserts⟩] } := by
  unfold command checkSat
  simp only
  rw [if_neg (by simp [h]), if_neg (by decide), if_neg (by decide), if_neg (by decide), if_neg (by decide), if_pos trivial]
  simp [hl]

theorem command_exit (σ : Session) (h : σ.exited = false) :
    command σ exitCmd = some { σ with exited := true } := by
  unfold command exitCmd
  simp only
  rw [if_neg (by simp [h]), if_neg (by decide), if_neg (by decide), if_neg (by decide), if_neg (by decide), if_neg (by decide), if_pos trivial]

theorem commands_script {t : GoType} {r : Rule} (h : RuleFragment (srt t) r) :
    commands {} (header ++ body t r) = if ∀ x ∈ ruleVars r, legalName x = true then some (finalSession t r) else none := by
  rw [commands_append, command_header, Option.bind_some, body, commands_append, commands_decls t _ _ rfl rfl (by simpa using declNames_nodup r)]
  simp only [mem_declNames]
  split
  · simp only [Option.bind_some, commands]
    unfold assertCmd
    rw [command_assert]
    · rw [Option.bind_some, command_check _ rfl rfl, Option.bind_some, command_exit _ rfl]
      simp [finalSession]
    · rfl
    · rfl
    · simpa using sortOf_claim h
  · rfl

theorem symChar_atom {c : Char} (h : isSymChar c = true) : isAtomChar c = true := by simp [isAtomChar, h]

theorem symChar_noline {c : Char} (h : isSymChar c = true) : c ≠ '\r' ∧ c ≠ '\n' := by
  constructor <;> (rintro rfl; revert h; decide)

theorem legalName_good {x : Str} (h : legalName x = true) : goodName x ∧ ∀ c ∈ x, isSymChar c = true := by
  simp only [legalName, Bool.and_eq_true, List.all_eq_true] at h
  obtain ⟨⟨⟨h1, h2⟩, _⟩, _⟩ := h
  refine ⟨⟨?_, fun c hc => symChar_atom (h1 c hc)⟩, h1⟩
  rintro rfl
  simp at h2

/-- Names made of symbol characters. -/
def plainName (x : Str) : Prop := x ≠ [] ∧ ∀ c ∈ x, isSymChar c = true

theorem execute_script {t : GoType} {r : Rule} (h : RuleFragment (srt t) r) (hv : ∀ x ∈ ruleVars r, plainName x) :
    execute (scriptText t r) = if ∀ x ∈ ruleVars r, legalName x = true then some (finalSession t r) else none := by
  unfold execute
  have hn := showRule_nolines h (fun x hx c hc => symChar_noline ((hv x hx).2 c hc))
  rw [readAll_script h (fun hc => (hn _ hc).1 rfl) (fun x hx => ⟨(hv x hx).1, fun c hc => symChar_atom ((hv x hx).2 c hc)⟩), Option.bind_some,
    commands_script h]

/-! ## Meaning -/

theorem evalTerm_app (env : Str → Val) (f : Str) (args : List SExp) :
    evalTerm env (.list (.atom f :: args)) = (evalTerms env args).bind (applySym f) := by simp [evalTerm]

theorem evalTerm_shape (env : Str → Val) (sh : Shape) (args : List SExp) :
    evalTerm env (sh.term args) = (evalTerms env args).bind sh.apply := by
  cases sh with
  | app f => rw [Shape.term, evalTerm_app]; rfl
  | neq =>
    rw [Shape.term, evalTerm_app, evalTerms, evalTerm_app]
    unfold Shape.apply
    generalize "=".toList = a
    generalize "not".toList = b
    cases evalTerms env args with
    | none => rfl
    | some vs =>
      simp only [Option.bind_some]
      cases applySym a vs <;> simp [evalTerms]

mutual
theorem eval_term {s : Srt} (env : Str → Val) : ∀ {v : Value}, Fragment s v → (∀ x ∈ vars v, (env x).sort = s) →
    ∃ a, eval env v = some a ∧ evalTerm env (termOf v) = some a ∧ a.sort = s
  | _, .var x, hv => ⟨env x, rfl, by simp [termOf, evalTerm], hv x (by simp [vars])⟩
  | _, .sexpr (h := h) (o := o) (args := args) hb ho hm hs ha has, hv => by
    obtain ⟨as, h1, h2, h3, h4⟩ := eval_terms env has (by simpa [vars] using hv)
    have hm' := hm
    rw [meaning_rows] at hm
    cases hr : rowOf o with
    | none => rw [hr] at hm; simp at hm
    | some r =>
      rw [hr] at hm
      simp at hm
      subst hm
      have hmem := (rowOf_mem hr).1
      have hg := rows_good1 r hmem
      have hsr : s = srt r.t := by rw [← hs, hg.2.1]
      obtain ⟨e1, a, e2, e3⟩ := rows_apply r hmem as (by rw [h3, ← ha, hg.2.2.1]) (by rw [← hsr]; exact h4)
      refine ⟨a, ?_, ?_, by rw [e3, hsr]⟩
      · simp only [eval, ho, hm', h1, Option.bind_some, e2]
      · simp only [termOf, ho, hr]
        rw [evalTerm_shape, h2, Option.bind_some, e1, e2]
theorem eval_terms {s : Srt} (env : Str → Val) : ∀ {vs : List Value}, Fragments s vs → (∀ x ∈ varss vs, (env x).sort = s) →
    ∃ as, evals env vs = some as ∧ evalTerms env (termsOf vs) = some as ∧ as.length = vs.length ∧ ∀ a ∈ as, a.sort = s
  | _, .nil, _ => ⟨[], rfl, rfl, rfl, by simp⟩
  | _, .cons h hs, hv => by
    obtain ⟨a, h1, h2, h3⟩ := eval_term env h (fun x hx => hv x (by simp [varss, hx]))
    obtain ⟨as, g1, g2, g3, g4⟩ := eval_terms env hs (fun x hx => hv x (by simp [varss, hx]))
    refine ⟨a :: as, by simp [evals, h1, g1], by simp [termsOf, evalTerms, h2, g2], by simp [g3], ?_⟩
    intro b hb
    rcases List.mem_cons.1 hb with rfl | hb
    · exact h3
    · exact g4 b hb
end

mutual
/-- If an expression of the fragment has a value of its sort, its variables have values of that sort. -/
theorem eval_sorted {s : Srt} (env : Str → Val) : ∀ {v : Value}, Fragment s v → ∀ {a}, eval env v = some a → a.sort = s →
    ∀ x ∈ vars v, (env x).sort = s
  | _, .var x, a, he, hs => by
    simp only [eval, Option.some.injEq] at he
    subst he
    simpa [vars] using hs
  | _, .sexpr (h := h) (o := o) (args := args) hb ho hm hs ha has, a, he, _ => by
    simp only [eval, ho, hm, Option.bind_some] at he
    cases hes : evals env args with
    | none => rw [hes] at he; simp at he
    | some as =>
      rw [hes, Option.bind_some] at he
      have := (apply_sorts he).2
      rw [hs] at this
      exact evals_sorted env has hes this
theorem evals_sorted {s : Srt} (env : Str → Val) : ∀ {vs : List Value}, Fragments s vs → ∀ {as}, evals env vs = some as →
    (∀ a ∈ as, a.sort = s) → ∀ x ∈ varss vs, (env x).sort = s
  | _, .nil, _, _, _ => by simp [varss]
  | v :: vs, .cons h hs, as, he, hss => by
    simp only [evals] at he
    cases h1 : eval env v with
    | none => rw [h1] at he; simp at he
    | some a =>
      cases h2 : evals env vs with
      | none => rw [h1, h2] at he; simp at he
      | some as' =>
        rw [h1, h2] at he
        simp at he
        subst he
        intro x hx
        simp only [varss, List.mem_append] at hx
        rcases hx with hx | hx
        · exact eval_sorted env h h1 (hss a (by simp)) x hx
        · exact evals_sorted env hs h2 (fun b hb => hss b (by simp [hb])) x hx
end

theorem evalTerm_claim {env : Str → Val} {r : Rule} {a b : Val} (ha : evalTerm env (termOf r.match) = some a)
    (hb : evalTerm env (termOf r.result) = some b) (hs : a.sort = b.sort) : evalTerm env (claim r) = some (.bool (!decide (a = b))) := by
  unfold claim
  rw [evalTerm_app, evalTerms, evalTerm_app, evalTerms, evalTerms, evalTerms, ha, hb, evalTerms]
  have e1 : applySym "=".toList [a, b] = some (.bool (decide (a = b))) := by simp [applySym, hs]
  simp only [Option.bind_some, Option.map_some, e1]
  simp [applySym]

theorem sat_iff {t : GoType} {r : Rule} (h : RuleFragment (srt t) r) :
    ¬ Sat ⟨declsOf t (declNames r), [claim r]⟩ ↔ Valid r := by
  obtain ⟨_, _, ⟨hd, args, hmm⟩, hm, hr⟩ := h
  constructor
  · intro hns env a b ha hb hab
    have has : a.sort = srt t := by
      rw [hmm] at ha hm
      cases hm with
      | sexpr h1 ho hme hs har hargs =>
        simp only [eval, ho, hme, Option.bind_some] at ha
        cases hes : evals env args with
        | none => rw [hes] at ha; simp at ha
        | some as =>
          rw [hes, Option.bind_some] at ha
          rw [(apply_sorts ha).1, hs]
    have hv1 := eval_sorted env hm ha has
    have hv2 := eval_sorted env hr hb (by rw [← hab, has])
    obtain ⟨a', e1, e2, _⟩ := eval_term env hm hv1
    obtain ⟨b', f1, f2, _⟩ := eval_term env hr hv2
    rw [ha] at e1; rw [hb] at f1
    simp only [Option.some.injEq] at e1 f1
    subst e1 f1
    refine Classical.byContradiction fun hne => hns ⟨env, ?_, ?_⟩
    · intro d hd
      simp only [declsOf, List.mem_map, mem_declNames, ruleVars, List.mem_append] at hd
      obtain ⟨x, hx, rfl⟩ := hd
      exact hx.elim (hv1 x) (hv2 x)
    · intro c hc
      simp at hc
      subst hc
      rw [evalTerm_claim e2 f2 hab]
      simp [hne]
  · rintro hval ⟨env, hd, hc⟩
    have hs : ∀ x ∈ ruleVars r, (env x).sort = srt t := by
      intro x hx
      exact hd (x, srt t) (by simp only [declsOf, List.mem_map]; exact ⟨x, mem_declNames.2 hx, rfl⟩)
    obtain ⟨a, e1, e2, e3⟩ := eval_term env hm (fun x hx => hs x (by simp [ruleVars, hx]))
    obtain ⟨b, f1, f2, f3⟩ := eval_term env hr (fun x hx => hs x (by simp [ruleVars, hx]))
    have hsort : a.sort = b.sort := by rw [e3, f3]
    have := hval env a b e1 f1 hsort
    have h2 := hc (claim r) (by simp)
    rw [evalTerm_claim e2 f2 hsort] at h2
    simp [this] at h2

end Verif

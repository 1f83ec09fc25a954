import Verif.Proof.Solver
import Verif.Props.Disk
import Verif.Props.Smt2
/-!
# What an `unsat` answer means when something went wrong (C76)

Solvers that stop or go on after errors, and scripts cut off anywhere, as in Spec/Solver.  `¬ Sat q` is what a correct solver means by `unsat`.
-/
namespace Verif.Props
open Verif Verif.Spec Verif.Spec.Smt Verif.Spec.Ssa Verif.Proof Verif.Proof.Solver

theorem asked_begin {keep : Session → SExp → Bool} {r : Rule} {t : GoType} (hF : RuleFragment (srt t) r) (hn : ∀ x ∈ ruleVars r, x ≠ [] ∧ ∀ c ∈ x, isSymChar c = true)
    {part : Str} (hp : part <+: scriptText t r) {q : Query} (hq : Asked keep part q) :
    ∃ es, es <+: header ++ body t r ∧ q ∈ (solve keep {} es).queries := by
  obtain ⟨a, es, h1, h2, h3⟩ := hq
  have hnl := showRule_nolines hF (fun x hx c hc => symChar_noline ((hn x hx).2 c hc))
  have hs := readAll_script (t := t) hF (fun hc => (hnl _ hc).1 rfl) (fun x hx => ⟨(hn x hx).1, fun c hc => symChar_atom ((hn x hx).2 c hc)⟩)
  exact ⟨es, readAll_begins (h1.trans hp) h2 hs (script_lists t r), h3⟩

/-- C76.  If all names are legal, whatever part of the script a solver was given and however it treats errors, the only query it can come to answer is the query of the complete script:
satisfiable exactly if the rule is not valid. -/
theorem C76_legal (r : Rule) (s : Str) (hg : generate r = .ok s) (hl : ∀ x ∈ ruleVars r, legalName x = true) (keep : Session → SExp → Bool) (part : Str) (hp : part <+: s)
    (q : Query) (hq : Asked keep part q) : (∃ σ, execute s = some σ ∧ σ.queries = [q]) ∧ (Sat q ↔ ¬ Valid r) := by
  obtain ⟨t, _, hF, rfl⟩ := generate_ok_iff.1 hg
  have hn : ∀ x ∈ ruleVars r, plainName x := fun x hx => ⟨(legalName_good (hl x hx)).1.1, (legalName_good (hl x hx)).2⟩
  obtain ⟨es, hes, hq⟩ := asked_begin hF hn hp hq
  obtain ⟨rest, he⟩ := hes
  have hc := commands_script hF
  rw [if_pos hl, ← he, commands_append] at hc
  cases h1 : commands {} es with
  | none => rw [h1] at hc; simp at hc
  | some σ =>
    rw [h1, Option.bind_some] at hc
    rw [solve_commands keep es {} σ h1] at hq
    have hq' : q ∈ (finalSession t r).queries := (commands_queries rest σ _ hc).subset hq
    simp only [finalSession, List.mem_singleton] at hq'
    subst hq'
    refine ⟨⟨finalSession t r, ?_, rfl⟩, ?_⟩
    · rw [execute_script hF hn, if_pos hl]
    · have := sat_iff hF
      constructor
      · exact fun hs hv => this.2 hv hs
      · exact fun hv => Classical.byContradiction fun hs => hv (this.1 hs)

/-- C76.  If some name is not legal (`_`, `let`, …), every query a solver can come to answer is satisfiable, whatever the rule: it never answers `unsat`. -/
theorem C76_illegal (r : Rule) (s : Str) (hg : generate r = .ok s) (hn : ∀ x ∈ ruleVars r, x ≠ [] ∧ ∀ c ∈ x, isSymChar c = true) (hl : ¬ ∀ x ∈ ruleVars r, legalName x = true)
    (keep : Session → SExp → Bool) (part : Str) (hp : part <+: s) (q : Query) (hq : Asked keep part q) : Sat q := by
  obtain ⟨t, _, hF, rfl⟩ := generate_ok_iff.1 hg
  obtain ⟨es, hes, hq⟩ := asked_begin hF hn hp hq
  obtain ⟨h1, h2⟩ := (blank_script hl keep hes).queries q hq
  exact sat_blank h1 h2

/-- C76.  So `unsat` is never wrong: if a solver answers `unsat` after it was given the script of a rule, or a beginning of it, and whatever errors it ignored, the rule is valid. -/
theorem C76_unsat_never_wrong (r : Rule) (s : Str) (hg : generate r = .ok s) (hn : ∀ x ∈ ruleVars r, x ≠ [] ∧ ∀ c ∈ x, isSymChar c = true)
    (keep : Session → SExp → Bool) (part : Str) (hp : part <+: s) (q : Query) (hq : Asked keep part q) (hu : ¬ Sat q) : Valid r := by
  by_cases hl : ∀ x ∈ ruleVars r, legalName x = true
  · exact Classical.byContradiction fun hv => hu ((C76_legal r s hg hl keep part hp q hq).2.2 hv)
  · exact absurd (C76_illegal r s hg hn hl keep part hp q hq) hu

/-- C76.  The natural stronger claim, that `sat` means that the rule is not valid, is false: a solver that goes on after errors answers `sat` for the script of the valid rule
`(And8 _ _) => _`. -/
theorem C76_sat_may_be_wrong : ∃ s, generate wildRule = .ok s ∧ Valid wildRule ∧ ∃ q, Asked (fun _ _ => true) s q ∧ Sat q := by
  obtain ⟨t, ht, hF, hs⟩ := generate_ok_iff.1 C38_instance
  have hl : ¬ ∀ x ∈ ruleVars wildRule, legalName x = true := by
    intro h
    have := h ['_'] (by decide)
    revert this
    decide
  have hn : ∀ x ∈ ruleVars wildRule, x ≠ [] ∧ ∀ c ∈ x, isSymChar c = true := by decide
  refine ⟨_, C38_instance, ?_, ?_⟩
  · intro env a b ha hb _
    have h1 : eval env wildRule.match = (meaning "And8".toList).bind fun m => m.apply [env ['_'], env ['_']] := rfl
    have h2 : eval env wildRule.result = some (env ['_']) := rfl
    rw [h2, Option.some.injEq] at hb
    rw [h1, mAnd8, Option.bind_some] at ha
    subst hb
    revert ha
    generalize env ['_'] = v
    intro ha
    cases v with
    | bool b => simp [Meaning.apply] at ha
    | bits w x =>
      simp only [Meaning.apply] at ha
      by_cases hw : w = 8
      · subst hw
        simpa using ha.symm
      · simp [hw] at ha
  · rw [hs]
    have hnl := showRule_nolines hF (fun x hx c hc => symChar_noline ((hn x hx).2 c hc))
    have hr := readAll_script (t := t) hF (fun hc => (hnl _ hc).1 rfl) (fun x hx => ⟨(hn x hx).1, fun c hc => symChar_atom ((hn x hx).2 c hc)⟩)
    have hq : (solve (fun _ _ => true) {} (header ++ body t wildRule)).queries.length = 1 := by cases t <;> decide +kernel
    obtain ⟨q, hq⟩ := List.exists_mem_of_ne_nil _ (List.ne_nil_of_length_pos (by rw [hq]; decide : 0 < (solve (fun _ _ => true) {} (header ++ body t wildRule)).queries.length))
    have ha : Asked (fun _ _ => true) (scriptText t wildRule) q := ⟨_, _, List.prefix_rfl, hr, hq⟩
    exact ⟨q, ha, C76_illegal wildRule _ (hs ▸ C38_instance) hn hl _ _ List.prefix_rfl q ha⟩

/-! ## On disk -/

theorem utf8_prefix {a s : Str} {bs : List UInt8} (h : utf8 a <+: bs) (h' : bs <+: utf8 s) : a <+: s := by
  obtain ⟨rest, e⟩ := h.trans h'
  have := congrArg decode e
  rw [decode_utf8_append, decode_utf8] at this
  have hp : (a.map Sym.ok) <+: (s.map Sym.ok) := ⟨_, this⟩
  rw [List.prefix_iff_eq_take, List.length_map, ← List.map_take] at hp
  rw [List.prefix_iff_eq_take]
  exact (List.map_inj_right (fun x y h => by simpa using h)).1 hp

/-- The file at the place of rule number `i`, if there is one, is a beginning of the script of that rule. -/
theorem history_beginning (lib : GoLib) (cwd : List Str) (outdir : Str) (inputs : List Input) (files : List File) (hl : Loads lib inputs files) (i : Nat) (p : List Str)
    (hp : IsScriptPlace cwd outdir i p) : ∀ (runs : List ((List (Str × Str) → Option Err) × Nat)) (d : Disk),
    (∀ bs, d p = some bs → ∃ s, HasScript files i s ∧ bs <+: utf8 s) →
    ∀ bs, history lib cwd outdir inputs runs d p = some bs → ∃ s, HasScript files i s ∧ bs <+: utf8 s
  | [], d, hd, bs, h => hd bs h
  | r :: runs, d, hd, bs, h => by
    refine history_beginning lib cwd outdir inputs files hl i p hp runs (stopped lib cwd outdir inputs r.1 r.2 d) ?_ bs (by simpa [history] using h)
    intro bs hbs
    rcases C47_stopped lib r.1 cwd outdir inputs r.2 d with e | ⟨files', hl', m, h1, h2, h3⟩
    · rw [e] at hbs
      exact hd bs hbs
    · cases loads_unique hl hl'
      by_cases hx : ∃ i' s, i' ≤ m ∧ HasScript files i' s ∧ IsScriptPlace cwd outdir i' p
      · obtain ⟨i', s, hi, hs, hp'⟩ := hx
        have : i' = i := place_inj ((isScriptPlace_iff.1 hp').symm.trans (isScriptPlace_iff.1 hp))
        subst this
        by_cases hm : i' < m
        · rw [h1 i' s p hm hs hp'] at hbs
          simp only [Option.some.injEq] at hbs
          exact ⟨s, hs, hbs ▸ List.prefix_rfl⟩
        · have : i' = m := by omega
          subst this
          rcases h2 p hp' with e | ⟨s', part, hs', hpart, e⟩
          · rw [e] at hbs
            exact hd bs hbs
          · rw [e] at hbs
            simp only [Option.some.injEq] at hbs
            exact ⟨s', hs', hbs ▸ hpart⟩
      · rw [h3 p hx] at hbs
        exact hd bs hbs

/-- C76.  On disk: whatever runs of the command on the same inputs there were, each stopped anywhere or failed, if there was no file at the place of rule number `i` before, then
a solver given the file that is there now (complete, cut off, even in the middle of a character) answers `unsat` only if the rule is valid. -/
theorem C76_disk (lib : GoLib) (cwd : List Str) (outdir : Str) (inputs : List Input) (runs : List ((List (Str × Str) → Option Err) × Nat)) (d : Disk) (files : List File)
    (hl : Loads lib inputs files) (i : Nat) (r : Rule) (hi : (verified files)[i]? = some r) (p : List Str) (hp : IsScriptPlace cwd outdir i p) (hd : d p = none)
    (bs : List UInt8) (hbs : history lib cwd outdir inputs runs d p = some bs) (keep : Session → SExp → Bool) (q : Query) (hq : AskedFile keep bs q) (hu : ¬ Sat q) :
    Valid r := by
  obtain ⟨s, ⟨r', hr', hg⟩, hb⟩ := history_beginning lib cwd outdir inputs files hl i p hp runs d (fun bs h => by rw [hd] at h; simp at h) bs hbs
  rw [hi] at hr'
  cases hr'
  obtain ⟨a, es, h1, h2, h3⟩ := hq
  refine C76_unsat_never_wrong r s hg ?_ keep s List.prefix_rfl q ⟨a, es, utf8_prefix h1 hb, h2, h3⟩ hu
  obtain ⟨r0, h0, j, hj, rfl⟩ := mem_verified (List.mem_of_getElem? hi)
  rw [pickRule_vars]
  exact fun x hx => var_sym (ruleWF_vars (loads_wf hl r0 (simpleRules_sub h0).1) x hx)

/-! ## Cases that meet the hypotheses -/

theorem asked_of {keep : Session → SExp → Bool} {a : Str} (h : (readAll a).map (fun es => (solve keep {} es).queries.length) = some 1) :
    ∃ es q, readAll a = some es ∧ q ∈ (solve keep {} es).queries := by
  cases hr : readAll a with
  | none => rw [hr] at h; simp at h
  | some es =>
    rw [hr, Option.map_some, Option.some.injEq] at h
    obtain ⟨q, hq⟩ := List.exists_mem_of_ne_nil _ (List.ne_nil_of_length_pos (by rw [h]; decide : 0 < (solve keep {} es).queries.length))
    exact ⟨es, q, rfl, hq⟩

/-- The example run of Props/Cmd.lean in an empty directory, stopped in the middle of the last command of the script with number 1, for `(Add16 x y) => (Add16 y x)`: the file is a proper
beginning of the script, and a solver given this file can have answered a query. -/
example : ∃ bs q, history demoLib [] cmdOut cmdInputs [(cmdFine, 404)] (fun _ => none) ["out".toList, "0001.smt2".toList] = some bs ∧ bs ≠ utf8 cmdScript ∧
    AskedFile (fun _ _ => false) bs q := by
  obtain ⟨es, q, h1, h2⟩ := asked_of (keep := fun _ _ => false) (a := cmdScript.take 198) (by decide +kernel)
  refine ⟨(utf8 cmdScript).take 201, q, by decide +kernel, by decide +kernel, _, es, ?_, h1, h2⟩
  rw [List.prefix_iff_eq_take]
  decide +kernel

/-- The script of `(Sub8 (Add8 x y) y) => x` without its last line -/
def subText : Str := "(set-info :smt-lib-version 2.6)\n(set-logic QF_BV)\n; (Sub8 (Add8 x y) y) => x\n(declare-const x (_ BitVec 8))\n(declare-const y (_ BitVec 8))\n(assert (not (= (bvsub (bvadd x y) y) x)))\n(check-sat)\n".toList

/-- A solver given this text answers a query, and it is unsatisfiable. -/
example : ∃ s q, generate subAdd = .ok s ∧ subText <+: s ∧ subText ≠ s ∧ Asked (fun _ _ => true) subText q ∧ ¬ Sat q := by
  have hg : generate subAdd = .ok (subText ++ "(exit)\n".toList) := by decide +kernel
  obtain ⟨es, q, h1, h2⟩ := asked_of (keep := fun _ _ => true) (a := subText) (by decide +kernel)
  have ha : Asked (fun _ _ => true) subText q := ⟨_, es, List.prefix_rfl, h1, h2⟩
  have hp := List.prefix_append subText "(exit)\n".toList
  exact ⟨_, q, hg, hp, by decide +kernel, ha, fun hsat => (C76_legal subAdd _ hg (by decide) _ _ hp q ha).2.1 hsat subAdd_valid⟩

end Verif.Props

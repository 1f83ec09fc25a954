import Verif.Proof.Rewrite
import Verif.Props.Cmd
/-!
# What the verdicts are good for: rewriting with certified rules (C66), names of variables (C67)
-/
namespace Verif.Props

open Verif Verif.Spec Verif.Proof Verif.Spec.Smt Verif.Spec.Ssa

/-! ## C66 -/

/-- A rule is certified: the generator returns a script for it, its names are legal in SMT-LIB, and a solver that executes the script finds every query unsatisfiable. -/
def Certified (r : Rule) : Prop :=
  ∃ s σ, generate r = .ok s ∧ (∀ x ∈ ruleVars r, legalName x = true) ∧ execute s = some σ ∧ ∀ q ∈ σ.queries, ¬ Sat q

theorem certified_valid {r : Rule} (h : Certified r) : (∃ so, RuleFragment so r) ∧ Valid r := by
  obtain ⟨s, σ, hg, hl, he, hq⟩ := h
  obtain ⟨σ', q, h1, h2, h3⟩ := C32_script_decides_rule r s hg hl
  rw [he] at h1
  simp only [Option.some.injEq] at h1
  subst h1
  exact ⟨(C34_accepts_iff r).1 ⟨s, hg⟩, h3.1 (hq q (by simp [h2]))⟩

/-- C66.  Rewriting with certified rules whose results use only variables of their matches: any number of steps, with any of the rules, with anything put
for the variables, at any place of any expression.  If the expression has a value, the new expression has the same value. -/
theorem C66_rewriting (rules : List Rule) (hc : ∀ r ∈ rules, Certified r ∧ Bound r) (e e' : Value) (hs : Steps rules e e') (env : Str → Val) (a : Val)
    (he : eval env e = some a) : eval env e' = some a := by
  refine steps_sound (fun r hr => ?_) env hs he
  obtain ⟨h1, h2⟩ := hc r hr
  obtain ⟨⟨so, h3⟩, h4⟩ := certified_valid h1
  exact ⟨so, h3, h4, h2⟩

/-- C66, for the command.  After a successful run, rewriting with any of the (expanded, simple) rules of the input files for which the run has written a script
that is legal and unsatisfiable preserves values. -/
theorem C66_command (lib : GoLib) (ans : List (Str × Str) → Option Err) (outdir : Str) (inputs : List Input) (tr : List Event)
    (hr : runCmd lib ans outdir inputs = (tr, .ok ())) (files : List File) (hl : Loads lib inputs files)
    (rules : List Rule) (hrules : ∀ r ∈ rules, Bound r ∧ ∃ (i : Nat) (s : Str) (σ : Session), (verified files)[i]? = some r ∧
      (joinPath outdir (scriptName i), s) ∈ writesOf tr ∧ execute s = some σ ∧ ∀ q ∈ σ.queries, ¬ Sat q)
    (e e' : Value) (hs : Steps rules e e') (env : Str → Val) (a : Val) (he : eval env e = some a) : eval env e' = some a := by
  refine C66_rewriting rules (fun r hm => ?_) e e' hs env a he
  obtain ⟨hb, i, s, σ, h1, h2, hσ, hq⟩ := hrules r hm
  refine ⟨?_, hb⟩
  obtain ⟨r', h3, hg⟩ := (C41_written_iff lib ans outdir inputs tr hr files hl i s).1 h2
  rw [h1] at h3
  simp only [Option.some.injEq] at h3
  subst h3
  obtain ⟨r0, h0, j, _, rfl⟩ := mem_verified (List.mem_of_getElem? h1)
  have hn : ∀ x ∈ ruleVars (pickRule j r0), x ≠ [] ∧ ∀ c ∈ x, isSymChar c = true := by
    rw [pickRule_vars]; exact fun x hx => var_sym (ruleWF_vars (loads_wf hl r0 (simpleRules_sub h0).1) x hx)
  exact ⟨s, σ, hg, (C37_legal_iff _ s hg hn).1 ⟨σ, hσ⟩, hσ, hq⟩

/-- C66, the other direction.  If the script of a rule is satisfiable, rewriting with the rule changes the value of some expression. -/
theorem C66_satisfiable (r : Rule) (s : Str) (hg : generate r = .ok s) (hl : ∀ x ∈ ruleVars r, legalName x = true)
    (σ : Session) (he : execute s = some σ) (q : Query) (hq : q ∈ σ.queries) (hsat : Sat q) :
    ∃ e e' env a b, Step [r] e e' ∧ eval env e = some a ∧ eval env e' = some b ∧ a.sort = b.sort ∧ a ≠ b := by
  obtain ⟨σ', q', h1, h2, h3⟩ := C32_script_decides_rule r s hg hl
  rw [he] at h1
  simp only [Option.some.injEq] at h1
  subst h1
  rw [h2, List.mem_singleton] at hq
  subst hq
  have hv : ¬ Valid r := fun h => h3.2 h hsat
  unfold Valid at hv
  simp only [Classical.not_forall] at hv
  obtain ⟨env, a, b, ha, hb, hab, hne⟩ := hv
  refine ⟨r.match, r.result, env, a, b, ?_, ha, hb, hab, hne⟩
  have := Step.here (rules := [r]) (r := r) Value.var (by simp)
  rwa [subst_var, subst_var] at this

/-- `(Sub8 (Add8 x y) y) => x` is certified … -/
theorem subAdd_certified : Certified subAdd ∧ Bound subAdd := by
  obtain ⟨s, hs⟩ := (C34_accepts_iff subAdd).2 ⟨_, subAdd_fragment⟩
  have hl : ∀ x ∈ ruleVars subAdd, legalName x = true := by decide
  obtain ⟨σ, q, h1, h2, h3⟩ := C32_script_decides_rule subAdd s hs hl
  refine ⟨⟨s, σ, hs, hl, h1, fun q' hq' => ?_⟩, by unfold Bound; decide⟩
  rw [h2, List.mem_singleton] at hq'
  subst hq'
  refine h3.2 ?_
  intro env a b ha hb hab
  have hsub : subAdd = { «match» := .sexpr { op := .opcode "Sub8".toList } [.sexpr { op := .opcode "Add8".toList } [.var ['x'], .var ['y']], .var ['y']], result := .var ['x'] } := rfl
  rw [hsub] at ha hb
  simp only [eval, evals, mSub8, mAdd8, Option.bind_some, Option.map_some] at ha hb
  simp only [Option.some.injEq] at hb
  subst hb
  generalize env ['x'] = vx at *
  generalize env ['y'] = vy at *
  cases vx with
  | bool => simp [Meaning.apply] at ha
  | bits w1 x =>
    cases vy with
    | bool => simp [Meaning.apply] at ha
    | bits w2 y =>
      by_cases h1 : w1 = 8
      · by_cases h2 : w2 = 8
        · subst h1 h2
          simp [Meaning.apply] at ha
          rw [← ha, BitVec.add_sub_cancel]
        · simp [Meaning.apply, h2] at ha
      · simp [Meaning.apply, h1] at ha

/-- … and rewrites `(Neg8 (Sub8 (Add8 (Neg8 z) w) w))` to `(Neg8 (Neg8 z))`. -/
example : Steps [subAdd]
    (.sexpr { op := .opcode "Neg8".toList } [.sexpr { op := .opcode "Sub8".toList }
      [.sexpr { op := .opcode "Add8".toList } [.sexpr { op := .opcode "Neg8".toList } [.var ['z']], .var ['w']], .var ['w']]])
    (.sexpr { op := .opcode "Neg8".toList } [.sexpr { op := .opcode "Neg8".toList } [.var ['z']]]) :=
  .step (.inside (pre := []) (post := []) (.here (r := subAdd) (fun n => if n = ['x'] then .sexpr { op := .opcode "Neg8".toList } [.var ['z']] else .var ['w'])
    (by simp))) (.done _)

/-- `(Add16 x y) => (Add16 y x)` -/
private def addComm : Rule where
  «match» := .sexpr { op := .opcode "Add16".toList } [.var ['x'], .var ['y']]
  result := .sexpr { op := .opcode "Add16".toList } [.var ['y'], .var ['x']]

private def boundB (r : Rule) : Bool := (vars r.result).all fun x => (vars r.match).contains x

/-- The hypotheses of `C66_command` are met in the example run of Props/Cmd.lean by the rule number 1, an expansion of `(Add(8|16) x y) => (Add(8|16) y x)`. -/
example : ∃ files r s σ, Loads demoLib cmdInputs files ∧ Bound r ∧ (verified files)[1]? = some r ∧
    (joinPath cmdOut (scriptName 1), s) ∈ writesOf (runCmd demoLib cmdFine cmdOut cmdInputs).1 ∧ execute s = some σ ∧ ∀ q ∈ σ.queries, ¬ Sat q := by
  have h : (runCmd demoLib cmdFine cmdOut cmdInputs).2 = .ok () := by
    have := congrArg Prod.snd cmd_fine
    simpa [cmdNames] using this
  have hrun : runCmd demoLib cmdFine cmdOut cmdInputs = ((runCmd demoLib cmdFine cmdOut cmdInputs).1, .ok ()) := Prod.ext rfl h
  have hw : (joinPath cmdOut (scriptName 1), cmdScript) ∈ writesOf (runCmd demoLib cmdFine cmdOut cmdInputs).1 := by decide +kernel
  have hld : (match (load demoLib cmdInputs).2 with | .ok f => f.rules[1]?.map boundB | _ => none) = some true := by decide +kernel
  cases hf : (load demoLib cmdInputs).2 with
  | err e => rw [hf] at hld; simp at hld
  | panic => rw [hf] at hld; simp at hld
  | ok f =>
    rw [hf] at hld
    obtain ⟨files, hl, rfl⟩ := C40_load_only demoLib cmdInputs f hf
    obtain ⟨r, h1, _⟩ := (C41_written_iff demoLib cmdFine cmdOut cmdInputs _ hrun files hl 1 cmdScript).1 hw
    simp only [h1, Option.map_some, Option.some.injEq] at hld
    have hg : generate addComm = .ok cmdScript := by decide +kernel
    obtain ⟨σ, q, e1, e2, e3⟩ := C32_script_decides_rule addComm cmdScript hg (by decide)
    refine ⟨files, r, cmdScript, σ, hl, ?_, h1, hw, e1, ?_⟩
    · intro x hx
      simpa using List.all_eq_true.1 hld x hx
    · intro q' hq'
      rw [e2, List.mem_singleton] at hq'
      subst hq'
      refine e3.2 fun env a b ha hb _ => ?_
      have hm : meaning "Add16".toList = some (.bin 16 fun x y => x + y) := rfl
      simp only [addComm, eval, evals, hm, Option.bind_some, Option.map_some] at ha hb
      generalize env ['x'] = vx at *
      generalize env ['y'] = vy at *
      cases vx with
      | bool => simp [Meaning.apply] at ha
      | bits w1 x =>
        cases vy with
        | bool => simp [Meaning.apply] at ha
        | bits w2 y =>
          by_cases h1 : w1 = 16
          · by_cases h2 : w2 = 16
            · subst h1 h2
              simp [Meaning.apply] at ha hb
              rw [← ha, ← hb, BitVec.add_comm]
            · simp [Meaning.apply, h2] at ha
          · simp [Meaning.apply, h1] at ha

/-! ## C67 -/

/-- C67.  Whether the generator accepts a rule does not depend on the names of its variables, nor on which of them are the same. -/
theorem C67_accepts (ρ : Str → Str) (r : Rule) : (∃ s, generate (renameRule ρ r) = .ok s) ↔ ∃ s, generate r = .ok s := by
  rw [C34_accepts_iff, C34_accepts_iff]
  simp only [ruleFragment_rename]

/-- C67.  Rules that differ only in the names of their variables get the same verdict. -/
theorem C67_same_verdict (ρ : Str → Str) (r : Rule) (s s' : Str) (hg : generate r = .ok s) (hg' : generate (renameRule ρ r) = .ok s')
    (hinj : ∀ x ∈ ruleVars r, ∀ y ∈ ruleVars r, ρ x = ρ y → x = y)
    (hl : ∀ x ∈ ruleVars r, legalName x = true) (hl' : ∀ x ∈ ruleVars r, legalName (ρ x) = true) :
    ∃ σ q σ' q', execute s = some σ ∧ σ.queries = [q] ∧ execute s' = some σ' ∧ σ'.queries = [q'] ∧ (Sat q ↔ Sat q') := by
  obtain ⟨σ, q, h1, h2, h3⟩ := C32_script_decides_rule r s hg hl
  obtain ⟨σ', q', g1, g2, g3⟩ := C32_script_decides_rule (renameRule ρ r) s' hg' (by
    rw [ruleVars_rename]
    intro x hx
    obtain ⟨y, hy, rfl⟩ := List.mem_map.1 hx
    exact hl' y hy)
  refine ⟨σ, q, σ', q', h1, h2, g1, g2, ?_⟩
  have : ¬ Sat q ↔ ¬ Sat q' := by
    rw [h3, g3]
    exact ⟨valid_rename ρ, valid_rename_inj ρ hinj⟩
  exact ⟨fun h => Classical.byContradiction fun hn => this.2 hn h, fun h => Classical.byContradiction fun hn => this.1 hn h⟩

/-- C67.  Making variables equal keeps a certified rule certified. -/
theorem C67_identify (ρ : Str → Str) (r : Rule) (hc : Certified r) (hl' : ∀ x ∈ ruleVars r, legalName (ρ x) = true) : Certified (renameRule ρ r) := by
  obtain ⟨s', hs'⟩ := (C67_accepts ρ r).2 (by obtain ⟨s, _, h, _⟩ := hc; exact ⟨s, h⟩)
  have hl : ∀ x ∈ ruleVars (renameRule ρ r), legalName x = true := by
    rw [ruleVars_rename]
    intro x hx
    obtain ⟨y, hy, rfl⟩ := List.mem_map.1 hx
    exact hl' y hy
  obtain ⟨σ', q', g1, g2, g3⟩ := C32_script_decides_rule (renameRule ρ r) s' hs' hl
  refine ⟨s', σ', hs', hl, g1, fun q hq => ?_⟩
  rw [g2, List.mem_singleton] at hq
  subst hq
  exact g3.2 (valid_rename ρ (certified_valid hc).2)

/-- C67.  But not the other way round: `(Sub8 x x) => (Sub8 x y)` is wrong, and right if `x` and `y` are the same. -/
theorem C67_identify_converse_false : ∃ (ρ : Str → Str) (r : Rule), Certified (renameRule ρ r) ∧ ¬ Certified r ∧
    (∃ s, generate r = .ok s) ∧ ∀ x ∈ ruleVars r, legalName x = true := by
  let sub (a b : Str) : Value := .sexpr { op := .opcode "Sub8".toList } [.var a, .var b]
  let r : Rule := { «match» := sub ['x'] ['x'], result := sub ['x'] ['y'] }
  have hF : RuleFragment (.bv 8) r := ⟨rfl, rfl, ⟨_, _, rfl⟩, .sexpr (bare _) rfl mSub8 rfl rfl (.cons (.var _) (.cons (.var _) .nil)),
    .sexpr (bare _) rfl mSub8 rfl rfl (.cons (.var _) (.cons (.var _) .nil))⟩
  have hl : ∀ x ∈ ruleVars r, legalName x = true := by decide
  refine ⟨fun _ => ['x'], r, ?_, ?_, (C34_accepts_iff r).2 ⟨_, hF⟩, hl⟩
  · have hF' := (ruleFragment_rename (.bv 8) (fun _ => ['x']) r).2 hF
    obtain ⟨s, hs⟩ := (C34_accepts_iff _).2 ⟨_, hF'⟩
    have hl' : ∀ x ∈ ruleVars (renameRule (fun _ => ['x']) r), legalName x = true := by decide
    obtain ⟨σ, q, h1, h2, h3⟩ := C32_script_decides_rule _ s hs hl'
    refine ⟨s, σ, hs, hl', h1, fun q' hq' => ?_⟩
    rw [h2, List.mem_singleton] at hq'
    subst hq'
    refine h3.2 ?_
    intro env a b ha hb _
    have : eval env (renameRule (fun _ => ['x']) r).match = eval env (renameRule (fun _ => ['x']) r).result := rfl
    rw [ha, hb] at this
    simpa using this
  · intro hc
    have := (certified_valid hc).2 (fun n => if n = ['x'] then .bits 8 1 else .bits 8 0) (.bits 8 0) (.bits 8 1) (by decide +kernel) (by decide +kernel) rfl
    revert this; decide

/-- the hypotheses of `C67_same_verdict` are met: `x` becomes `arg0`, `y` becomes `x` -/
example : ∃ s s', generate subAdd = .ok s ∧ generate (renameRule (fun n => if n = ['x'] then "arg0".toList else ['x']) subAdd) = .ok s' := by
  obtain ⟨s, hs⟩ := (C34_accepts_iff subAdd).2 ⟨_, subAdd_fragment⟩
  obtain ⟨s', hs'⟩ := (C67_accepts (fun n => if n = ['x'] then "arg0".toList else ['x']) subAdd).2 ⟨s, hs⟩
  exact ⟨s, s', hs, hs'⟩
example : let ρ : Str → Str := fun n => if n = ['x'] then "arg0".toList else ['x']
    (∀ x ∈ ruleVars subAdd, ∀ y ∈ ruleVars subAdd, ρ x = ρ y → x = y) ∧ ∀ x ∈ ruleVars subAdd, legalName (ρ x) = true := by decide

end Verif.Props

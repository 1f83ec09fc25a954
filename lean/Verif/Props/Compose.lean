import Verif.Proof.Compose
import Verif.Props.Rewrite
/-!
# Verdicts compose (C73)

`Certified r` (Props/Rewrite.lean): the generator returns a script for `r`, its names are legal in SMT-LIB, and the script is unsatisfiable.
-/
namespace Verif.Props

open Verif Verif.Spec Verif.Proof Verif.Proof.Compose Verif.Spec.Smt Verif.Spec.Ssa

theorem certified_of {r : Rule} {s : Str} (hg : generate r = .ok s) (hl : ∀ x ∈ ruleVars r, legalName x = true) (hv : Valid r) : Certified r := by
  obtain ⟨σ, q, h1, h2, h3⟩ := C32_script_decides_rule r s hg hl
  refine ⟨s, σ, hg, hl, h1, fun q' hq' => ?_⟩
  rw [h2, List.mem_singleton] at hq'
  subst hq'
  exact h3.2 hv

theorem certified_rules {rules : List Rule} (hc : ∀ r ∈ rules, Certified r) : ∀ r ∈ rules, ∃ so, RuleFragment so r ∧ Valid r := fun r hr => by
  obtain ⟨⟨so, h1⟩, h2⟩ := certified_valid (hc r hr)
  exact ⟨so, h1, h2⟩

/-- C73.  Steps with certified rules, forwards and backwards, in any number, at any place, with anything put for the variables: if the first and the last expression have values of one
sort, these are the same.  The expressions on the way need not have values; the rules may bring in new variables. -/
theorem C73_values (rules : List Rule) (hc : ∀ r ∈ rules, Certified r) (e e' : Value) (h : Connected rules e e') (env : Str → Val) (a b : Val)
    (ha : eval env e = some a) (hb : eval env e' = some b) (hs : a.sort = b.sort) : a = b :=
  connected_values (certified_rules hc) h env ha hb hs

/-- C73.  So whatever follows from certified rules by equational reasoning is certified: if the generator accepts a rule with legal names, and its match can be turned into its result by
steps with certified rules, forwards and backwards, then it is certified. -/
theorem C73_consequence (rules : List Rule) (hc : ∀ r ∈ rules, Certified r) (r : Rule) (h : Connected rules r.match r.result) (s : Str) (hg : generate r = .ok s)
    (hl : ∀ x ∈ ruleVars r, legalName x = true) : Certified r :=
  certified_of hg hl fun env a b ha hb hs => C73_values rules hc _ _ h env a b ha hb hs

/-- C73.  And if the script of such a rule is satisfiable, one of the rules used is not certified. -/
theorem C73_culprit (rules : List Rule) (r : Rule) (h : Connected rules r.match r.result) (s : Str) (hg : generate r = .ok s)
    (hl : ∀ x ∈ ruleVars r, legalName x = true) (σ : Session) (he : execute s = some σ) (q : Query) (hq : q ∈ σ.queries) (hsat : Sat q) :
    ∃ r' ∈ rules, ¬ Certified r' := by
  refine Classical.byContradiction fun hn => ?_
  obtain ⟨s', σ', hg', _, he', hq'⟩ := C73_consequence rules (fun r hr => Classical.byContradiction fun hc => hn ⟨r, hr, hc⟩) r h s hg hl
  rw [hg] at hg'
  cases hg'
  rw [he] at he'
  cases he'
  exact hq' q hq hsat

/-- C73, for the command.  After a successful run: if the match of one of the (expanded, simple) rules can be turned into its result with rules whose scripts are legal and
unsatisfiable, then its script, if one was written and it is legal, is unsatisfiable too. -/
theorem C73_command (lib : GoLib) (ans : List (Str × Str) → Option Err) (outdir : Str) (inputs : List Input) (tr : List Event)
    (hr : runCmd lib ans outdir inputs = (tr, .ok ())) (files : List File) (hf : Loads lib inputs files)
    (rules : List Rule) (hrules : ∀ r ∈ rules, ∃ (i : Nat) (s : Str) (σ : Session), (verified files)[i]? = some r ∧
      (joinPath outdir (scriptName i), s) ∈ writesOf tr ∧ execute s = some σ ∧ ∀ q ∈ σ.queries, ¬ Sat q)
    (i : Nat) (r : Rule) (hi : (verified files)[i]? = some r) (hc : Connected rules r.match r.result)
    (s : Str) (hs : (joinPath outdir (scriptName i), s) ∈ writesOf tr) (σ : Session) (he : execute s = some σ) : ∀ q ∈ σ.queries, ¬ Sat q := by
  have key : ∀ (i : Nat) (r : Rule) (s : Str) (σ : Session), (verified files)[i]? = some r → (joinPath outdir (scriptName i), s) ∈ writesOf tr → execute s = some σ →
      generate r = .ok s ∧ ∀ x ∈ ruleVars r, legalName x = true := by
    intro i r s σ h1 h2 h3
    obtain ⟨r', h4, hg⟩ := (C41_written_iff lib ans outdir inputs tr hr files hf i s).1 h2
    rw [h1] at h4
    simp only [Option.some.injEq] at h4
    subst h4
    obtain ⟨r0, h0, j, _, rfl⟩ := mem_verified (List.mem_of_getElem? h1)
    have hn : ∀ x ∈ ruleVars (pickRule j r0), x ≠ [] ∧ ∀ c ∈ x, isSymChar c = true := by
      rw [pickRule_vars]; exact fun x hx => var_sym (ruleWF_vars (loads_wf hf r0 (simpleRules_sub h0).1) x hx)
    exact ⟨hg, (C37_legal_iff _ s hg hn).1 ⟨σ, h3⟩⟩
  obtain ⟨hg, hl⟩ := key i r s σ hi hs he
  obtain ⟨s', σ', hg', _, he', hq⟩ := C73_consequence rules (fun r hm => by
    obtain ⟨i, s, σ, h1, h2, h3, h4⟩ := hrules r hm
    obtain ⟨g1, g2⟩ := key i r s σ h1 h2 h3
    exact ⟨s, σ, g1, g2, h3, h4⟩) r hc s hg hl
  rw [hg] at hg'
  cases hg'
  rw [he] at he'
  cases he'
  exact hq

/-- C73.  Reversed: a certified rule whose result is an S-expression is certified in the other direction. -/
theorem C73_reverse (r : Rule) (hc : Certified r) (hs : ∃ h args, r.result = .sexpr h args) : Certified (ruleFrom r.result r.match) := by
  obtain ⟨⟨so, hF⟩, hv⟩ := certified_valid hc
  obtain ⟨s, hg⟩ := (C34_accepts_iff (ruleFrom r.result r.match)).2 ⟨so, rfl, rfl, hs, hF.2.2.2.2, hF.2.2.2.1⟩
  obtain ⟨_, _, _, hl, _, _⟩ := hc
  refine certified_of hg (fun x hx => hl x ?_) (fun env a b ha hb hab => (hv env b a hb ha hab.symm).symm)
  simp only [ruleVars, ruleFrom, List.mem_append] at hx ⊢
  exact hx.symm

/-- C73.  One after the other: if the rules from `a` to `b` and from `b` to `c` are certified, so is the rule from `a` to `c`. -/
theorem C73_chain (a b c : Value) (h1 : Certified (ruleFrom a b)) (h2 : Certified (ruleFrom b c)) : Certified (ruleFrom a c) := by
  obtain ⟨⟨so, hF1⟩, _⟩ := certified_valid h1
  obtain ⟨⟨so', hF2⟩, _⟩ := certified_valid h2
  have hso : so' = so := by
    obtain ⟨h', args', hb⟩ := hF2.2.2.1
    have f1 := hF1.2.2.2.2
    have f2 := hF2.2.2.2.1
    simp only [ruleFrom] at hb
    simp only [ruleFrom, hb] at f1 f2
    cases f1 with
    | sexpr _ ho hm hs _ _ =>
      cases f2 with
      | sexpr _ ho' hm' hs' _ _ =>
        rw [ho] at ho'
        cases ho'
        rw [hm] at hm'
        cases hm'
        rw [← hs, ← hs']
  subst hso
  have s1 : Step [ruleFrom a b, ruleFrom b c] a b := by
    have := Step.here (rules := [ruleFrom a b, ruleFrom b c]) (r := ruleFrom a b) Value.var (by simp)
    rwa [subst_var, subst_var] at this
  have s2 : Step [ruleFrom a b, ruleFrom b c] b c := by
    have := Step.here (rules := [ruleFrom a b, ruleFrom b c]) (r := ruleFrom b c) Value.var (by simp)
    rwa [subst_var, subst_var] at this
  obtain ⟨s, hg⟩ := (C34_accepts_iff (ruleFrom a c)).2 ⟨so', rfl, rfl, hF1.2.2.1, hF1.2.2.2.1, hF2.2.2.2.2⟩
  refine C73_consequence [ruleFrom a b, ruleFrom b c] (by simp [h1, h2]) (ruleFrom a c) (.forward s1 (.forward s2 (.refl _))) s hg ?_
  obtain ⟨_, _, _, l1, _⟩ := h1
  obtain ⟨_, _, _, l2, _⟩ := h2
  intro x hx
  rcases List.mem_append.1 hx with hx | hx
  · exact l1 x (by simp only [ruleVars, ruleFrom, List.mem_append] at hx ⊢; exact Or.inl hx)
  · exact l2 x (by simp only [ruleVars, ruleFrom, List.mem_append] at hx ⊢; exact Or.inr hx)

/-- C73.  Instances: if the generator accepts what becomes of a certified rule when expressions are put for its variables, and the names in it are legal, it is certified. -/
theorem C73_instance (r : Rule) (hc : Certified r) (θ : Str → Value) (s : Str) (hg : generate (ruleFrom (subst θ r.match) (subst θ r.result)) = .ok s)
    (hl : ∀ x ∈ ruleVars (ruleFrom (subst θ r.match) (subst θ r.result)), legalName x = true) : Certified (ruleFrom (subst θ r.match) (subst θ r.result)) :=
  C73_consequence [r] (by simpa using hc) _ (.forward (Step.here θ (by simp)) (.refl _)) s hg hl

/-- C73.  Context: a certified rule stays certified inside an operation, if the generator accepts that and the names are legal. -/
theorem C73_context (r : Rule) (hc : Certified r) (h : Hdr) (pre post : List Value) (s : Str)
    (hg : generate (ruleFrom (.sexpr h (pre ++ r.match :: post)) (.sexpr h (pre ++ r.result :: post))) = .ok s)
    (hl : ∀ x ∈ ruleVars (ruleFrom (.sexpr h (pre ++ r.match :: post)) (.sexpr h (pre ++ r.result :: post))), legalName x = true) :
    Certified (ruleFrom (.sexpr h (pre ++ r.match :: post)) (.sexpr h (pre ++ r.result :: post))) := by
  have hst := Step.here (rules := [r]) (r := r) Value.var (by simp)
  rw [subst_var, subst_var] at hst
  exact C73_consequence [r] (by simpa using hc) _ (.forward (.inside hst) (.refl _)) s hg hl

/-! Examples. -/

private def vx : Value := .var ['x']
private def vz : Value := .var ['z']
private def neg (v : Value) : Value := .sexpr { op := .opcode "Neg8".toList } [v]
private def add (v w : Value) : Value := .sexpr { op := .opcode "Add8".toList } [v, w]
private def sub (v w : Value) : Value := .sexpr { op := .opcode "Sub8".toList } [v, w]
private def not1 (v : Value) : Value := .sexpr { op := .opcode "Not".toList } [v]

private theorem negFrag {v : Value} (h : Fragment (.bv 8) v) : Fragment (.bv 8) (neg v) := .sexpr (bare _) rfl rfl rfl rfl (.cons h .nil)
private theorem addFrag {v w : Value} (h : Fragment (.bv 8) v) (h' : Fragment (.bv 8) w) : Fragment (.bv 8) (add v w) :=
  .sexpr (bare _) rfl mAdd8 rfl rfl (.cons h (.cons h' .nil))
private theorem subFrag {v w : Value} (h : Fragment (.bv 8) v) (h' : Fragment (.bv 8) w) : Fragment (.bv 8) (sub v w) :=
  .sexpr (bare _) rfl mSub8 rfl rfl (.cons h (.cons h' .nil))

private def putFor (a b : Value) : Str → Value := fun n => if n = ['x'] then a else b

/-- From `(Sub8 (Add8 x y) y) => x` follows `(Sub8 (Add8 x x) x) => (Sub8 (Add8 x (Neg8 z)) (Neg8 z))`: a step forwards to `x`, a step backwards that brings in a Boolean
(`(Sub8 (Add8 x (Not x)) (Not x))` has no value), forwards to `x` again, and a step backwards that brings in the new variable `z`. -/
theorem compose_example : Certified (ruleFrom (sub (add vx vx) vx) (sub (add vx (neg vz)) (neg vz))) := by
  obtain ⟨s, hs⟩ := (C34_accepts_iff (ruleFrom (sub (add vx vx) vx) (sub (add vx (neg vz)) (neg vz)))).2
    ⟨.bv 8, rfl, rfl, ⟨_, _, rfl⟩, subFrag (addFrag (.var _) (.var _)) (.var _), subFrag (addFrag (.var _) (negFrag (.var _))) (negFrag (.var _))⟩
  exact C73_consequence [subAdd] (by simpa using subAdd_certified.1) _
    (.forward (Step.here (r := subAdd) (putFor vx vx) (by simp))
      (.backward (Step.here (r := subAdd) (putFor vx (not1 vx)) (by simp))
        (.forward (Step.here (r := subAdd) (putFor vx (not1 vx)) (by simp))
          (.backward (Step.here (r := subAdd) (putFor vx (neg vz)) (by simp)) (.refl _))))) s hs (by decide)

/-- Its reverse, a chain, an instance and a context. -/
example : Certified (ruleFrom (sub (add vx (neg vz)) (neg vz)) (sub (add vx vx) vx)) := C73_reverse _ compose_example ⟨_, _, rfl⟩

example : Certified (ruleFrom (sub (add vx vx) vx) vx) := by
  refine C73_chain _ _ _ compose_example ?_
  have h : ruleFrom (sub (add vx (neg vz)) (neg vz)) vx = ruleFrom (subst (putFor vx (neg vz)) subAdd.match) (subst (putFor vx (neg vz)) subAdd.result) := rfl
  rw [h]
  obtain ⟨s, hs⟩ := (C34_accepts_iff (ruleFrom (subst (putFor vx (neg vz)) subAdd.match) (subst (putFor vx (neg vz)) subAdd.result))).2
    ⟨.bv 8, rfl, rfl, ⟨_, _, rfl⟩, subFrag (addFrag (.var _) (negFrag (.var _))) (negFrag (.var _)), .var _⟩
  exact C73_instance subAdd subAdd_certified.1 _ s hs (by decide)

example : Certified (ruleFrom (neg (sub (add vx (.var ['y'])) (.var ['y']))) (neg vx)) := by
  obtain ⟨s, hs⟩ := (C34_accepts_iff (ruleFrom (neg (sub (add vx (.var ['y'])) (.var ['y']))) (neg vx))).2
    ⟨.bv 8, rfl, rfl, ⟨_, _, rfl⟩, negFrag (subFrag (addFrag (.var _) (.var _)) (.var _)), negFrag (.var _)⟩
  exact C73_context subAdd subAdd_certified.1 { op := .opcode "Neg8".toList } [] [] s hs (by decide)

/-- The hypotheses of `C73_command` are met by a run on two rules of which the second follows from the first. -/
def composeInputs : List Input := [{ name := ['a'], data := utf8 "(Sub8 (Add8 x y) y) => x\n(Sub8 (Add8 x x) x) => x\n".toList }]

example : ∃ (files : List File) (tr : List Event) (s : Str) (σ : Session), runCmd demoLib cmdFine cmdOut composeInputs = (tr, .ok ()) ∧ Loads demoLib composeInputs files ∧
    (verified files)[0]? = some subAdd ∧ (verified files)[1]? = some (ruleFrom (sub (add vx vx) vx) vx) ∧ Connected [subAdd] (sub (add vx vx) vx) vx ∧
    (joinPath cmdOut (scriptName 1), s) ∈ writesOf tr ∧ execute s = some σ ∧ ∀ q ∈ σ.queries, ¬ Sat q := by
  have hload : (load demoLib composeInputs).2 = .ok ⟨[subAdd, ruleFrom (sub (add vx vx) vx) vx]⟩ := isOk_eq (by decide +kernel)
  have hrun : (runCmd demoLib cmdFine cmdOut composeInputs).2 = .ok () := by decide +kernel
  have hrun' : runCmd demoLib cmdFine cmdOut composeInputs = ((runCmd demoLib cmdFine cmdOut composeInputs).1, .ok ()) := Prod.ext rfl hrun
  obtain ⟨files, hl, hv⟩ := C40_load_only demoLib composeInputs _ hload
  have hv : verified files = [subAdd, ruleFrom (sub (add vx vx) vx) vx] := by injection hv with h; exact h.symm
  have h0 : (verified files)[0]? = some subAdd := by rw [hv]; rfl
  have h1 : (verified files)[1]? = some (ruleFrom (sub (add vx vx) vx) vx) := by rw [hv]; rfl
  obtain ⟨s0, σ0, g0, _, e0, q0⟩ := subAdd_certified.1
  obtain ⟨s, hs⟩ := (C34_accepts_iff (ruleFrom (sub (add vx vx) vx) vx)).2 ⟨.bv 8, rfl, rfl, ⟨_, _, rfl⟩, subFrag (addFrag (.var _) (.var _)) (.var _), .var _⟩
  obtain ⟨σ, _, he, _⟩ := C32_script_decides_rule _ s hs (by decide)
  have w0 := (C41_written_iff demoLib cmdFine cmdOut composeInputs _ hrun' files hl 0 s0).2 ⟨_, h0, g0⟩
  have w1 := (C41_written_iff demoLib cmdFine cmdOut composeInputs _ hrun' files hl 1 s).2 ⟨_, h1, hs⟩
  have hc : Connected [subAdd] (sub (add vx vx) vx) vx := .forward (Step.here (r := subAdd) (putFor vx vx) (by simp)) (.refl _)
  exact ⟨files, _, s, σ, hrun', hl, h0, h1, hc, w1, he, C73_command demoLib cmdFine cmdOut composeInputs _ hrun' files hl [subAdd]
    (by rintro r hr; rw [List.mem_singleton] at hr; subst hr; exact ⟨0, s0, σ0, h0, w0, e0, q0⟩) 1 _ h1 hc s w1 σ he⟩

/-- The sorts must be the same in `C73_values` only to compare values; a rule that is not certified does harm: `(Add8 x y) => (Or8 x y)` connects expressions with different values, and it
is among the rules used. -/
example : ∃ r ∈ [wrongRule], ¬ Certified r := by
  obtain ⟨s, hs⟩ := (C34_accepts_iff wrongRule).2 ⟨_, wrongRule_fragment⟩
  have hl : ∀ x ∈ ruleVars wrongRule, legalName x = true := by decide
  obtain ⟨σ, q, h1, h2, h3⟩ := C32_script_decides_rule wrongRule s hs hl
  have hst := Step.here (rules := [wrongRule]) (r := wrongRule) Value.var (by simp)
  rw [subst_var, subst_var] at hst
  refine C73_culprit [wrongRule] wrongRule (.forward hst (.refl _)) s hs hl σ h1 q (by simp [h2]) ?_
  refine Classical.byContradiction fun hn => ?_
  have := h3.1 hn (fun _ => .bits 8 1) (.bits 8 2) (.bits 8 1) (by decide +kernel) (by decide +kernel) rfl
  revert this; decide

end Verif.Props

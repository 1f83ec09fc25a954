import Verif.Spec.Verdict
import Verif.Props.Solver
import Verif.Props.Rewrite
/-!
# Counterexamples (C77), and what a clean run certifies (C78)
-/
namespace Verif.Props
open Verif Verif.Spec Verif.Spec.Smt Verif.Spec.Ssa Verif.Proof Verif.Proof.Solver

/-! ## C77 -/

theorem model_iff {t : GoType} {r : Rule} (h : RuleFragment (srt t) r) (env : Str → Val) :
    IsModel ⟨declsOf t (declNames r), [claim r]⟩ env ↔ Refutes env r := by
  obtain ⟨_, _, ⟨hd, args, hmm⟩, hm, hr⟩ := h
  constructor
  · rintro ⟨hd, hc⟩
    have hs : ∀ x ∈ ruleVars r, (env x).sort = srt t := by
      intro x hx
      exact hd (x, srt t) (by simp only [declsOf, List.mem_map]; exact ⟨x, mem_declNames.2 hx, rfl⟩)
    obtain ⟨a, e1, e2, e3⟩ := eval_term env hm (fun x hx => hs x (by simp [ruleVars, hx]))
    obtain ⟨b, f1, f2, f3⟩ := eval_term env hr (fun x hx => hs x (by simp [ruleVars, hx]))
    have hsort : a.sort = b.sort := by rw [e3, f3]
    refine ⟨a, b, e1, f1, hsort, fun he => ?_⟩
    have h2 := hc (claim r) (by simp)
    rw [evalTerm_claim e2 f2 hsort] at h2
    simp [he] at h2
  · rintro ⟨a, b, ha, hb, hab, hne⟩
    have has : a.sort = srt t := by
      rw [hmm] at ha hm
      cases hm with
      | sexpr h1 ho hme hs har hargs =>
        simp only [eval, ho, hme, Option.bind_some] at ha
        cases hes : evals env args with
        | none => rw [hes] at ha; simp at ha
        | some as =>
          rw [hes, Option.bind_some] at ha
          rw [(apply_sorts ha).1, hs]
    have hv1 := eval_sorted env hm ha has
    have hv2 := eval_sorted env hr hb (by rw [← hab, has])
    obtain ⟨a', e1, e2, _⟩ := eval_term env hm hv1
    obtain ⟨b', f1, f2, _⟩ := eval_term env hr hv2
    rw [ha] at e1; rw [hb] at f1
    simp only [Option.some.injEq] at e1 f1
    subst e1 f1
    refine ⟨?_, ?_⟩
    · intro d hd
      simp only [declsOf, List.mem_map, mem_declNames, ruleVars, List.mem_append] at hd
      obtain ⟨x, hx, rfl⟩ := hd
      exact hx.elim (hv1 x) (hv2 x)
    · intro c hc
      simp at hc
      subst hc
      rw [evalTerm_claim e2 f2 hab]
      simp [hne]

/-- C77.  The models of the script of a rule are exactly the counterexamples of the rule: each assigns the values to the variables of the rule, under their own names. -/
theorem C77_models (r : Rule) (s : Str) (hg : generate r = .ok s) (hl : ∀ x ∈ ruleVars r, legalName x = true) :
    ∃ σ q, execute s = some σ ∧ σ.queries = [q] ∧ ∀ env, IsModel q env ↔ Refutes env r := by
  obtain ⟨t, _, hF, rfl⟩ := generate_ok_iff.1 hg
  have hn : ∀ x ∈ ruleVars r, plainName x := fun x hx => ⟨(legalName_good (hl x hx)).1.1, (legalName_good (hl x hx)).2⟩
  exact ⟨finalSession t r, _, by rw [execute_script hF hn, if_pos hl], rfl, model_iff hF⟩

/-- C77.  Also if the solver was given only a beginning of the script. -/
theorem C77_cut_off (r : Rule) (s : Str) (hg : generate r = .ok s) (hl : ∀ x ∈ ruleVars r, legalName x = true) (keep : Session → SExp → Bool) (part : Str) (hp : part <+: s)
    (q : Query) (hq : Asked keep part q) (env : Str → Val) : IsModel q env ↔ Refutes env r := by
  obtain ⟨⟨σ, h1, h2⟩, _⟩ := C76_legal r s hg hl keep part hp q hq
  obtain ⟨σ', q', h3, h4, h5⟩ := C77_models r s hg hl
  rw [h1] at h3
  cases h3
  rw [h2] at h4
  cases h4
  exact h5 env

mutual
theorem eval_congr {env env' : Str → Val} : ∀ (v : Value), (∀ x ∈ vars v, env x = env' x) → eval env v = eval env' v
  | .var x, h => by simp only [eval]; rw [h x (by simp [vars])]
  | .sexpr hd args, h => by
    rw [eval, eval, evals_congr args (by simpa [vars] using h)]
  | .expr _, _ => rfl
  | .nil, _ => rfl
theorem evals_congr {env env' : Str → Val} : ∀ (vs : List Value), (∀ x ∈ varss vs, env x = env' x) → evals env vs = evals env' vs
  | [], _ => rfl
  | v :: vs, h => by
    rw [evals, evals, eval_congr v (fun x hx => h x (by simp [varss, hx])), evals_congr vs (fun x hx => h x (by simp [varss, hx]))]
end

/-- C77.  What an assignment does on other names does not matter. -/
theorem C77_only_variables (r : Rule) (env env' : Str → Val) (h : ∀ x ∈ ruleVars r, env x = env' x) : Refutes env r ↔ Refutes env' r := by
  unfold Refutes
  rw [eval_congr r.match (fun x hx => h x (by simp [ruleVars, hx])), eval_congr r.result (fun x hx => h x (by simp [ruleVars, hx]))]

/-- C77.  A rule is valid exactly if it has no counterexample. -/
theorem C77_valid_iff (r : Rule) : Valid r ↔ ¬ ∃ env, Refutes env r := by
  constructor
  · rintro h ⟨env, a, b, h1, h2, h3, h4⟩
    exact h4 (h env a b h1 h2 h3)
  · intro h env a b h1 h2 h3
    exact Classical.byContradiction fun h4 => h ⟨env, a, b, h1, h2, h3, h4⟩

/-- C77, for the command.  Every script a run writes belongs to a rule of an input file and a choice of alternatives; if it is legal, its models are exactly the counterexamples of the
rule with that choice. -/
theorem C77_written (lib : GoLib) (ans : List (Str × Str) → Option Err) (outdir : Str) (inputs : List Input) (n s : Str)
    (h : (n, s) ∈ writesOf (runCmd lib ans outdir inputs).1) (σ : Session) (he : execute s = some σ) :
    ∃ inp ∈ inputs, ∃ f r i q, parseBytes lib inp.data = .ok f ∧ r ∈ f.rules ∧ Simple r ∧ i < count (ruleSizes r) ∧ σ.queries = [q] ∧
      ∀ env, IsModel q env ↔ Refutes env (pickRule i r) := by
  obtain ⟨files, hl, k, r', h1, _, hg⟩ := C41_written_is_rule lib ans outdir inputs n s h
  obtain ⟨r0, h0, i, hi, rfl⟩ := mem_verified (List.mem_of_getElem? h1)
  obtain ⟨hin, hs⟩ := simpleRules_sub h0
  obtain ⟨inp, hinp, f, hf, hr⟩ := loads_mem hl hin
  have hn : ∀ x ∈ ruleVars (pickRule i r0), x ≠ [] ∧ ∀ c ∈ x, isSymChar c = true := by
    rw [pickRule_vars]; exact fun x hx => var_sym (ruleWF_vars (loads_wf hl r0 hin) x hx)
  obtain ⟨σ', q, e1, e2, e3⟩ := C77_models _ s hg ((C37_legal_iff _ s hg hn).1 ⟨σ, he⟩)
  rw [he] at e1
  cases e1
  exact ⟨inp, hinp, f, r0, i, q, hf, hr, hs, hi, e2, e3⟩

/-- An instance: 200 is a counterexample of `(Neg8 x) => x`, and 0 is not. -/
example : let r : Rule := { «match» := .sexpr { op := .opcode "Neg8".toList } [.var ['x']], result := .var ['x'] }
    (∃ s, generate r = .ok s) ∧ (∀ x ∈ ruleVars r, legalName x = true) ∧ Refutes (fun _ => .bits 8 200#8) r ∧ ¬ Refutes (fun _ => .bits 8 0#8) r := by
  have hm : meaning "Neg8".toList = some (.un 8 fun x => -x) := rfl
  refine ⟨⟨_, show _ = Res.ok "(set-info :smt-lib-version 2.6)\n(set-logic QF_BV)\n; (Neg8 x) => x\n(declare-const x (_ BitVec 8))\n(assert (not (= (bvneg x) x)))\n(check-sat)\n(exit)\n".toList by decide +kernel⟩, by decide, ?_, ?_⟩
  · exact ⟨.bits 8 56#8, .bits 8 200#8, by simp only [eval, evals, hm, Option.bind_some, Option.map_some]; rfl, rfl, rfl, by decide⟩
  · rintro ⟨a, b, h1, h2, _, h3⟩
    simp only [eval, evals, hm, Option.bind_some, Option.map_some] at h1 h2
    exact h3 (Option.some.inj (h1.symm.trans (h2 : some (Val.bits 8 0#8) = some b)))

/-! ## C78 -/

theorem logLine_end (s : Str) : (logLine s).getLast? = some '\n' := by
  unfold logLine
  split
  · next h => rw [List.append_nil, List.getLast?_append, h]; rfl
  · rw [List.getLast?_concat]

theorem logLines_end : ∀ (ms : List Str), ms.flatMap logLine = [] ∨ (ms.flatMap logLine).getLast? = some '\n'
  | [] => .inl rfl
  | m :: ms => by
    right
    rw [List.flatMap_cons, List.getLast?_append]
    rcases logLines_end ms with e | e
    · rw [e, logLine_end]; rfl
    · rw [e]; rfl

/-- A generator error leaves a line in the log. -/
theorem genError_line {tr : List Event} {res : Res Unit} {e : Err} (h : .genError e ∈ tr) : ErrorLine (stderrText (tr, res)) := by
  obtain ⟨p, rest, rfl⟩ := List.append_of_mem h
  have hm : (Event.genError e).message = some ("error: ".toList ++ e.text) := rfl
  refine ⟨(p.filterMap Event.message).flatMap logLine,
    e.text ++ (if ("error: ".toList ++ e.text).getLast? = some '\n' then [] else ['\n']) ++ (rest.filterMap Event.message).flatMap logLine ++
      (match res with | .err e => logLine e.text | _ => []), ?_, logLines_end _⟩
  have hl : logLine ("error: ".toList ++ e.text) = "ssarules: error: ".toList ++ (e.text ++ (if ("error: ".toList ++ e.text).getLast? = some '\n' then [] else ['\n'])) := by
    unfold logLine
    have : "ssarules: error: ".toList = "ssarules: ".toList ++ "error: ".toList := by decide
    rw [this]
    simp only [List.append_assoc]
  simp only [stderrText, List.filterMap_append, List.filterMap_cons, hm, List.flatMap_append, List.flatMap_cons, hl, List.append_assoc]
  rfl

theorem rulesEvents_error {outdir : Str} : ∀ {rs : List Rule} {k : Nat}, (∀ e, Event.genError e ∉ rulesEvents outdir k rs) → ∀ r ∈ rs, ∀ e, generate r ≠ .err e
  | r :: rs, k, h, r', hr', e, he => by
    rcases List.mem_cons.1 hr' with rfl | hr'
    · refine h e ?_
      rw [rulesEvents, ruleEvents, he]
      simp
    · exact rulesEvents_error (k := k + 1) (fun e' he' => h e' (by rw [rulesEvents]; exact List.mem_append_right _ he')) r' hr' e he

/-- Every rule the command verifies has a script. -/
theorem clean_scripts {lib : GoLib} {ans : List (Str × Str) → Option Err} {outdir : Str} {inputs : List Input} (hr : (runCmd lib ans outdir inputs).2 = .ok ())
    (he : ∀ e, Event.genError e ∉ (runCmd lib ans outdir inputs).1) {files : List File} (hl : Loads lib inputs files) : ∀ r ∈ verified files, ∃ s, generate r = .ok s := by
  obtain ⟨files', hl', e⟩ := C40_trace lib ans outdir inputs _ (Prod.ext rfl hr)
  cases loads_unique hl hl'
  replace e : (runCmd lib ans outdir inputs).1 = allEvents outdir inputs files := e
  intro r hm
  cases hg : generate r with
  | ok s => exact ⟨s, rfl⟩
  | panic => exact absurd hg (generate_ne_panic r)
  | err er =>
    refine absurd hg (rulesEvents_error (outdir := outdir) (k := 0) (fun e' he' => he e' ?_) r hm er)
    rw [e, allEvents]
    exact List.mem_append_right _ he'

theorem expanded_count {lib : GoLib} {ans : List (Str × Str) → Option Err} {outdir : Str} {inputs : List Input} (hr : (runCmd lib ans outdir inputs).2 = .ok ()) {files : List File}
    (hl : Loads lib inputs files) {N : Nat} (hN : Event.expanded N ∈ (runCmd lib ans outdir inputs).1) : N = (verified files).length := by
  obtain ⟨files', hl', e⟩ := C40_trace lib ans outdir inputs _ (Prod.ext rfl hr)
  cases loads_unique hl hl'
  replace e : (runCmd lib ans outdir inputs).1 = allEvents outdir inputs files := e
  rw [e, allEvents] at hN
  have h1 : ∀ (inps : List Input) (fs : List File), Event.expanded N ∉ parsedEvents inps fs := by
    intro inps
    induction inps with
    | nil => intro fs; simp [parsedEvents]
    | cons inp inps ih =>
      intro fs
      cases fs with
      | nil => simp [parsedEvents]
      | cons f fs => simpa [parsedEvents] using ih fs
  have h2 : ∀ (rs : List Rule) (k : Nat), Event.expanded N ∉ rulesEvents outdir k rs := by
    intro rs
    induction rs with
    | nil => intro k; simp [rulesEvents]
    | cons r rs ih =>
      intro k
      rw [rulesEvents, List.mem_append, not_or]
      refine ⟨?_, ih _⟩
      rw [ruleEvents]
      cases generate r <;> simp
  simp only [List.mem_append, List.mem_cons, List.not_mem_nil, or_false] at hN
  rcases hN with (h | h | h | h) | h
  · exact absurd h (h1 _ _)
  · simp at h
  · simp at h
  · simpa using h
  · exact absurd h (h2 _ _)

theorem loads_inputs {lib : GoLib} {inputs : List Input} {files : List File} (h : Loads lib inputs files) : ∀ inp ∈ inputs, ∃ f ∈ files, parseBytes lib inp.data = .ok f := by
  induction h with
  | nil => simp
  | cons _ _ _ h4 _ ih =>
    intro inp hi
    rcases List.mem_cons.1 hi with rfl | hi
    · exact ⟨_, by simp, h4⟩
    · obtain ⟨f, hf, hp⟩ := ih inp hi
      exact ⟨f, by simp [hf], hp⟩

/-- `Verified`, in terms of the rules the command works on. -/
theorem verified_iff {lib : GoLib} {inputs : List Input} {files : List File} (h : Loads lib inputs files) :
    Verified lib inputs ↔ ∀ r ∈ verified files, (∃ so, RuleFragment so r) ∧ Valid r := by
  constructor
  · intro hv r hr
    obtain ⟨r0, h0, i, hi, rfl⟩ := mem_verified hr
    obtain ⟨hin, hs⟩ := simpleRules_sub h0
    obtain ⟨inp, hinp, f, hf, hrf⟩ := loads_mem h hin
    obtain ⟨f', hf', hall⟩ := hv inp hinp
    rw [hf] at hf'
    cases hf'
    exact hall r0 hrf hs i hi
  · intro hv inp hinp
    obtain ⟨f, hff, hp⟩ := loads_inputs h inp hinp
    refine ⟨f, hp, fun r hr hs i hi => hv _ ?_⟩
    simp only [verified, List.mem_flatMap, List.mem_map, List.mem_range]
    refine ⟨r, ?_, i, hi, rfl⟩
    simp only [simpleRules, List.mem_filter, decide_eq_true_eq]
    exact ⟨by simp only [allRules, List.mem_flatMap]; exact ⟨f, hff, hr⟩, hs⟩

theorem verified_names {lib : GoLib} {inputs : List Input} {files : List File} (h : Loads lib inputs files) {r : Rule} (hr : r ∈ verified files) :
    ∀ x ∈ ruleVars r, x ≠ [] ∧ ∀ c ∈ x, isSymChar c = true := by
  obtain ⟨r0, h0, i, hi, rfl⟩ := mem_verified hr
  rw [pickRule_vars]
  exact fun x hx => var_sym (ruleWF_vars (loads_wf h r0 (simpleRules_sub h0).1) x hx)

theorem clean_run {lib : GoLib} {ans : List (Str × Str) → Option Err} {cwd : List Str} {outdir : Str} {inputs : List Input} {d : Disk}
    (hr : (runCmd lib ans outdir inputs).2 = .ok ()) (he : ∀ e, Event.genError e ∉ (runCmd lib ans outdir inputs).1) {N : Nat}
    (hN : Event.expanded N ∈ (runCmd lib ans outdir inputs).1) (hu : AllUnsat cwd outdir N (finished lib cwd outdir inputs ans d)) : Verified lib inputs := by
  obtain ⟨files, hl, h1, _⟩ := C45_disk_after lib ans cwd outdir inputs d hr
  have hn := expanded_count hr hl hN
  subst hn
  rw [verified_iff hl]
  intro r hm
  obtain ⟨s, hg⟩ := clean_scripts hr he hl r hm
  refine ⟨(C34_accepts_iff r).1 ⟨s, hg⟩, ?_⟩
  obtain ⟨i, hi, hir⟩ := List.mem_iff_getElem.1 hm
  have hi' : (verified files)[i]? = some r := by rw [List.getElem?_eq_getElem hi, hir]
  have hplace : IsScriptPlace cwd outdir i (locate cwd outdir ++ [scriptName i]) := ⟨_, isScriptName_scriptName i, rfl⟩
  obtain ⟨keep, q, ⟨a, es, k1, k2, k3⟩, hq⟩ := hu i hi _ _ hplace (h1 i s _ ⟨r, hi', hg⟩ hplace)
  exact C76_unsat_never_wrong r s hg (verified_names hl hm) keep s List.prefix_rfl q ⟨a, es, utf8_prefix k1 List.prefix_rfl, k2, k3⟩ hq

/-- No generator error occurs exactly if every rule the command verifies has a script. -/
theorem no_genError_iff {lib : GoLib} {ans : List (Str × Str) → Option Err} {outdir : Str} {inputs : List Input} (hr : (runCmd lib ans outdir inputs).2 = .ok ())
    {files : List File} (hld : Loads lib inputs files) :
    (∀ e, Event.genError e ∉ (runCmd lib ans outdir inputs).1) ↔ ∀ r ∈ verified files, ∃ s, generate r = .ok s := by
  refine ⟨fun he => clean_scripts hr he hld, fun hv => ?_⟩
  intro e he
  obtain ⟨files', hl', e'⟩ := C40_trace lib ans outdir inputs _ (Prod.ext rfl hr)
  cases loads_unique hld hl'
  replace e' : (runCmd lib ans outdir inputs).1 = allEvents outdir inputs files := e'
  rw [e', allEvents] at he
  have h2 : ∀ (inps : List Input) (fs : List File), Event.genError e ∉ parsedEvents inps fs := by
    intro inps
    induction inps with
    | nil => intro fs; simp [parsedEvents]
    | cons inp inps ih =>
      intro fs
      cases fs with
      | nil => simp [parsedEvents]
      | cons f fs => simpa [parsedEvents] using ih fs
  have h3 : ∀ (rs : List Rule) (k : Nat), (∀ r ∈ rs, ∃ s, generate r = .ok s) → Event.genError e ∉ rulesEvents outdir k rs := by
    intro rs
    induction rs with
    | nil => intro k _; simp [rulesEvents]
    | cons r rs ih =>
      intro k hrs
      rw [rulesEvents, List.mem_append, not_or]
      refine ⟨?_, ih _ fun r' hr' => hrs r' (by simp [hr'])⟩
      obtain ⟨s, hs⟩ := hrs r (by simp)
      rw [ruleEvents, hs]
      simp
  simp only [List.mem_append, List.mem_cons, List.not_mem_nil, or_false] at he
  rcases he with (h | h | h | h) | h
  · exact absurd h (h2 _ _)
  · simp at h
  · simp at h
  · simp at h
  · exact absurd h (h3 _ _ hv)

/-- C78.  If the command exits with status 0, no line of its log starts with `ssarules: error: `, and a correct solver (whatever it does after errors) answers `unsat` for the files
`0000.smt2` … in the output directory, as many as the log says expanded rules there are, then every simple rule of every input file, for every choice of its alternatives, is in the
supported fragment and valid. -/
theorem C78_clean_run (lib : GoLib) (ans : List (Str × Str) → Option Err) (cwd : List Str) (outdir : Str) (inputs : List Input) (d : Disk)
    (hr : exitStatus (runCmd lib ans outdir inputs).2 = 0) (hlog : ¬ ErrorLine (stderrText (runCmd lib ans outdir inputs))) (N : Nat)
    (hN : Event.expanded N ∈ (runCmd lib ans outdir inputs).1) (hu : AllUnsat cwd outdir N (finished lib cwd outdir inputs ans d)) : Verified lib inputs := by
  have hr' : (runCmd lib ans outdir inputs).2 = .ok () := by
    revert hr
    generalize (runCmd lib ans outdir inputs).2 = x
    cases x <;> simp [exitStatus]
  exact clean_run hr' (fun e h => hlog (genError_line h)) hN hu

/-- C78, converse.  If the names of the variables of the simple rules are legal SMT-LIB names, this check succeeds for every successful run on correct rules: no generator error is reported, and
every script file is one a correct solver answers `unsat` for.  (Whether a line of the log starts with the words of an error message depends on the input file names too.) -/
theorem C78_exact (lib : GoLib) (ans : List (Str × Str) → Option Err) (cwd : List Str) (outdir : Str) (inputs : List Input) (d : Disk)
    (hr : (runCmd lib ans outdir inputs).2 = .ok ())
    (hl : ∀ inp ∈ inputs, ∀ f, parseBytes lib inp.data = .ok f → ∀ r ∈ f.rules, Simple r → ∀ x ∈ ruleVars r, legalName x = true) (N : Nat)
    (hN : Event.expanded N ∈ (runCmd lib ans outdir inputs).1) :
    ((∀ e, Event.genError e ∉ (runCmd lib ans outdir inputs).1) ∧ AllUnsat cwd outdir N (finished lib cwd outdir inputs ans d)) ↔ Verified lib inputs := by
  constructor
  · exact fun ⟨he, hu⟩ => clean_run hr he hN hu
  · intro hv
    obtain ⟨files, hld, h1, _⟩ := C45_disk_after lib ans cwd outdir inputs d hr
    have hn := expanded_count hr hld hN
    subst hn
    rw [verified_iff hld] at hv
    refine ⟨?_, ?_⟩
    · exact (no_genError_iff hr hld).2 fun r hm => (C34_accepts_iff r).2 (hv r hm).1
    · intro i hi p bs hp hbs
      have hm : (verified files)[i] ∈ verified files := List.getElem_mem hi
      have hi' : (verified files)[i]? = some (verified files)[i] := List.getElem?_eq_getElem hi
      revert hm hi'
      generalize (verified files)[i] = r
      intro hm hi'
      obtain ⟨s, hg⟩ := (C34_accepts_iff r).2 (hv r hm).1
      rw [h1 i s p ⟨r, hi', hg⟩ hp] at hbs
      simp only [Option.some.injEq] at hbs
      subst hbs
      have hlegal : ∀ x ∈ ruleVars r, legalName x = true := by
        obtain ⟨r0, h0, j, hj, rfl⟩ := mem_verified hm
        obtain ⟨hin, hs⟩ := simpleRules_sub h0
        obtain ⟨inp, hinp, f, hf, hrf⟩ := loads_mem hld hin
        rw [pickRule_vars]
        exact hl inp hinp f hf r0 hrf hs
      obtain ⟨σ, q, e1, e2, e3⟩ := C32_script_decides_rule r s hg hlegal
      unfold execute at e1
      cases hra : readAll s with
      | none => rw [hra] at e1; simp at e1
      | some es =>
        rw [hra, Option.bind_some] at e1
        exact ⟨fun _ _ => false, q, ⟨s, es, List.prefix_rfl, hra, by rw [solve_commands _ es {} σ e1, e2]; simp⟩, e3.2 (hv r hm).2⟩

theorem no_errorLine {log : Str} (h : ((List.range (log.length + 1)).any fun k => "ssarules: error: ".toList.isPrefixOf (log.drop k)) = false) : ¬ ErrorLine log := by
  rintro ⟨a, b, e, _⟩
  generalize "ssarules: error: ".toList = w at *
  rw [List.any_eq_false] at h
  apply h a.length
  · rw [List.mem_range, e]
    simp only [List.length_append]
    omega
  · rw [List.isPrefixOf_iff_prefix, e, List.append_assoc, List.drop_left]
    exact List.prefix_append _ _

/-- a file with the rule `(Sub8 (Add8 x y) y) => x` -/
def subInput : Input := { name := "sub.rules".toList, data := utf8 "(Sub8 (Add8 x y) y) => x\n".toList }

theorem subInput_parse : parseBytes demoLib subInput.data = .ok ⟨[subAdd]⟩ := isOk_eq (by decide +kernel)

theorem subInput_verified : Verified demoLib [subInput] := by
  intro inp hinp
  simp only [List.mem_singleton] at hinp
  subst hinp
  refine ⟨_, subInput_parse, fun r hr _ i hi => ?_⟩
  simp only [List.mem_singleton] at hr
  subst hr
  have : i = 0 := by
    have hc : count (ruleSizes subAdd) = 1 := by decide
    omega
  subst this
  exact ⟨⟨_, subAdd_fragment⟩, subAdd_valid⟩

/-- All hypotheses of `C78_clean_run` and `C78_exact` are met by the run of the command on this file, with any contents of the directory before. -/
example (d : Disk) : exitStatus (runCmd demoLib cmdFine cmdOut [subInput]).2 = 0 ∧ ¬ ErrorLine (stderrText (runCmd demoLib cmdFine cmdOut [subInput])) ∧
    Event.expanded 1 ∈ (runCmd demoLib cmdFine cmdOut [subInput]).1 ∧ AllUnsat [] cmdOut 1 (finished demoLib [] cmdOut [subInput] cmdFine d) ∧
    (∀ inp ∈ [subInput], ∀ f, parseBytes demoLib inp.data = .ok f → ∀ r ∈ f.rules, Simple r → ∀ x ∈ ruleVars r, legalName x = true) := by
  have h0 : exitStatus (runCmd demoLib cmdFine cmdOut [subInput]).2 = 0 := by decide +kernel
  have hr : (runCmd demoLib cmdFine cmdOut [subInput]).2 = .ok () := by
    revert h0
    generalize (runCmd demoLib cmdFine cmdOut [subInput]).2 = x
    cases x <;> simp [exitStatus]
  have hN : Event.expanded 1 ∈ (runCmd demoLib cmdFine cmdOut [subInput]).1 := by
    have h : ((runCmd demoLib cmdFine cmdOut [subInput]).1.any fun | .expanded n => n == 1 | _ => false) = true := by decide +kernel
    obtain ⟨e, he, h1⟩ := List.any_eq_true.1 h
    cases e <;> simp at h1
    subst h1
    exact he
  have hl : ∀ inp ∈ [subInput], ∀ f, parseBytes demoLib inp.data = .ok f → ∀ r ∈ f.rules, Simple r → ∀ x ∈ ruleVars r, legalName x = true := by
    intro inp hinp f hf r hr' _
    simp only [List.mem_singleton] at hinp
    subst hinp
    rw [subInput_parse] at hf
    cases hf
    simp only [List.mem_singleton] at hr'
    subst hr'
    decide
  exact ⟨h0, no_errorLine (by decide +kernel), hN, ((C78_exact demoLib cmdFine [] cmdOut [subInput] d hr hl 1 hN).2 subInput_verified).2, hl⟩

/-- C78.  Then rewriting with these rules, in any number of steps at any places, preserves the values of expressions. -/
theorem C78_rewriting (lib : GoLib) (inputs : List Input) (hv : Verified lib inputs) (rules : List Rule)
    (hrules : ∀ r' ∈ rules, Bound r' ∧ ∃ inp ∈ inputs, ∃ f r i, parseBytes lib inp.data = .ok f ∧ r ∈ f.rules ∧ Simple r ∧ i < count (ruleSizes r) ∧ r' = pickRule i r)
    (e e' : Value) (hs : Steps rules e e') (env : Str → Val) (a : Val) (he : eval env e = some a) : eval env e' = some a := by
  refine steps_sound (fun r' hr' => ?_) env hs he
  obtain ⟨hb, inp, hinp, f, r, i, hf, hr, hsimple, hi, rfl⟩ := hrules r' hr'
  obtain ⟨f', hf', hall⟩ := hv inp hinp
  rw [hf] at hf'
  cases hf'
  obtain ⟨⟨so, h1⟩, h2⟩ := hall r hr hsimple i hi
  exact ⟨so, h1, h2, hb⟩

end Verif.Props

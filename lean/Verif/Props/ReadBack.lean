import Verif.Proof.ReadBack
import Verif.Props.Source
import Verif.Props.Smt2
/-!
# The rule a script was made from (C75)

A script names its rule in a comment, its third line (`ruleLine`, Spec/ReadBack).  `RejectsComment lib`: the Go parser in use does not accept a text that is only a comment.
-/
namespace Verif.Props
open Verif Verif.Spec Verif.Spec.Smt Verif.Spec.Ssa Verif.Proof

theorem ruleLine_generate {r : Rule} {s : Str} (hg : generate r = .ok s) (hn : ∀ x ∈ ruleVars r, '\n' ∉ x ∧ '\r' ∉ x) :
    (∃ so, RuleFragment so r) ∧ '\n' ∉ showRule r ∧ ruleLine s = some (showRule r) := by
  obtain ⟨t, _, hF, rfl⟩ := generate_ok_iff.1 hg
  have hnl := showRule_nolines hF (fun x hx c hc => ⟨fun e => (hn x hx).2 (e ▸ hc), fun e => (hn x hx).1 (e ▸ hc)⟩)
  have h0 : '\n' ∉ showRule r := fun h => (hnl _ h).2 rfl
  have hrep : replaceNewlines (showRule r) = showRule r := by
    revert h0
    generalize showRule r = l
    unfold replaceNewlines
    induction l with
    | nil => intro _; rfl
    | cons c l ih =>
      intro h
      simp only [List.mem_cons, not_or] at h
      rw [List.flatMap_cons, ih h.2, if_neg (fun e => h.1 e.symm)]
      rfl
  refine ⟨⟨_, hF⟩, h0, ?_⟩
  rw [scriptText, commentText, hrep]
  simp only [List.append_assoc]
  have := ruleLine_script (post := (declNames r).flatMap (declLine t) ++ (assertLine r ++ ("(check-sat)\n".toList ++ "(exit)\n".toList))) h0
  simpa only [List.append_assoc] using this

theorem names_noline {x : Str} (h : Ident x ∨ x = ['_']) : '\n' ∉ x ∧ '\r' ∉ x := by
  have key : ∀ c : Char, isWordChar c = true → c ≠ '\n' ∧ c ≠ '\r' := by
    intro c h
    constructor <;> (rintro rfl; revert h; decide)
  rcases h with ⟨c, t, rfl, hc, ht⟩ | rfl
  · have hw : ∀ d ∈ c :: t, isWordChar d = true := by
      intro d hd
      rcases List.mem_cons.1 hd with rfl | hd
      · simp [isWordChar, hc]
      · exact ht d hd
    exact ⟨fun h => (key _ (hw _ h)).1 rfl, fun h => (key _ (hw _ h)).2 rfl⟩
  · decide

/-- C75.  The rule can be read back from its script: whatever Go parser is in use, the third line of the script is parsed as exactly the rule, with or without its newline; if the
variables have names as in parsed rules. -/
theorem C75_read_back (lib : GoLib) (hrc : RejectsComment lib) (r : Rule) (s : Str) (hg : generate r = .ok s) (hn : ∀ x ∈ ruleVars r, Ident x ∨ x = ['_']) :
    ∃ text, ruleLine s = some text ∧ parseBytes lib (utf8 text) = .ok ⟨[r]⟩ ∧ parseBytes lib (utf8 (text ++ ['\n'])) = .ok ⟨[r]⟩ := by
  obtain ⟨⟨so, hF⟩, _, h1⟩ := ruleLine_generate hg fun x hx => names_noline (hn x hx)
  refine ⟨_, h1, ?_, ?_⟩
  · have := FileText.cons (go := GoText lib) skip_nil' (fragRule_text hF hn) skip_nil' (follow_end r.result) .nil
    simp only [List.nil_append, List.append_nil] at this
    exact parse_complete' hrc this
  · have := fragFile_text (go := GoText lib) (rs := [r]) fun r' hr' => by
      simp only [List.mem_singleton] at hr'
      subst hr'
      exact ⟨⟨_, hF⟩, hn⟩
    simp only [List.flatMap_cons, List.flatMap_nil, List.append_nil] at this
    exact parse_complete' hrc this

/-- C75.  With other names it cannot. -/
theorem C75_names (lib : GoLib) (r : Rule) (s text : Str) (hp : ruleLine s = some text) (hr : parseBytes lib (utf8 text) = .ok ⟨[r]⟩) :
    ∀ x ∈ ruleVars r, Ident x ∨ x = ['_'] :=
  ruleWF_vars (C25_well_formed lib _ _ hr r (by simp))

/-- The hypothesis about the Go parser can be met. -/
theorem rejecting_lib : ∃ lib : GoLib, RejectsComment lib := ⟨_, rejects_of_follows (refLib_follows asciiGo)⟩

/-- C75.  Different rules get different scripts. -/
theorem C75_injective (r r' : Rule) (s : Str) (hg : generate r = .ok s) (hg' : generate r' = .ok s) (hn : ∀ x ∈ ruleVars r, Ident x ∨ x = ['_'])
    (hn' : ∀ x ∈ ruleVars r', Ident x ∨ x = ['_']) : r = r' := by
  obtain ⟨lib, hrc⟩ := rejecting_lib
  obtain ⟨t, h1, h2, _⟩ := C75_read_back lib hrc r s hg hn
  obtain ⟨t', h3, h4, _⟩ := C75_read_back lib hrc r' s hg' hn'
  rw [h1] at h3
  cases h3
  rw [h2] at h4
  simpa using h4

/-- What is known of the rules that scripts are written for. -/
theorem written_rule {lib ans outdir inputs n s} (h : (n, s) ∈ writesOf (runCmd lib ans outdir inputs).1) :
    ∃ files i r, Loads lib inputs files ∧ (verified files)[i]? = some r ∧ n = joinPath outdir (scriptName i) ∧ generate r = .ok s ∧
      (∀ x ∈ ruleVars r, Ident x ∨ x = ['_']) ∧ RuleMeaningful r ∧ ruleSizes r = [] ∧ Simple r := by
  obtain ⟨files, hl, i, r, h1, h2, h3⟩ := C41_written_is_rule lib ans outdir inputs n s h
  refine ⟨files, i, r, hl, h1, h2, h3, ?_⟩
  obtain ⟨r0, h0, j, _, rfl⟩ := mem_verified (List.mem_of_getElem? h1)
  obtain ⟨hm, hs⟩ := simpleRules_sub h0
  have hw := loads_wf hl r0 hm
  have := pickRule_plain (ruleWF_meaningful hw) j
  refine ⟨?_, this.1, this.2.2, (simple_mapRuleOps _ r0).2 hs⟩
  rw [pickRule_vars]; exact ruleWF_vars hw

/-- C75, for the command.  From every script it writes, in a successful run or not, the rule can be read back; it is the rule with the number in the file's name. -/
theorem C75_written (lib : GoLib) (hrc : RejectsComment lib) (ans : List (Str × Str) → Option Err) (outdir : Str) (inputs : List Input) (n s : Str)
    (h : (n, s) ∈ writesOf (runCmd lib ans outdir inputs).1) :
    ∃ text r files i, ruleLine s = some text ∧ parseBytes lib (utf8 text) = .ok ⟨[r]⟩ ∧ generate r = .ok s ∧
      Loads lib inputs files ∧ (verified files)[i]? = some r ∧ n = joinPath outdir (scriptName i) := by
  obtain ⟨files, i, r, hl, h1, h2, hg, hn, _⟩ := written_rule h
  obtain ⟨t, h3, h4, _⟩ := C75_read_back lib hrc r s hg hn
  exact ⟨t, r, files, i, h3, h4, hg, hl, h1, h2⟩

theorem plain_again (l : List Rule) (hp : ∀ r ∈ l, RuleMeaningful r ∧ ruleSizes r = [] ∧ Simple r) :
    verified [⟨l⟩] = l ∧ ∀ r ∈ simpleRules [⟨l⟩], Agree (ruleSizes r) := by
  have h1 : simpleRules [⟨l⟩] = l := by
    rw [simpleRules, List.filter_eq_self.2]
    · simp [allRules]
    · intro r hr
      simp only [allRules, List.flatMap_cons, List.flatMap_nil, List.append_nil] at hr
      simp [(hp r hr).2.2]
  refine ⟨?_, fun r hr => by rw [h1] at hr; rw [(hp r hr).2.1]; simp [Agree]⟩
  have h2 : verified [⟨l⟩] = (simpleRules [⟨l⟩]).flatMap expansion := rfl
  rw [h2, h1]
  clear h1 h2
  induction l with
  | nil => rfl
  | cons r l ih =>
    rw [List.flatMap_cons, ih fun r hr => hp r (by simp [hr]), expansion_plain (hp r (by simp)).1 (hp r (by simp)).2.1]; rfl

theorem accepted_writes (outdir : Str) : ∀ (rs : List Rule) (ss : List Str) (i : Nat), rs.map generate = ss.map .ok →
    (writesOf (rulesEvents outdir i rs)).map (·.2) = ss ∧
    (writesOf (rulesEvents outdir i rs)).map (·.1) = (List.range' i ss.length).map fun i => joinPath outdir (scriptName i)
  | [], [], _, _ => ⟨rfl, rfl⟩
  | [], _ :: _, _, h => by simp at h
  | _ :: _, [], _, h => by simp at h
  | r :: rs, s :: ss, i, h => by
    simp only [List.map_cons, List.cons.injEq] at h
    obtain ⟨h1, h2⟩ := accepted_writes outdir rs ss (i + 1) h.2
    have e : writesOf (rulesEvents outdir i (r :: rs)) = (joinPath outdir (scriptName i), s) :: writesOf (rulesEvents outdir (i + 1) rs) := by
      rw [rulesEvents, ruleEvents, h.1, writesOf_append]; rfl
    rw [e, List.map_cons, List.map_cons, h1, h2, List.length_cons, List.range'_succ]
    exact ⟨rfl, rfl⟩

theorem choose_rules {P : Str → Rule → Prop} : ∀ ss : List Str, (∀ s ∈ ss, ∃ r, P s r) → ∃ rs : List Rule, rs.length = ss.length ∧
    ∀ (i : Nat) (r : Rule), rs[i]? = some r → ∃ s, ss[i]? = some s ∧ P s r
  | [], _ => ⟨[], rfl, by simp⟩
  | s :: ss, h => by
    obtain ⟨r, hr⟩ := h s (by simp)
    obtain ⟨rs, h1, h2⟩ := choose_rules ss fun s hs => h s (by simp [hs])
    refine ⟨r :: rs, by simp [h1], fun i r' hi => ?_⟩
    cases i with
    | zero => simp only [List.getElem?_cons_zero, Option.some.injEq] at hi; subst hi; exact ⟨s, by simp, hr⟩
    | succ i => simpa using h2 i r' (by simpa using hi)

theorem map_of_get {α β γ : Type} {f : α → γ} {g : β → γ} {as : List α} {bs : List β} (hl : as.length = bs.length)
    (h : ∀ (i : Nat) (a : α), as[i]? = some a → ∃ b, bs[i]? = some b ∧ f a = g b) : as.map f = bs.map g := by
  induction as generalizing bs with
  | nil => cases bs <;> simp at hl ⊢
  | cons a as ih =>
    cases bs with
    | nil => simp at hl
    | cons b bs =>
      obtain ⟨b', hb', e⟩ := h 0 a (by simp)
      simp only [List.getElem?_cons_zero, Option.some.injEq] at hb'
      subst hb'
      rw [List.map_cons, List.map_cons, e, ih (by simpa using hl) fun i a hi => by simpa using h (i + 1) a (by simpa using hi)]

/-- C75, for the command.  The scripts can be made again from the scripts: from whatever a run (successful or not) has written, collect the rules, one per line, in order.  The command
succeeds on this file in any output directory and writes the same scripts in the same order, numbered without gaps. -/
theorem C75_again (lib : GoLib) (hrc : RejectsComment lib) (ans : List (Str × Str) → Option Err) (outdir : Str) (inputs : List Input) (outdir' name : Str) :
    ∃ texts : List Str, (writesOf (runCmd lib ans outdir inputs).1).map (fun w => ruleLine w.2) = texts.map some ∧
      ∃ tr', runCmd lib (fun _ => none) outdir' [{ name := name, data := utf8 (texts.flatMap fun t => t ++ ['\n']) }] = (tr', .ok ()) ∧
        (writesOf tr').map (·.2) = (writesOf (runCmd lib ans outdir inputs).1).map (·.2) ∧
        (writesOf tr').map (·.1) = (List.range texts.length).map fun i => joinPath outdir' (scriptName i) := by
  generalize hw : writesOf (runCmd lib ans outdir inputs).1 = ws
  have hall : ∀ s ∈ ws.map (·.2), ∃ r, generate r = .ok s ∧ (∀ x ∈ ruleVars r, Ident x ∨ x = ['_']) ∧ RuleMeaningful r ∧ ruleSizes r = [] ∧ Simple r := by
    intro s hs
    simp only [List.mem_map] at hs
    obtain ⟨⟨n, s'⟩, hm, rfl⟩ := hs
    obtain ⟨_, _, r, _, _, _, h⟩ := written_rule (hw ▸ hm)
    exact ⟨r, h⟩
  generalize hss : ws.map (·.2) = ss at hall
  have hline : ws.map (fun w => ruleLine w.2) = ss.map ruleLine := by rw [← hss, List.map_map]; rfl
  rw [hline]
  clear hline
  obtain ⟨rs, hlen, hrs⟩ := choose_rules ss hall
  have hgen : rs.map generate = ss.map .ok := map_of_get hlen fun i r hi => by
    obtain ⟨s, h1, h2, _⟩ := hrs i r hi
    exact ⟨s, h1, h2⟩
  have hmem : ∀ r ∈ rs, ∃ s, generate r = .ok s ∧ (∀ x ∈ ruleVars r, Ident x ∨ x = ['_']) ∧ RuleMeaningful r ∧ ruleSizes r = [] ∧ Simple r := by
    intro r hr
    obtain ⟨i, hi⟩ := List.mem_iff_getElem?.1 hr
    obtain ⟨s, _, h⟩ := hrs i r hi
    exact ⟨s, h⟩
  refine ⟨rs.map showRule, ?_, ?_⟩
  · rw [List.map_map]
    refine (map_of_get hlen fun i r hi => ?_).symm
    obtain ⟨s, h1, h2, h3, _⟩ := hrs i r hi
    exact ⟨s, h1, (ruleLine_generate h2 fun x hx => names_noline (h3 x hx)).2.2.symm⟩
  · have hft := fragFile_text (go := GoText lib) (rs := rs) fun r hr => by
      obtain ⟨s, h2, h3, _⟩ := hmem r hr
      exact ⟨(ruleLine_generate h2 fun x hx => names_noline (h3 x hx)).1, h3⟩
    have hp := parse_complete' hrc hft
    have e : (rs.map showRule).flatMap (fun t => t ++ ['\n']) = rs.flatMap fun r => showRule r ++ ['\n'] := by
      rw [List.flatMap_map]
    rw [e]
    have hl : Loads lib [{ name := name, data := utf8 (rs.flatMap fun r => showRule r ++ ['\n']) }] [⟨rs⟩] := .cons rfl rfl rfl hp .nil
    obtain ⟨hv, ha⟩ := plain_again rs fun r hr => by obtain ⟨s, _, _, h⟩ := hmem r hr; exact h
    have hok := (C43_succeeds_iff lib outdir' [{ name := name, data := utf8 (rs.flatMap fun r => showRule r ++ ['\n']) }]).2 ⟨_, hl, ha⟩
    generalize hrun : runCmd lib (fun _ => none) outdir' [{ name := name, data := utf8 (rs.flatMap fun r => showRule r ++ ['\n']) }] = out at hok
    obtain ⟨tr', res⟩ := out
    simp only at hok
    subst hok
    refine ⟨tr', rfl, ?_⟩
    obtain ⟨files, hl', rfl⟩ := C40_trace lib _ outdir' _ tr' hrun
    cases loads_unique hl hl'
    rw [allEvents_writes, hv, List.length_map, hlen, List.range_eq_range']
    exact accepted_writes outdir' rs ss 0 hgen

theorem mNeqB : meaning "NeqB".toList = some (.binB fun a b => a != b) := rfl
theorem mEqB : meaning "EqB".toList = some (.binB fun a b => a == b) := rfl
theorem mNot : meaning "Not".toList = some (.unB fun a => !a) := rfl

unseal rows rowOf in
/-- C75.  Without the comment the rule cannot be recovered: two different rules, both accepted, with names as in parsed rules, whose scripts read as the same commands. -/
theorem C75_comment_needed : ∃ r r' s s', r ≠ r' ∧ generate r = .ok s ∧ generate r' = .ok s' ∧ (∀ x ∈ ruleVars r, Ident x) ∧ (∀ x ∈ ruleVars r', Ident x) ∧
    readAll s = readAll s' ∧ (readAll s).isSome := by
  let x : Value := .var ['x']
  let y : Value := .var ['y']
  let r : Rule := { «match» := .sexpr { op := .opcode "NeqB".toList } [x, y], result := x }
  let r' : Rule := { «match» := .sexpr { op := .opcode "Not".toList } [.sexpr { op := .opcode "EqB".toList } [x, y]], result := x }
  have hF : RuleFragment .bool r := ⟨rfl, rfl, ⟨_, _, rfl⟩, .sexpr ⟨rfl, rfl, rfl, rfl, rfl, rfl⟩ rfl mNeqB rfl rfl (.cons (.var _) (.cons (.var _) .nil)), .var _⟩
  have hF' : RuleFragment .bool r' := ⟨rfl, rfl, ⟨_, _, rfl⟩, .sexpr ⟨rfl, rfl, rfl, rfl, rfl, rfl⟩ rfl mNot rfl rfl
    (.cons (.sexpr ⟨rfl, rfl, rfl, rfl, rfl, rfl⟩ rfl mEqB rfl rfl (.cons (.var _) (.cons (.var _) .nil))) .nil), .var _⟩
  have hg := generate_ok (t := .bool) (by decide) hF
  have hg' := generate_ok (t := .bool) (by decide) hF'
  have hi : ∀ z : Str, z = ['x'] ∨ z = ['y'] → Ident z := by
    rintro z (rfl | rfl)
    · exact ⟨'x', [], rfl, by decide, by simp⟩
    · exact ⟨'y', [], rfl, by decide, by simp⟩
  have hv : ∀ z ∈ ruleVars r, z = ['x'] ∨ z = ['y'] := by decide
  have hv' : ∀ z ∈ ruleVars r', z = ['x'] ∨ z = ['y'] := by decide
  have hb : ∀ z : Str, z = ['x'] ∨ z = ['y'] → goodName z := by
    rintro z (rfl | rfl) <;> exact ⟨by simp, by decide⟩
  have hc : '\r' ∉ showRule r := showRule_nocr hF fun z hz => by rcases hv z hz with rfl | rfl <;> decide
  have hc' : '\r' ∉ showRule r' := showRule_nocr hF' fun z hz => by rcases hv' z hz with rfl | rfl <;> decide
  have e := readAll_script (t := .bool) hF hc fun z hz => hb z (hv z hz)
  have e' := readAll_script (t := .bool) hF' hc' fun z hz => hb z (hv' z hz)
  refine ⟨r, r', _, _, ?_, hg, hg', fun z hz => hi z (hv z hz), fun z hz => hi z (hv' z hz), ?_, by rw [e]; rfl⟩
  · intro h
    have : (1 : Nat) = 2 := by
      have := congrArg (fun q : Rule => match q.match with | .sexpr _ as => as.length | _ => 0) h
      exact this.symm
    omega
  · rw [e, e']; rfl

/-! Examples. -/

example : ∃ (lib : GoLib) (r : Rule) (s : Str), RejectsComment lib ∧ generate r = .ok s ∧ ∀ x ∈ ruleVars r, Ident x ∨ x = ['_'] := by
  obtain ⟨lib, hl⟩ := rejecting_lib
  obtain ⟨r, _, s, _, _, hg, _, hi, _⟩ := C75_comment_needed
  exact ⟨lib, r, s, hl, hg, fun x hx => .inl (hi x hx)⟩

/-- The run on `cmdInputs` writes scripts: C75_again gives a second run that writes as many. -/
example : ∃ data tr', runCmd demoLib (fun _ => none) "again".toList [{ name := "rules".toList, data := data }] = (tr', .ok ()) ∧
    (writesOf tr').map (·.1) = ["again/0000.smt2".toList, "again/0001.smt2".toList, "again/0002.smt2".toList, "again/0003.smt2".toList] := by
  obtain ⟨texts, h1, tr', h2, _, h3⟩ := C75_again demoLib demoLib_rejects cmdFine cmdOut cmdInputs "again".toList "rules".toList
  refine ⟨_, tr', h2, ?_⟩
  have hc := congrArg (fun p => p.1.length) cmd_fine
  simp only [cmdNames] at hc
  have hl := congrArg List.length h1
  simp only [List.length_map] at hl hc
  rw [h3, ← hl, hc]
  decide +kernel

end Verif.Props

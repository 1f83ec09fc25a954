import Verif.Spec.Cmd
import Verif.Proof.Filter
import Verif.Proof.ParseWF
import Verif.Proof.Printer
import Verif.Proof.Smt2Gen
import Verif.Proof.PegErrMain
/-!
# The command
-/
namespace Verif.Proof
open Verif Verif.Spec

theorem writesOf_append (a b : List Event) : writesOf (a ++ b) = writesOf a ++ writesOf b := by simp [writesOf]

theorem append_cons_split {α : Type} {p rest : List α} {a b : List α} {x : α} (h : a ++ b = p ++ x :: rest) :
    (∃ r, a = p ++ x :: r ∧ rest = r ++ b) ∨ (∃ q, p = a ++ q ∧ b = q ++ x :: rest) := by
  rcases List.append_eq_append_iff.1 h with ⟨c, h1, h2⟩ | ⟨c, h1, h2⟩
  · exact .inr ⟨c, h1, h2⟩
  · cases c with
    | nil => simp at h1 h2; exact .inr ⟨[], by simp [h1], by simp [h2]⟩
    | cons y c => simp at h2; obtain ⟨rfl, rfl⟩ := h2; exact .inl ⟨c, h1, rfl⟩

theorem allWritten_append {ans a b} (h : AllWritten ans a)
    (hb : ∀ p n s rest, b = p ++ .write n s :: rest → ans (writesOf (a ++ p ++ [.write n s])) = none) : AllWritten ans (a ++ b) := by
  intro p n s rest he
  rcases append_cons_split he with ⟨r, rfl, -⟩ | ⟨q, rfl, rfl⟩
  · exact h _ _ _ _ rfl
  · exact hb _ _ _ _ rfl

theorem allWritten_prefix {ans a b} (h : AllWritten ans (a ++ b)) : AllWritten ans a := by
  intro p n s rest he
  subst he
  exact h p n s (rest ++ b) (by simp)

/-- An event that is not a write. -/
def notWrite : Event → Prop
  | .write .. => False
  | _ => True

theorem allWritten_nw {ans a x} (h : AllWritten ans a) (hx : notWrite x) : AllWritten ans (a ++ [x]) := by
  refine allWritten_append h ?_
  intro p n s rest he
  cases p with
  | nil => simp at he; obtain ⟨rfl, -⟩ := he; exact absurd hx (by simp [notWrite])
  | cons y p => simp at he

theorem generate_ne_panic (r : Rule) : generate r ≠ .panic := by
  by_cases h : ∃ s, Ssa.RuleFragment s r
  · obtain ⟨s, h⟩ := h
    obtain ⟨t, ht, rfl⟩ := fragment_signed h
    rw [generate_ok ht h]; simp
  · obtain ⟨e, he⟩ := generate_err (fun s hs => h ⟨s, hs⟩)
    simp [he]

/-- The loop over the rules: it runs to the end, or stops at the first write that fails. -/
theorem genLoop_spec (ans : List (Str × Str) → Option Err) (outdir : Str) (rs : List Rule) (hp : ∀ r ∈ rs, rulePrintable r = true) :
    ∀ i tr, AllWritten ans tr →
      (genLoop ans outdir i rs tr = (tr ++ rulesEvents outdir i rs, .ok ()) ∧ AllWritten ans (tr ++ rulesEvents outdir i rs)) ∨
      ∃ p n s rest e, rulesEvents outdir i rs = p ++ .write n s :: rest ∧ genLoop ans outdir i rs tr = (tr ++ p ++ [.write n s], .err e) ∧
        ans (writesOf (tr ++ p ++ [.write n s])) = some e ∧ AllWritten ans (tr ++ p) := by
  induction rs with
  | nil => intro i tr h; left; simp [genLoop, rulesEvents, h]
  | cons r rs ih =>
    intro i tr h
    have hpr : printBytes (.rule r) = .ok (showRule r) := by
      rw [printBytes_eq]; exact if_pos (hp r (by simp))
    have ih := ih (fun r hr => hp r (by simp [hr]))
    rw [genLoop, hpr]
    simp only [rulesEvents, ruleEvents]
    have h1 : AllWritten ans (tr ++ [.rule (showRule r)]) := allWritten_nw h trivial
    cases hg : generate r with
    | panic => exact absurd hg (generate_ne_panic r)
    | err e =>
      simp only []
      rcases ih (i + 1) (tr ++ [.rule (showRule r)] ++ [.genError e]) (allWritten_nw (x := .genError e) h1 trivial) with ⟨e1, e2⟩ | ⟨p, n, s, rest, e', k1, k2, k3, k4⟩
      · left; rw [e1]; simp only [List.append_assoc, List.cons_append, List.nil_append] at e2 ⊢; exact ⟨trivial, e2⟩
      · right
        refine ⟨.rule (showRule r) :: .genError e :: p, n, s, rest, e', by rw [k1]; simp, ?_, ?_, ?_⟩
        · rw [k2]; simp
        · simpa using k3
        · simpa using k4
    | ok b =>
      simp only []
      generalize hn : joinPath outdir (scriptName i) = name
      cases ha : ans (writesOf (tr ++ [.rule (showRule r)] ++ [.write name b])) with
      | some e =>
        right
        refine ⟨[.rule (showRule r)], name, b, .written name :: rulesEvents outdir (i + 1) rs, e, rfl, ?_, ha, h1⟩
        simp only [ha]
      | none =>
        have h2 : AllWritten ans (tr ++ [.rule (showRule r)] ++ [.write name b]) := by
          refine allWritten_append h1 ?_
          intro p n s rest he
          cases p with
          | nil => simp at he; obtain ⟨⟨rfl, rfl⟩, rfl⟩ := he; simpa using ha
          | cons y p => simp at he
        simp only []
        rcases ih (i + 1) (tr ++ [.rule (showRule r)] ++ [.write name b] ++ [.written name]) (allWritten_nw (x := .written name) h2 trivial) with
          ⟨e1, e2⟩ | ⟨p, n, s, rest, e', k1, k2, k3, k4⟩
        · left; rw [e1]; simp only [List.append_assoc, List.cons_append, List.nil_append] at e2 ⊢; exact ⟨trivial, e2⟩
        · right
          refine ⟨.rule (showRule r) :: .write name b :: .written name :: p, n, s, rest, e', by rw [k1]; simp, ?_, ?_, ?_⟩
          · rw [k2]; simp
          · simpa using k3
          · simpa using k4

/-- `parseData` and `parseBytes` differ in the text of errors only. -/
theorem parseData_spec (lib : GoLib) (name : Str) (data : List UInt8) :
    (∃ f, parseBytes lib data = .ok f ∧ parseData lib name data = .ok f) ∨
    ((∃ e, parseBytes lib data = .err e) ∧ ∃ es, parseFull lib (goTexts lib) lib.order name data = .errors es ∧
      parseData lib name data = .err (.other (errListText (PError.text (goTexts lib) name) es))) := by
  unfold parseData
  rcases full_spec lib (goTexts lib) lib.order name data with ⟨f, h1, h2⟩ | ⟨h1, v, x, xs, -, h2⟩
  · exact .inl ⟨f, h1, by rw [h2]⟩
  · exact .inr ⟨h1, _, h2, by rw [h2]⟩

theorem parseData_ok_iff {lib name data f} : parseData lib name data = .ok f ↔ parseBytes lib data = .ok f := by
  rcases parseData_spec lib name data with ⟨g, h1, h2⟩ | ⟨⟨e, h1⟩, es, -, h2⟩ <;> rw [h1, h2] <;> simp

theorem parseData_ne_panic (lib name data) : parseData lib name data ≠ .panic := by
  rcases parseData_spec lib name data with ⟨g, h1, h2⟩ | ⟨-, es, -, h2⟩ <;> rw [h2] <;> simp

theorem parseFile_ok_iff {lib inp f} : parseFile lib inp = .ok f ↔
    inp.openErr = none ∧ inp.readErr = none ∧ inp.closeErr = none ∧ parseBytes lib inp.data = .ok f := by
  unfold parseFile
  rw [← parseData_ok_iff (name := inp.name)]
  generalize parseData lib inp.name inp.data = d
  cases inp.openErr with
  | some e => simp
  | none =>
    cases inp.readErr with
    | some e => cases inp.closeErr <;> simp
    | none =>
      cases inp.closeErr with
      | some e => cases d <;> simp
      | none => cases d <;> simp

theorem parseFile_ne_panic (lib inp) : parseFile lib inp ≠ .panic := by
  unfold parseFile
  have := parseData_ne_panic lib inp.name inp.data
  revert this
  generalize parseData lib inp.name inp.data = d
  cases inp.openErr with
  | some e => simp
  | none =>
    cases inp.readErr with
    | some e => cases inp.closeErr <;> simp
    | none =>
      cases inp.closeErr with
      | some e => cases d <;> simp
      | none => cases d <;> simp

theorem parseAll_ok {lib inputs files} (h : Loads lib inputs files) : parseAll lib inputs = (parsedEvents inputs files, .ok (allRules files)) := by
  induction h with
  | nil => rfl
  | cons h1 h2 h3 h4 _ ih =>
    rw [parseAll, parseFile_ok_iff.2 ⟨h1, h2, h3, h4⟩, ih]
    simp [allRules, parsedEvents]

theorem loads_length {lib inputs files} (h : Loads lib inputs files) : files.length = inputs.length := by
  induction h with
  | nil => rfl
  | cons => simp [*]

/-- If not all inputs load: the first that does not, and an error; nothing is written. -/
theorem parseAll_err {lib inputs} (h : ¬ ∃ files, Loads lib inputs files) :
    ∃ good inp rest files, inputs = good ++ inp :: rest ∧ Loads lib good files ∧ ∃ e, parseFile lib inp = .err e ∧
      parseAll lib inputs = (parsedEvents good files, .err (.other ("parse: ".toList ++ e.text))) := by
  induction inputs with
  | nil => exact absurd ⟨[], .nil⟩ h
  | cons inp inputs ih =>
    cases hp : parseFile lib inp with
    | panic => exact absurd hp (parseFile_ne_panic _ _)
    | err e => exact ⟨[], inp, inputs, [], rfl, .nil, e, hp, by rw [parseAll, hp]; rfl⟩
    | ok f =>
      obtain ⟨h1, h2, h3, h4⟩ := parseFile_ok_iff.1 hp
      obtain ⟨good, inp', rest, files, rfl, k1, e, k2, k3⟩ := ih (fun ⟨fs, hf⟩ => h ⟨f :: fs, .cons h1 h2 h3 h4 hf⟩)
      refine ⟨inp :: good, inp', rest, f :: files, rfl, .cons h1 h2 h3 h4 k1, e, k2, ?_⟩
      rw [parseAll, hp, k3]
      rfl

theorem loads_wf {lib inputs files} (h : Loads lib inputs files) : ∀ r ∈ allRules files, RuleWF r := by
  induction h with
  | nil => simp [allRules]
  | cons _ _ _ h4 _ ih =>
    intro r hr
    simp only [allRules, List.flatMap_cons, List.mem_append] at hr
    rcases hr with hr | hr
    · exact parse_wf h4 r hr
    · exact ih r hr

theorem simpleRules_sub {files r} (h : r ∈ simpleRules files) : r ∈ allRules files ∧ Simple r := by
  simpa [simpleRules] using h

theorem filter_ok {lib inputs files} (h : Loads lib inputs files) : filterSimple (allRules files) = .ok (simpleRules files) :=
  filterSimple_eq _ fun r hr => meaningful_noNil (ruleWF_meaningful (loads_wf h r hr))

theorem load_ok {lib inputs files} (h : Loads lib inputs files) (ha : ∀ r ∈ simpleRules files, Agree (ruleSizes r)) :
    load lib inputs = (parsedEvents inputs files ++
      [.total (allRules files).length, .simple (simpleRules files).length, .expanded (verified files).length], .ok ⟨verified files⟩) := by
  have he : expandAlternates { rules := simpleRules files } = .ok ⟨verified files⟩ :=
    expandAlternates_ok_iff.2 ⟨fun r hr => ⟨ruleWF_meaningful (loads_wf h r (simpleRules_sub hr).1), ha r hr⟩, rfl⟩
  rw [load, parseAll_ok h]
  simp only [filter_ok h, he]
  simp

theorem load_incompatible {lib inputs files} (h : Loads lib inputs files) (ha : ¬ ∀ r ∈ simpleRules files, Agree (ruleSizes r)) :
    ∃ r ∈ simpleRules files, ∃ m ∈ ruleSizes r, ∃ n ∈ ruleSizes r, m ≠ n ∧
      load lib inputs = (parsedEvents inputs files ++ [.total (allRules files).length, .simple (simpleRules files).length],
        .err (.incompatible m n)) := by
  have hm : ∀ r ∈ simpleRules files, RuleMeaningful r := fun r hr => ruleWF_meaningful (loads_wf h r (simpleRules_sub hr).1)
  rcases expandrules_err hm with ⟨out, e⟩ | ⟨r, hr, m, h1, n, h2, hne, e⟩
  · exact absurd (fun r hr => ((expandrules_ok_iff.1 e).1 r hr).2) ha
  · refine ⟨r, hr, m, h1, n, h2, hne, ?_⟩
    have he : expandAlternates { rules := simpleRules files } = .err (.incompatible m n) := by
      simp only [expandAlternates]; rw [e]; rfl
    rw [load, parseAll_ok h]
    simp only [filter_ok h, he]
    simp

theorem parsedEvents_writes (inputs files) : writesOf (parsedEvents inputs files) = [] := by
  induction inputs generalizing files with
  | nil => rfl
  | cons inp inputs ih => cases files with
    | nil => rfl
    | cons f files => exact ih files

/-! ## The expanded rules -/

theorem mapOps_vars (f : Op → Op) : (∀ v, Ssa.vars (mapOps f v) = Ssa.vars v) ∧ (∀ vs, Ssa.varss (mapOpss f vs) = Ssa.varss vs) := by
  have h : ∀ v, Ssa.vars (mapOps f v) = Ssa.vars v := by
    intro v
    refine Value.rec (motive_1 := fun v => Ssa.vars (mapOps f v) = Ssa.vars v) (motive_2 := fun vs => Ssa.varss (mapOpss f vs) = Ssa.varss vs)
      ?_ ?_ ?_ ?_ ?_ ?_ v
    · rfl
    · intro h args ih; simpa [mapOps, Ssa.vars] using ih
    · intro e; rfl
    · intro n; rfl
    · rfl
    · intro v vs h1 h2; simp [mapOpss, Ssa.varss, h1, h2]
  refine ⟨h, ?_⟩
  intro vs
  induction vs with
  | nil => rfl
  | cons v vs ih => simp [mapOpss, Ssa.varss, h, ih]

theorem pickRule_vars (i : Nat) (r : Rule) : Ssa.ruleVars (pickRule i r) = Ssa.ruleVars r := by
  simp [Ssa.ruleVars, pickRule, mapRuleOps, (mapOps_vars _).1]

mutual
theorem valueWF_vars : ∀ {v}, ValueWF v → ∀ x ∈ Ssa.vars v, Ident x ∨ x = ['_']
  | .var s, h => by simp [Ssa.vars]; exact h
  | .expr e, h => by simp [Ssa.vars]
  | .nil, h => by simp [Ssa.vars]
  | .sexpr hd args, h => by simpa [Ssa.vars] using valuesWF_vars h.2.2.2.2.2
theorem valuesWF_vars : ∀ {vs}, ValuesWF vs → ∀ x ∈ Ssa.varss vs, Ident x ∨ x = ['_']
  | [], _ => by simp [Ssa.varss]
  | v :: vs, h => by
    intro x hx
    simp only [Ssa.varss, List.mem_append] at hx
    rcases hx with hx | hx
    · exact valueWF_vars h.1 x hx
    · exact valuesWF_vars h.2 x hx
end

theorem ruleWF_vars {r} (h : RuleWF r) : ∀ x ∈ Ssa.ruleVars r, Ident x ∨ x = ['_'] := by
  intro x hx
  simp only [Ssa.ruleVars, List.mem_append] at hx
  rcases hx with hx | hx
  · exact valueWF_vars h.1 x hx
  · exact valueWF_vars h.2.2.2 x hx

theorem sym_of_word {c} (h : isWordChar c = true) : Smt.isSymChar c = true := by
  simp only [isWordChar, isLower, Bool.or_eq_true, Bool.and_eq_true, decide_eq_true_eq, beq_iff_eq] at h
  simp only [Smt.isSymChar, Bool.or_eq_true, Bool.and_eq_true, decide_eq_true_eq]
  rcases h with ((rfl | h) | h) | h
  · right; decide
  · exact .inl (.inl (.inl h))
  · exact .inl (.inl (.inr h))
  · exact .inl (.inr h)

theorem var_sym {x : Str} (h : Ident x ∨ x = ['_']) : x ≠ [] ∧ ∀ c ∈ x, Smt.isSymChar c = true := by
  rcases h with ⟨c, t, rfl, h1, h2⟩ | rfl
  · refine ⟨by simp, ?_⟩
    intro d hd
    rcases List.mem_cons.1 hd with rfl | hd
    · exact sym_of_word (lower_word h1)
    · exact sym_of_word (h2 d hd)
  · exact ⟨by simp, by intro c hc; simp at hc; subst hc; decide⟩

/-- Where an expanded rule comes from. -/
theorem mem_verified {files r} (h : r ∈ verified files) : ∃ r0 ∈ simpleRules files, ∃ i, i < count (ruleSizes r0) ∧ r = pickRule i r0 := by
  simp only [verified, List.mem_flatMap, List.mem_map, List.mem_range] at h
  obtain ⟨r0, h0, i, hi, rfl⟩ := h
  exact ⟨r0, h0, i, hi, rfl⟩

theorem mapOps_supported {i : Nat} : (∀ v, ValueWF v → valuePrintable (mapOps (pickOp i) v) = true) := by
  intro v
  refine Value.rec (motive_1 := fun v => ValueWF v → valuePrintable (mapOps (pickOp i) v) = true)
    (motive_2 := fun vs => ValuesWF vs → valuesPrintable (mapOpss (pickOp i) vs) = true) ?_ ?_ ?_ ?_ ?_ ?_ v
  · intro h; exact absurd h (by simp [ValueWF])
  · intro hd args ih ⟨_, ho, _, h1, h2, ha⟩
    have hpo : opPrintable (pickOp i hd.op) = true := by
      cases hop : hd.op with
      | opcode s => rfl
      | parts ps => rfl
      | nil => rw [hop] at ho; exact absurd ho (by simp [OpWF])
    simp [mapOps, valuePrintable, hpo, optClean_supported h1, optClean_supported h2, ih ha]
  · intro e h; exact h.1
  · intro n _; rfl
  · intro _; rfl
  · intro v vs h1 h2 ⟨a, b⟩; simp [mapOpss, valuesPrintable, h1 a, h2 b]

theorem verified_printable {lib inputs files} (h : Loads lib inputs files) : ∀ r ∈ verified files, rulePrintable r = true := by
  intro r hr
  obtain ⟨r0, h0, i, _, rfl⟩ := mem_verified hr
  have hw := loads_wf h r0 (simpleRules_sub h0).1
  simp [rulePrintable, pickRule, mapRuleOps, mapOps_supported _ hw.1, mapOps_supported _ hw.2.2.2, optClean_supported hw.2.1]

/-! ## File names -/

theorem splitSlash_append (a b : Str) (hb : '/' ∉ b) : splitSlash (a ++ '/' :: b) = splitSlash a ++ [b] := by
  have hb' : splitSlash b = [b] := by
    induction b with
    | nil => rfl
    | cons c b ih =>
      simp only [List.mem_cons, not_or] at hb
      rw [splitSlash, if_neg (fun h => hb.1 h.symm), ih hb.2]
  induction a with
  | nil => simp [splitSlash, hb']
  | cons c a ih =>
    simp only [List.cons_append, splitSlash]
    split
    · rw [ih]; rfl
    · rw [ih]
      cases hs : splitSlash a with
      | nil =>
        exfalso
        cases a with
        | nil => simp [splitSlash] at hs
        | cons d a =>
          rw [splitSlash] at hs
          split at hs
          · simp at hs
          · split at hs <;> simp at hs
      | cons w ws => rfl

theorem joinSlash_last (ws : List Str) (w : Str) : joinSlash (ws ++ [w]) = ws.flatMap (fun x => x ++ ['/']) ++ w := by
  induction ws with
  | nil => simp [joinSlash]
  | cons v ws ih =>
    cases ws with
    | nil => simp [joinSlash]
    | cons u ws =>
      simp only [List.cons_append, joinSlash] at ih ⊢
      rw [ih]
      simp

/-- A file name that `filepath.Clean` does not interpret. -/
def NormalName (n : Str) : Prop := n ≠ [] ∧ n ≠ ['.'] ∧ n ≠ ['.', '.'] ∧ '/' ∉ n

/-- The path of a file in the output directory is a prefix that depends on the directory only, followed by the name. -/
theorem joinPath_prefix (outdir : Str) : ∃ dir, ∀ n, NormalName n → joinPath outdir n = dir ++ n := by
  have hstep : ∀ (b : Bool) (stk : List Str) n, NormalName n → cleanStep b stk n = n :: stk := by
    rintro b stk n ⟨h1, h2, h3, -⟩
    unfold cleanStep; rw [if_neg (by simp [h1, h2]), if_neg h3]
  have hsp : ∀ n : Str, '/' ∉ n → splitSlash n = [n] := by
    intro n hn
    induction n with
    | nil => rfl
    | cons c b ih =>
      simp only [List.mem_cons, not_or] at hn
      rw [splitSlash, if_neg (fun h => hn.1 h.symm), ih hn.2]
  by_cases ho : outdir = []
  · refine ⟨[], fun n hn => ?_⟩
    have hroot : (n.head? == some '/') = false := by
      cases n with
      | nil => rfl
      | cons c n => simp; rintro rfl; exact hn.2.2.2 (by simp)
    rw [joinPath, if_pos ho, cleanPath]
    simp only [hroot, hsp n hn.2.2.2, List.foldl_cons, List.foldl_nil, hstep false [] n hn]
    simp [joinSlash]
  · refine ⟨(if outdir.head? == some '/' then ['/'] else []) ++
      (((splitSlash outdir).foldl (cleanStep (outdir.head? == some '/')) []).reverse.flatMap fun x => x ++ ['/']), fun n hn => ?_⟩
    rw [joinPath, if_neg ho, cleanPath]
    have hroot : (outdir ++ '/' :: n).head? = outdir.head? := by cases outdir with | nil => exact absurd rfl ho | cons c o => rfl
    simp only [hroot, splitSlash_append outdir n hn.2.2.2, List.foldl_append, List.foldl_cons, List.foldl_nil]
    rw [hstep _ _ n hn, List.reverse_cons, joinSlash_last]
    cases outdir.head? == some '/' <;> simp

theorem digits_padded (i k : Nat) : Nat.ofDigitChars 10 (List.replicate k '0' ++ Nat.toDigits 10 i) 0 = i := by
  induction k with
  | zero => simp [Nat.ofDigitChars_toDigits]
  | succ k ih =>
    rw [List.replicate_succ, List.cons_append, Nat.ofDigitChars_cons]
    exact ih

theorem scriptName_inj {i j : Nat} (h : scriptName i = scriptName j) : i = j := by
  simp only [scriptName] at h
  have h := List.append_cancel_right h
  have := congrArg (fun s => Nat.ofDigitChars 10 s 0) h
  simpa only [digits_padded] using this

theorem scriptName_normal (i : Nat) : NormalName (scriptName i) := by
  have hl : ∀ c ∈ scriptName i, c.isDigit = true ∨ c ∈ ['.', 's', 'm', 't', '2'] := by
    intro c hc
    simp only [scriptName, List.mem_append] at hc
    rcases hc with (hc | hc) | hc
    · left; have := List.eq_of_mem_replicate hc; subst this; decide
    · left; exact Nat.isDigit_of_mem_toDigits (by decide) (by decide) hc
    · right; exact hc
  have hlen : 5 ≤ (scriptName i).length := by
    simp only [scriptName, List.length_append, List.length_cons, List.length_nil]; omega
  refine ⟨?_, ?_, ?_, ?_⟩
  · intro h; rw [h] at hlen; simp at hlen
  · intro h; rw [h] at hlen; simp at hlen
  · intro h; rw [h] at hlen; simp at hlen
  · intro h
    rcases hl _ h with h | h
    · revert h; decide
    · revert h; decide

theorem path_inj {outdir : Str} {i j : Nat} (h : joinPath outdir (scriptName i) = joinPath outdir (scriptName j)) : i = j := by
  obtain ⟨dir, hd⟩ := joinPath_prefix outdir
  rw [hd _ (scriptName_normal i), hd _ (scriptName_normal j)] at h
  exact scriptName_inj (List.append_cancel_left h)

/-! ## Writes -/

theorem mem_rulesEvents_write {outdir : Str} {rs : List Rule} : ∀ {i n s}, Event.write n s ∈ rulesEvents outdir i rs →
    ∃ k, ∃ r, rs[k]? = some r ∧ n = joinPath outdir (scriptName (i + k)) ∧ generate r = .ok s := by
  induction rs with
  | nil => intro i n s h; simp [rulesEvents] at h
  | cons r rs ih =>
    intro i n s h
    simp only [rulesEvents, List.mem_append] at h
    rcases h with h | h
    · simp only [ruleEvents, List.mem_cons] at h
      rcases h with h | h
      · simp at h
      · cases hg : generate r with
        | ok b =>
          rw [hg] at h
          simp at h
          obtain ⟨rfl, rfl⟩ := h
          exact ⟨0, r, rfl, rfl, hg⟩
        | err e => rw [hg] at h; simp at h
        | panic => rw [hg] at h; simp at h
    · obtain ⟨k, r', h1, h2, h3⟩ := ih h
      exact ⟨k + 1, r', by simpa using h1, by rw [h2]; congr 2; omega, h3⟩

theorem write_mem_rulesEvents {outdir : Str} {rs : List Rule} : ∀ {i k r s}, rs[k]? = some r → generate r = .ok s →
    Event.write (joinPath outdir (scriptName (i + k))) s ∈ rulesEvents outdir i rs := by
  induction rs with
  | nil => intro i k r s h; simp at h
  | cons r0 rs ih =>
    intro i k r s h hg
    simp only [rulesEvents, List.mem_append]
    cases k with
    | zero => simp at h; subst h; left; simp [ruleEvents, hg]
    | succ k =>
      right
      have := ih (i := i + 1) (k := k) (by simpa using h) hg
      have e : i + 1 + k = i + (k + 1) := by omega
      rw [e] at this; exact this

theorem mem_writesOf {tr : List Event} {n s} : (n, s) ∈ writesOf tr ↔ Event.write n s ∈ tr := by
  simp only [writesOf, List.mem_filterMap]
  constructor
  · rintro ⟨e, he, h⟩
    cases e <;> simp at h
    obtain ⟨rfl, rfl⟩ := h; exact he
  · intro h; exact ⟨_, h, rfl⟩

/-- Names written are in increasing order of the rules, so no two are the same. -/
theorem rulesEvents_names {outdir : Str} {rs : List Rule} : ∀ {i}, ((writesOf (rulesEvents outdir i rs)).map (·.1)).Nodup := by
  induction rs with
  | nil => intro i; simp [rulesEvents, writesOf]
  | cons r rs ih =>
    intro i
    simp only [rulesEvents, writesOf_append, List.map_append]
    rw [List.nodup_append]
    refine ⟨?_, ih, ?_⟩
    · simp only [ruleEvents]
      cases generate r <;> simp [writesOf]
    · intro a ha b hb hab
      subst hab
      simp only [List.mem_map] at ha hb
      obtain ⟨⟨n, s⟩, ha, rfl⟩ := ha
      obtain ⟨⟨n', s'⟩, hb, hn⟩ := hb
      simp only at hn; subst hn
      have hb := mem_rulesEvents_write (mem_writesOf.1 hb)
      obtain ⟨k, _, _, e, _⟩ := hb
      have ha := mem_writesOf.1 ha
      simp only [ruleEvents, List.mem_cons] at ha
      rcases ha with ha | ha
      · simp at ha
      · cases hg : generate r with
        | ok b =>
          rw [hg] at ha; simp at ha
          have := path_inj (ha.1 ▸ e)
          omega
        | err e => rw [hg] at ha; simp at ha
        | panic => rw [hg] at ha; simp at ha

theorem loads_mem {lib inputs files} (h : Loads lib inputs files) {r} (hr : r ∈ allRules files) :
    ∃ inp ∈ inputs, ∃ f, parseBytes lib inp.data = .ok f ∧ r ∈ f.rules := by
  induction h with
  | nil => simp [allRules] at hr
  | cons _ _ _ h4 _ ih =>
    simp only [allRules, List.flatMap_cons, List.mem_append] at hr
    rcases hr with hr | hr
    · exact ⟨_, by simp, _, h4, hr⟩
    · obtain ⟨inp, hi, f, hf⟩ := ih hr
      exact ⟨inp, by simp [hi], f, hf⟩

theorem filesAfter_not_mem {ws : List (Str × Str)} {n : Str} : ∀ {fs}, (∀ s, (n, s) ∉ ws) → filesAfter fs ws n = fs n := by
  induction ws with
  | nil => intro fs _; rfl
  | cons w ws ih =>
    obtain ⟨m, t⟩ := w
    intro fs h
    rw [filesAfter, ih (fun s hs => h s (by simp [hs]))]
    exact if_neg fun e => h t (by simp [e])

theorem filesAfter_mem {ws : List (Str × Str)} {n s : Str} : ∀ {fs}, (ws.map (·.1)).Nodup → (n, s) ∈ ws → filesAfter fs ws n = some s := by
  induction ws with
  | nil => intro fs _ h; simp at h
  | cons w ws ih =>
    obtain ⟨m, t⟩ := w
    intro fs hn h
    rw [List.map_cons, List.nodup_cons] at hn
    rw [filesAfter]
    rcases List.mem_cons.1 h with h | h
    · simp only [Prod.mk.injEq] at h
      obtain ⟨rfl, rfl⟩ := h
      rw [filesAfter_not_mem]
      · simp
      · intro s' hs; exact hn.1 (List.mem_map.2 ⟨_, hs, rfl⟩)
    · exact ih hn.2 h

theorem loads_split {lib a b fab} (h : Loads lib (a ++ b) fab) : ∃ fa fb, fab = fa ++ fb ∧ Loads lib a fa ∧ Loads lib b fb := by
  induction a generalizing fab with
  | nil => exact ⟨[], fab, rfl, .nil, h⟩
  | cons inp a ih =>
    cases h with
    | cons h1 h2 h3 h4 h5 =>
      obtain ⟨fa, fb, rfl, k1, k2⟩ := ih h5
      exact ⟨_ :: fa, fb, rfl, .cons h1 h2 h3 h4 k1, k2⟩

theorem verified_append (fa fb : List File) : verified (fa ++ fb) = verified fa ++ verified fb := by
  simp [verified, simpleRules, allRules]

theorem rulesEvents_append (outdir : Str) (a b : List Rule) : ∀ i, rulesEvents outdir i (a ++ b) =
    rulesEvents outdir i a ++ rulesEvents outdir (i + a.length) b := by
  induction a with
  | nil => intro i; simp [rulesEvents]
  | cons r a ih =>
    intro i
    simp only [List.cons_append, rulesEvents, ih, List.append_assoc, List.length_cons]
    congr 3; omega

end Verif.Proof

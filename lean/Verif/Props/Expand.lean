import Verif.Proof.Filter
import Verif.Proof.ExpandError
/-!
# Properties of pass.ExpandAlternates (C05, C06, C08–C12)
-/
namespace Verif.Props

open Verif Verif.Spec

/-! Example rules. -/

/-- opcode `Add(8|16)` -/
def addAlt : Op := .parts [.opcode "Add".toList, .alt ["8".toList, "16".toList]]
/-- `(Add(8|16) x (Neg(8|16) y)) => (Sub(8|16) x y)` -/
def altRule : Rule where
  «match» := .sexpr { op := addAlt } [.var ['x'], .sexpr { op := .parts [.opcode "Neg".toList, .alt ["8".toList, "16".toList]] } [.var ['y']]]
  result := .sexpr { op := .parts [.opcode "Sub".toList, .alt ["8".toList, "16".toList]] } [.var ['x'], .var ['y']]
/-- `(Neg8 (Neg8 x)) => x` -/
def plainRule : Rule where
  «match» := .sexpr { op := .opcode "Neg8".toList } [.sexpr { op := .opcode "Neg8".toList } [.var ['x']]]
  result := .var ['x']
/-- `(Add(8|16) x) => (Sub(8|16|32) x)` -/
def badRule : Rule where
  «match» := .sexpr { op := addAlt } [.var ['x']]
  result := .sexpr { op := .parts [.opcode "Sub".toList, .alt ["8".toList, "16".toList, "32".toList]] } [.var ['x']]

theorem meaningful_examples : RuleMeaningful altRule ∧ RuleMeaningful plainRule ∧ RuleMeaningful badRule := by
  refine ⟨⟨⟨?_, ?_⟩, ⟨?_, ?_⟩⟩, ⟨⟨?_, ?_⟩, ⟨?_, ?_⟩⟩, ⟨⟨?_, ?_⟩, ⟨?_, ?_⟩⟩⟩ <;>
    simp [altRule, plainRule, badRule, addAlt, valuesOf, valuesOfs, opsOf, opsOfs, OpMeaningful]

/-- C05.  If `ExpandAlternates` succeeds, each rule has been replaced, in place, by as many rules as its alternations have
entries (one if it has none), and the `i`-th of these is the rule with the `i`-th entry picked in every alternation. -/
theorem C05_expand_picks (f g : File) (h : expandAlternates f = .ok g) :
    g.rules = f.rules.flatMap fun r => (List.range (count (ruleSizes r))).map fun i => pickRule i r :=
  (expandAlternates_ok_iff.1 h).2

/-- C05, for one rule whose alternations all have `n > 1` entries: exactly `n` rules, the `i`-th has the `i`-th entry everywhere. -/
theorem C05_expand_rule (r : Rule) (hm : RuleMeaningful r) (n : Nat) (hne : ruleSizes r ≠ []) (hs : ∀ m ∈ ruleSizes r, m = n) :
    ∃ l, expandAlternates ⟨[r]⟩ = .ok ⟨l⟩ ∧ l.length = n ∧ ∀ i (hi : i < l.length), l[i] = pickRule i r := by
  have hc : count (ruleSizes r) = n := hs _ (count_mem hne)
  refine ⟨(List.range n).map fun i => pickRule i r, expandAlternates_ok_iff.2 ⟨?_, by simp [expansion, hc]⟩, by simp, by simp⟩
  simp only [List.mem_singleton, forall_eq]
  exact ⟨hm, fun a ha b hb => by rw [hs a ha, hs b hb]⟩

/-- C05.  A rule without alternations is kept as it is. -/
theorem C05_expand_plain (r : Rule) (hm : RuleMeaningful r) (hs : ruleSizes r = []) : expandAlternates ⟨[r]⟩ = .ok ⟨[r]⟩ :=
  expandAlternates_ok_iff.2 ⟨by simp [hm, hs, Agree], by simp [expansion_plain hm hs]⟩

example : ruleSizes altRule = [2, 2, 2] ∧ RuleMeaningful altRule := ⟨rfl, meaningful_examples.1⟩
example : expandAlternates ⟨[altRule, plainRule]⟩ = .ok ⟨[pickRule 0 altRule, pickRule 1 altRule, plainRule]⟩ := rfl
example : (pickRule 1 altRule).match =
    .sexpr { op := .opcode "Add16".toList } [.var ['x'], .sexpr { op := .opcode "Neg16".toList } [.var ['y']]] := rfl

/-- C06.  Exact condition for success, on every AST whatsoever: every opcode is meaningful and within each rule all alternations
have the same size. -/
theorem C06_expand_succeeds_iff (f : File) :
    (∃ g, expandAlternates f = .ok g) ↔ ∀ r ∈ f.rules, RuleMeaningful r ∧ Agree (ruleSizes r) := by
  constructor
  · rintro ⟨g, h⟩; exact (expandAlternates_ok_iff.1 h).1
  · intro h; exact ⟨⟨f.rules.flatMap expansion⟩, expandAlternates_ok_iff.2 ⟨h, rfl⟩⟩

/-- C06.  On a file of meaningful rules the only other outcome is the error `incompatible alternative counts m and n`
with two different sizes occurring in one rule. -/
theorem C06_expand_error (f : File) (hm : ∀ r ∈ f.rules, RuleMeaningful r) :
    (∃ g, expandAlternates f = .ok g) ∨
    ∃ r ∈ f.rules, ∃ m ∈ ruleSizes r, ∃ n ∈ ruleSizes r, m ≠ n ∧ expandAlternates f = .err (.incompatible m n) := by
  simp only [expandAlternates]
  rcases expandrules_err hm with ⟨out, e⟩ | ⟨r, hr, m, h1, n, h2, hne, e⟩
  · left; exact ⟨⟨out⟩, by rw [e]; rfl⟩
  · right; exact ⟨r, hr, m, h1, n, h2, hne, by rw [e]; rfl⟩

example : expandAlternates ⟨[altRule, badRule]⟩ = .err (.incompatible 2 3) ∧
    (∀ r ∈ [altRule, badRule], RuleMeaningful r) := by
  refine ⟨rfl, ?_⟩
  simp [meaningful_examples]

/-- C08.  After success all opcodes of all rules are plain. -/
theorem C08_no_alternatives_left (f g : File) (h : expandAlternates f = .ok g) : ∀ r ∈ g.rules, RulePlain r := by
  obtain ⟨h1, h2⟩ := expandAlternates_ok_iff.1 h
  intro r hr
  rw [h2, List.mem_flatMap] at hr
  obtain ⟨r0, hr0, hr⟩ := hr
  simp only [expansion, List.mem_map, List.mem_range] at hr
  obtain ⟨i, _, rfl⟩ := hr
  exact (pickRule_plain (h1 r0 hr0).1 i).2.1

/-- C08.  A second expansion succeeds and changes nothing. -/
theorem C08_idempotent (f g : File) (h : expandAlternates f = .ok g) : expandAlternates g = .ok g := by
  obtain ⟨h1, h2⟩ := expandAlternates_ok_iff.1 h
  have hp : ∀ r ∈ g.rules, RuleMeaningful r ∧ ruleSizes r = [] := by
    intro r hr
    rw [h2, List.mem_flatMap] at hr
    obtain ⟨r0, hr0, hr⟩ := hr
    simp only [expansion, List.mem_map, List.mem_range] at hr
    obtain ⟨i, _, rfl⟩ := hr
    have := pickRule_plain (h1 r0 hr0).1 i
    exact ⟨this.1, this.2.2⟩
  rw [expandAlternates_ok_iff]
  refine ⟨fun r hr => ⟨(hp r hr).1, by rw [(hp r hr).2]; simp [Agree]⟩, ?_⟩
  generalize g.rules = l at hp
  induction l with
  | nil => rfl
  | cons r l ih =>
    simp only [List.forall_mem_cons] at hp
    rw [List.flatMap_cons, expansion_plain hp.1.1 hp.1.2, ← ih hp.2]
    rfl

example : ∃ g, expandAlternates ⟨[altRule, plainRule]⟩ = .ok g ∧ g.rules.length = 3 := ⟨_, rfl, rfl⟩

/-- Erase all opcodes of a rule: what is left are condition, block, and the shape, bindings, types, AuxInt, Aux, flags, variables and
Go expressions of match and result. -/
def eraseOps (r : Rule) : Rule := mapRuleOps (fun _ => .opcode []) r

/-- C09.  Every rule in the expansion of `r` (here: of the one-rule file) differs from `r` only in its opcodes. -/
theorem C09_only_opcodes_change (r : Rule) (g : File) (h : expandAlternates ⟨[r]⟩ = .ok g) :
    ∀ e ∈ g.rules, eraseOps e = eraseOps r ∧ e.condition = r.condition ∧ e.block = r.block := by
  intro e he
  rw [C05_expand_picks _ _ h] at he
  simp only [List.flatMap_cons, List.flatMap_nil, List.append_nil, List.mem_map] at he
  obtain ⟨i, _, rfl⟩ := he
  refine ⟨?_, rfl, rfl⟩
  simp [eraseOps, pickRule, mapRuleOps, mapOps_mapOps]

/-- C09 says something: erasing opcodes keeps the header fields, the arguments and their order. -/
theorem C09_eraseOps_injective_but_ops (h h' : Hdr) (args args' : List Value)
    (he : mapOps (fun _ => .opcode []) (.sexpr h args) = mapOps (fun _ => .opcode []) (.sexpr h' args')) :
    h.binding = h'.binding ∧ h.type = h'.type ∧ h.auxInt = h'.auxInt ∧ h.aux = h'.aux ∧ h.ellipsis = h'.ellipsis ∧
      h.trailing = h'.trailing ∧
      args.map (mapOps fun _ => .opcode []) = args'.map (mapOps fun _ => .opcode []) := by
  simp only [mapOps, mapOpss_map, Value.sexpr.injEq, Hdr.mk.injEq] at he
  simp [he.1, he.2]

example : ∃ g, expandAlternates ⟨[{ altRule with block := ['b'] }]⟩ = .ok g ∧ g.rules.length = 2 := ⟨_, rfl, rfl⟩

/-- C10.  Expansion of a concatenation is the concatenation of the expansions (in order, each group independent of the other). -/
theorem C10_expand_append (a b : List Rule) :
    expandAlternates ⟨a ++ b⟩ = (do let x ← expandAlternates ⟨a⟩; let y ← expandAlternates ⟨b⟩; .ok ⟨x.rules ++ y.rules⟩) := by
  simp only [expandAlternates, expandrules_append]
  cases expandrules a <;> simp
  cases expandrules b <;> simp

/-- C10.  Every rule contributes at least one rule. -/
theorem C10_never_loses_rules (r : Rule) (g : File) (h : expandAlternates ⟨[r]⟩ = .ok g) : g.rules ≠ [] := by
  have hm := (expandAlternates_ok_iff.1 h).1 r (by simp)
  rw [C05_expand_picks _ _ h]
  have : 1 ≤ count (ruleSizes r) := count_pos (by
    intro x hx
    simp only [ruleSizes, List.mem_append] at hx
    rcases hx with hx | hx
    · exact sizes_ge hm.1.1 x hx
    · exact sizes_ge hm.1.2 x hx)
  intro h0
  have := congrArg List.length h0
  simp at this
  omega

theorem C10_empty_file : expandAlternates ⟨[]⟩ = .ok ⟨[]⟩ := rfl

example : ∃ x y, expandAlternates ⟨[plainRule]⟩ = .ok x ∧ expandAlternates ⟨[altRule]⟩ = .ok y := ⟨_, _, rfl, rfl⟩

/-- C11.  Each of the six feature predicates gives the same answer on a rule and on every rule of its expansion. -/
theorem C11_predicates_invariant (r : Rule) (g : File) (h : expandAlternates ⟨[r]⟩ = .ok g) :
    ∀ e ∈ g.rules, hasBinding e = hasBinding r ∧ hasType e = hasType r ∧ hasAux e = hasAux r ∧ hasAuxInt e = hasAuxInt r ∧
      hasEllipsis e = hasEllipsis r ∧ hasTrailing e = hasTrailing r := by
  have hm := ((expandAlternates_ok_iff.1 h).1 r (by simp)).1
  intro e he
  rw [C05_expand_picks _ _ h] at he
  simp only [List.flatMap_cons, List.flatMap_nil, List.append_nil, List.mem_map] at he
  obtain ⟨i, _, rfl⟩ := he
  have hm' := (pickRule_plain hm i).1
  have key : ∀ (p : Node → Bool) (q : Hdr → Bool), (∀ n, p n = match n with | .sexpr h _ => q h | _ => false) →
      (∀ h o, q { h with op := o } = q h) → contains (.rule (pickRule i r)) p = contains (.rule r) p := by
    intro p q hp hq
    obtain ⟨b, e1, h1⟩ := hasX (pickRule i r) p q hp (meaningful_noNil hm') (fun h => q h = true) (by simp)
    obtain ⟨b', e2, h2⟩ := hasX r p q hp (meaningful_noNil hm) (fun h => q h = true) (by simp)
    rw [e1, e2, Option.some.injEq, Bool.eq_iff_iff, h1, h2]
    exact ruleHas_mapRuleOps _ (by intro h o; rw [hq]) _ _
  refine ⟨key _ (fun h => h.binding != []) ?_ ?_, key _ (fun h => h.type != []) ?_ ?_, key _ (fun h => h.aux.isSome) ?_ ?_,
    key _ (fun h => h.auxInt.isSome) ?_ ?_, key _ (fun h => h.ellipsis) ?_ ?_, key _ (fun h => h.trailing) ?_ ?_⟩ <;>
  first
    | (intro n; cases n <;> rfl)
    | (intro h o; rfl)

open Classical in
/-- C11.  Filtering commutes with expansion: if the whole file expands to `g`, then filtering first and expanding afterwards gives
the same rules as filtering `g`. -/
theorem C11_filter_commutes (f g : File) (h : expandAlternates f = .ok g) :
    ∃ rs out, filterSimple f.rules = .ok rs ∧ expandAlternates ⟨rs⟩ = .ok ⟨out⟩ ∧ filterSimple g.rules = .ok out := by
  obtain ⟨h1, h2⟩ := expandAlternates_ok_iff.1 h
  have hn : ∀ r ∈ f.rules, NoNil (.rule r) := fun r hr => meaningful_noNil (h1 r hr).1
  have hng : ∀ r ∈ g.rules, NoNil (.rule r) := by
    intro r hr
    rw [h2, List.mem_flatMap] at hr
    obtain ⟨r0, hr0, hr⟩ := hr
    simp only [expansion, List.mem_map, List.mem_range] at hr
    obtain ⟨i, _, rfl⟩ := hr
    exact meaningful_noNil (pickRule_plain (h1 r0 hr0).1 i).1
  refine ⟨_, _, filterSimple_eq _ hn, expandAlternates_ok_iff.2 ⟨?_, rfl⟩, ?_⟩
  · intro r hr
    exact h1 r (List.mem_filter.1 hr).1
  · rw [filterSimple_eq _ hng, h2]
    congr 1
    simp only
    generalize f.rules = l
    induction l with
    | nil => rfl
    | cons r l ih =>
      rw [List.flatMap_cons, List.filter_append, ih, List.filter_cons]
      by_cases hs : Simple r
      · simp only [hs, decide_true, if_true, List.flatMap_cons]
        congr 1
        rw [List.filter_eq_self]
        intro e he
        simp only [expansion, List.mem_map] at he
        obtain ⟨i, _, rfl⟩ := he
        exact decide_eq_true ((simple_mapRuleOps _ r).2 hs)
      · simp only [hs, decide_false, Bool.false_eq_true, if_false]
        have : (expansion r).filter (fun r => decide (Simple r)) = [] := by
          rw [List.filter_eq_nil_iff]
          intro e he
          simp only [expansion, List.mem_map] at he
          obtain ⟨i, _, rfl⟩ := he
          rw [decide_eq_true_eq]
          exact fun hh => hs ((simple_mapRuleOps _ r).1 hh)
        rw [this]
        rfl

example : ∃ g, expandAlternates ⟨[altRule, { altRule with block := ['b'] }]⟩ = .ok g ∧ g.rules.length = 4 ∧
    ∃ l, filterSimple g.rules = .ok l ∧ l.length = 2 := ⟨_, rfl, rfl, _, rfl, rfl⟩

/-- The natural claim (no panic at all) is false of the code: a one-entry alternation next to a longer one makes `ExpandAlternates` panic
(index out of range; pass/alt.go:167 does not use `idx`). -/
theorem C12_false : ¬ ∀ f, expandAlternates f ≠ .panic := by
  intro h
  refine h ⟨[{ «match» := .sexpr { op := .parts [.alt [['A']], .alt [['8'], ['9']]] } [], result := .var ['x'] }]⟩ ?_
  rfl

/-- An opcode that mixes a one-entry alternation with a longer one. -/
def MixesOne : Op → Prop
  | .parts ps => (∃ c, .alt [c] ∈ ps) ∧ ∃ cs, .alt cs ∈ ps ∧ 1 < cs.length
  | _ => False

/-- C12.  Without such an opcode there is never a panic, on any AST (nil values and opcodes, empty
alternations and empty parts included). -/
theorem C12_no_panic (f : File)
    (h : ∀ r ∈ f.rules, ∀ o ∈ opsOf r.match ++ opsOf r.result, ¬ MixesOne o) : expandAlternates f ≠ .panic := by
  intro hp
  obtain ⟨r, hr, o, ho, hop⟩ := expandAlternates_panic hp
  obtain ⟨ps, rfl, _, h1, n, hn, ⟨cs, hcs, hlen⟩, _⟩ := (expandop_panic_iff o).1 hop
  exact h r hr _ ho ⟨h1, cs, hcs, by omega⟩

/-- C12.  Exactly which single opcodes cause the panic. -/
theorem C12_panic_iff (hd : Hdr) :
    expandAlternates ⟨[{ «match» := .sexpr hd [], result := .var ['x'] }]⟩ = .panic ↔
      ∃ ps, hd.op = .parts ps ∧ .nil ∉ ps ∧ (∃ c, .alt [c] ∈ ps) ∧
        ∃ n, 1 < n ∧ (∃ cs, .alt cs ∈ ps ∧ cs.length = n) ∧ ∀ cs, .alt cs ∈ ps → cs.length = 1 ∨ cs.length = n := by
  rw [← expandop_panic_iff]
  constructor
  · intro h
    obtain ⟨r, hr, o, ho, hop⟩ := expandAlternates_panic h
    simp only [List.mem_singleton] at hr
    subst hr
    simp [opsOf, opsOfs] at ho
    rw [← ho]; exact hop
  · intro h
    simp [expandAlternates, expandrules, forRes, expandrule, expandvalue, h]

/-- an ill-formed file (nil argument, empty alternation) that is rejected without panic -/
example : expandAlternates ⟨[{ «match» := .sexpr { op := .opcode ['A'] } [.nil], result := .nil }]⟩ = .err (.unexpectedType nilType) ∧
    expandAlternates ⟨[{ «match» := .sexpr { op := .parts [.alt []] } [], result := .nil }]⟩ =
      .err (.assertion "expect positive counts".toList) := ⟨rfl, rfl⟩

/-! ## C57 -/

/-- C57.  For every AST whatsoever: `ExpandAlternates` ends with a given error text, or with a panic, exactly if that is the account of the first fault in the
file (`Spec.FileFault`): in the first faulty rule the fault of the match, else of the result, else of the two together; in a value the fault of the opcode, else
of the first argument that has one or whose alternations differ in size from those before. -/
theorem C57_failure_iff (f : File) (e : Fault) : faultOf (expandAlternates f) = some e ↔ FileFault f e := expand_failure_iff f e

/-- C57.  So the account is unique, and there is one unless every rule is meaningful with alternations of one size. -/
theorem C57_one_fault (f : File) : (∀ r ∈ f.rules, Uniform [r.match, r.result]) ∨ ∃ e, FileFault f e ∧ ∀ e', FileFault f e' → e' = e := by
  rcases file_fault_or f.rules with h | ⟨e, h⟩
  · exact .inl h
  · refine .inr ⟨e, h, fun e' h' => ?_⟩
    have h1 := expand_fault (f := f) h
    rw [expand_fault h'] at h1
    exact Option.some.inj h1

/-- C12.  The panics on files of any size: exactly when the first fault is an opcode with an alternation of one entry beside a longer one. -/
theorem C12_panic_file_iff (f : File) : expandAlternates f = .panic ↔ FileFault f .crash := by
  rw [← C57_failure_iff]
  cases expandAlternates f with
  | ok g => exact ⟨(by intro h; cases h), (by intro h; cases h)⟩
  | err e => exact ⟨(by intro h; cases h), (by intro h; cases h)⟩
  | panic => exact ⟨fun _ => rfl, fun _ => rfl⟩

/-- `(A(8|16) (B(8|16|32) (C(1|2|3|4) x))) => x`: the inner clash is reported. -/
example : FileFault ⟨[altRule, { «match» := .sexpr { op := addAlt } [.sexpr { op := .parts [.alt ["8".toList, "16".toList, "32".toList]] }
      [.sexpr { op := .parts [.alt [['1'], ['2'], ['3'], ['4']]] } [.var ['x']]]], result := .var ['x'] }]⟩
    (.text "incompatible alternative counts 3 and 4".toList) :=
  (C57_failure_iff _ _).1 (by
    show some (Fault.text _) = some (Fault.text _)
    exact congrArg (some ∘ Fault.text) (by decide +kernel))
/-- a panic hidden behind a fine rule -/
example : FileFault ⟨[altRule, { «match» := .sexpr { op := .parts [.alt [['A']], .alt [['8'], ['9']]] } [], result := .var ['x'] }]⟩ .crash :=
  (C57_failure_iff _ _).1 rfl

end Verif.Props

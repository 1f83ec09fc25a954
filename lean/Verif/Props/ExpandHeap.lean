import Verif.Proof.ExpandHeap
import Verif.Props.Expand
/-!
# Property C07: expansion is all-or-nothing and does not modify existing objects
-/
namespace Verif.Props

open Verif Verif.Spec

/-- C07, failure (error or panic).  If expansion of the file fails, `ExpandAlternates` on any heap representing it fails the same way and leaves
every existing object (the file included) as it was; it only allocated new ones. -/
theorem C07_failure_changes_nothing (h : Heap) (p : Addr) (ps : List Addr) (f : File) (fuel : Nat)
    (hrep : RepFile h p ps f) (hfuel : fileDepth f ≤ fuel) (hfail : ∀ g, expandAlternates f ≠ .ok g) :
    ∃ res h', hexpandAlternates fuel p h = some (res, h') ∧ (∀ u, res ≠ .ok u) ∧
      (∀ e, expandAlternates f = .err e → res = .err e) ∧
      (∀ a, a < h.length → h'[a]? = h[a]?) ∧ RepFile h' p ps f := by
  obtain ⟨arr, h1, h2, h3⟩ := hrep
  obtain ⟨ra, h', e, hp, hr⟩ := hexpandrules_refines fuel ps f.rules h (fileDepth_le hfuel) (relList_repRules.2 h3)
  have hext : ∀ a, a < h.length → h'[a]? = h[a]? := by
    obtain ⟨t, rfl⟩ := hp
    intro a ha
    rw [List.getElem?_append_left ha]
  have hrep' : RepFile h' p ps f := ⟨arr, getElem?_of_prefix hp h1, getElem?_of_prefix hp h2,
    relList_repRules.1 ((relList_repRules.2 h3).mono fun _ _ => RepRule_mono hp)⟩
  cases hx : forRes expandrule f.rules with
  | ok xss =>
    exact absurd (by simp [expandAlternates, expandrules, hx]) (hfail ⟨xss.flatten⟩)
  | err er =>
    rw [hx] at hr
    subst hr
    refine ⟨.err er, h', ?_, by simp, ?_, hext, hrep'⟩
    · simp [hexpandAlternates, hexpandrules, bind, HM.bind, HM.read, h1, h2, e]
    · intro e' he'
      simp [expandAlternates, expandrules, hx] at he'
      rw [he']
  | panic =>
    rw [hx] at hr
    subst hr
    refine ⟨.panic, h', ?_, by simp, ?_, hext, hrep'⟩
    · simp [hexpandAlternates, hexpandrules, bind, HM.bind, HM.read, h1, h2, e]
    · intro e' he'
      simp [expandAlternates, expandrules, hx] at he'

/-- C07, success.  The file object now has the expanded rules; it is the only existing object that is changed (no rule,
S-expression, argument array or rule array is modified).  The new rule pointers come in groups, one per old rule, in order; the group of the `j`-th
rule represents its expansion, and for a rule without alternations it consists of the old pointer. -/
theorem C07_success_changes_only_the_file (h : Heap) (p : Addr) (ps : List Addr) (f g : File) (fuel : Nat)
    (hrep : RepFile h p ps f) (hfuel : fileDepth f ≤ fuel) (hok : expandAlternates f = .ok g) :
    ∃ (h' : Heap) (groups : List (List Addr)), hexpandAlternates fuel p h = some (.ok (), h') ∧ RepFile h' p groups.flatten g ∧
      (∀ a, a < h.length → a ≠ p → h'[a]? = h[a]?) ∧
      groups.length = ps.length ∧
      ∀ (j : Nat) (r : Rule), f.rules[j]? = some r → ∃ grp q, groups[j]? = some grp ∧ ps[j]? = some q ∧
        RepRules h' grp ((List.range (count (ruleSizes r))).map fun i => pickRule i r) ∧
        (ruleSizes r = [] → grp = [q]) := by
  obtain ⟨arr, h1, h2, h3⟩ := hrep
  obtain ⟨ra, h', e, hp, hr⟩ := hexpandrules_refines fuel ps f.rules h (fileDepth_le hfuel) (relList_repRules.2 h3)
  cases hx : forRes expandrule f.rules with
  | err er => simp [expandAlternates, expandrules, hx] at hok
  | panic => simp [expandAlternates, expandrules, hx] at hok
  | ok xss =>
    rw [hx] at hr
    obtain ⟨gs, rfl, hrel, hgr⟩ := hr
    have hg : g.rules = xss.flatten := by
      simp [expandAlternates, expandrules, hx] at hok
      rw [← hok]
    have hxss := forRes_expandrule_ok hx
    have hlen : p < h'.length := (List.getElem?_eq_some_iff.1 (getElem?_of_prefix hp h1)).1
    have hp'' : h' <+: h' ++ [.rules gs.flatten] := List.prefix_append _ _
    have hfile : (h' ++ [.rules gs.flatten])[p]? = some (.file arr) := getElem?_of_prefix hp'' (getElem?_of_prefix hp h1)
    refine ⟨(h' ++ [Cell.rules gs.flatten]).set p (.file h'.length), gs, ?_, ?_, ?_, ?_, ?_⟩
    · have : p < h'.length + 1 := Nat.lt_succ_of_lt hlen
      simp [hexpandAlternates, hexpandrules, bind, HM.bind, HM.read, h1, h2, e, HM.pure, HM.alloc, HM.write, this]
    · refine ⟨h'.length, ?_, ?_, ?_⟩
      · rw [List.getElem?_set_self (by simpa using Nat.lt_succ_of_lt hlen)]
      · refine getElem?_set_file hfile (by simp) (by simp)
      · rw [hg]
        exact relList_repRules.1 ((relList_flatten hrel).mono fun _ _ hr => RepRule_set hfile (RepRule_mono hp'' hr))
    · intro a ha hne
      rw [List.getElem?_set_ne (Ne.symm hne)]
      obtain ⟨t, rfl⟩ := hp
      rw [List.append_assoc, List.getElem?_append_left ha]
    · rw [hrel.length_eq, hxss, (relList_repRules.2 h3).length_eq]
      simp
    · intro j r hj
      obtain ⟨grp, hgrp, hrgrp⟩ := hrel.get (j := j) (b := expansion r) (by rw [hxss]; simp [hj])
      obtain ⟨q, hq, _⟩ := (relList_repRules.2 h3).get hj
      refine ⟨grp, q, hgrp, hq, relList_repRules.1 (hrgrp.mono fun _ _ hr => RepRule_set hfile (RepRule_mono hp'' hr)), ?_⟩
      intro hs
      refine hgr.get hq hgrp ?_
      rw [hrgrp.length_eq]
      simp [expansion, hs, count]

/-- A heap with a file of two rules, the first with alternatives, sharing one S-expression. -/
def exampleHeap : Heap :=
  [ .file 1, .rules [2, 3],
    .rule (.sexpr 4) none [] (.var ['x']),
    .rule (.sexpr 6) none [] (.var ['y']),
    .sexpr { op := addAlt } 5, .values [.sexpr 6, .var ['x']],
    .sexpr { op := .opcode ['N'] } 7, .values [.var ['y']] ]

example : ∃ f, RepFile exampleHeap 0 [2, 3] f ∧ fileDepth f ≤ 3 ∧ (∃ g, expandAlternates f = .ok g ∧ g.rules.length = 3) := by
  refine ⟨⟨[{ «match» := .sexpr { op := addAlt } [.sexpr { op := .opcode ['N'] } [.var ['y']], .var ['x']], result := .var ['x'] },
    { «match» := .sexpr { op := .opcode ['N'] } [.var ['y']], result := .var ['y'] }]⟩, ⟨1, rfl, rfl, ?_⟩, by decide, _, rfl, rfl⟩
  have hn : RepV exampleHeap (.sexpr 6) (.sexpr { op := .opcode ['N'] } [.var ['y']]) := .sexpr rfl rfl (.cons (.var _) .nil)
  refine .cons ⟨.sexpr 4, .var ['x'], rfl, .sexpr rfl rfl (.cons hn (.cons (.var _) .nil)), .var _⟩ (.cons ⟨.sexpr 6, .var ['y'], rfl, hn, .var _⟩ .nil)

end Verif.Props

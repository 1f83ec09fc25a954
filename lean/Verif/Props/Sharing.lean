import Verif.Proof.Sharing
import Verif.Props.ExpandHeap
/-!
# C64: what expanded rules have in common
-/
namespace Verif.Props

open Verif Verif.Spec

theorem run_groups {h : Heap} {p : Addr} {ps : List Addr} {f g : File} {fuel : Nat} (hrep : RepFile h p ps f) (hfuel : fileDepth f ≤ fuel) (hok : expandAlternates f = .ok g) :
    ∃ (h' : Heap) (groups : List (List Addr)) (own : Nat → Nat → List Nat), hexpandAlternates fuel p h = some (.ok (), h') ∧ RepFile h' p groups.flatten g ∧ Grown h h' p ∧
      groups.length = ps.length ∧ Apart2 h.length h'.length own ∧
      ∀ (j : Nat) r q grp, f.rules[j]? = some r → ps[j]? = some q → groups[j]? = some grp → ∀ (i : Nat) q', grp[i]? = some q' → ROut h h' r q q' (own j i) := by
  obtain ⟨h', groups, e, hrep', hsame, hlen, _⟩ := C07_success_changes_only_the_file h p ps f g fuel hrep hfuel hok
  obtain ⟨arr, h1, h2, h3⟩ := hrep
  have hplt : p < h.length := (List.getElem?_eq_some_iff.1 h1).1
  have e0 := e
  unfold hexpandAlternates at e0
  obtain ⟨c1, ha, e1, f1⟩ := HM.bind_ok e0
  obtain ⟨g1, rfl⟩ := HM.read_ok e1
  rw [h1] at g1
  cases g1
  dsimp only at f1
  obtain ⟨c2, hb, e2, f2⟩ := HM.bind_ok f1
  obtain ⟨g2, rfl⟩ := HM.read_ok e2
  rw [h2] at g2
  cases g2
  dsimp only at f2
  obtain ⟨out, hc, e3, f3⟩ := HM.bind_ok f2
  obtain ⟨arr', hd, e4, f4⟩ := HM.bind_ok f3
  obtain ⟨rfl, rfl⟩ := HM.alloc_ok e4
  obtain ⟨_, rfl⟩ := HM.write_ok f4
  unfold hexpandrules at e3
  obtain ⟨gs, hk, e5, f5⟩ := HM.bind_ok e3
  obtain ⟨rfl, rfl⟩ := HM.pure_ok f5
  obtain ⟨p1, own, hap, hout⟩ := hexpandrules_out fuel hb ps f.rules hb _ gs (fileDepth_le hfuel) List.prefix_rfl (relList_repRules.2 h3) e5
  obtain ⟨xss, hx⟩ : ∃ xss, forRes expandrule f.rules = .ok xss := by
    cases hx : forRes expandrule f.rules with
    | ok xss => exact ⟨xss, rfl⟩
    | err er => simp [expandAlternates, expandrules, hx] at hok
    | panic => simp [expandAlternates, expandrules, hx] at hok
  obtain ⟨ra, h'', e6, hp6, hr6⟩ := hexpandrules_refines fuel ps f.rules hb (fileDepth_le hfuel) (relList_repRules.2 h3)
  rw [hx] at hr6
  obtain ⟨gs', rfl, hrel, _⟩ := hr6
  rw [e5] at e6
  cases e6
  have hlp := hp6.length_le
  have hfl : groups.flatten = gs.flatten := by
    obtain ⟨arr1, k1, k2, _⟩ := hrep'
    rw [List.getElem?_set_self (by rw [List.length_append]; exact Nat.lt_of_lt_of_le (Nat.lt_of_lt_of_le hplt hlp) (Nat.le_add_right _ _))] at k1
    cases k1
    rw [List.getElem?_set_ne (Nat.ne_of_lt (Nat.lt_of_lt_of_le hplt hlp))] at k2
    simp at k2
    exact k2.symm
  rw [hfl] at hrep'
  refine ⟨_, gs, own, e, hrep', ⟨⟨arr, h1⟩, hsame⟩, ?_, ?_, ?_⟩
  · rw [hrel.length_eq, forRes_expandrule_ok hx, List.length_map, (relList_repRules.2 h3).length_eq]
  · refine ⟨hap.nodup, hap.disj, fun j i a ha => ?_⟩
    have := hap.range j i a ha
    simp only [List.length_set, List.length_append, List.length_cons, List.length_nil]
    omega
  · intro j r q grp hj1 hj2 hj3 i q' hq
    rcases ROut_mono (List.prefix_append _ [Cell.rules gs.flatten]) (hout j r q grp hj1 hj2 hj3 i q' hq) with hr | ⟨k1, k2⟩
    · exact .inl hr
    · exact .inr ⟨k1, NewRule_set hplt k2⟩

/-- Positions in a list of lists. -/
theorem flatten_position {α : Type} : ∀ (gs : List (List α)), ∃ pos : Nat → Nat × Nat,
    (∀ k x, gs.flatten[k]? = some x → ∃ g, gs[(pos k).1]? = some g ∧ g[(pos k).2]? = some x) ∧
    ∀ k k', k < gs.flatten.length → k' < gs.flatten.length → pos k = pos k' → k = k' := by
  intro gs
  induction gs with
  | nil => exact ⟨fun _ => (0, 0), by simp, by simp⟩
  | cons g gs ih =>
    obtain ⟨pos, h1, h2⟩ := ih
    refine ⟨fun k => if k < g.length then (0, k) else ((pos (k - g.length)).1 + 1, (pos (k - g.length)).2), ?_, ?_⟩
    · intro k x hx
      rw [List.flatten_cons] at hx
      by_cases hk : k < g.length
      · rw [List.getElem?_append_left hk] at hx
        exact ⟨g, by simp [hk], by simp only [hk, if_true]; exact hx⟩
      · rw [List.getElem?_append_right (by omega)] at hx
        obtain ⟨g', k1, k2⟩ := h1 _ _ hx
        exact ⟨g', by simp [hk, k1], by simp [hk, k2]⟩
    · intro k k' hk hk' he
      rw [List.flatten_cons, List.length_append] at hk hk'
      by_cases c1 : k < g.length <;> by_cases c2 : k' < g.length <;> simp only [c1, c2, if_true, if_false, Prod.mk.injEq] at he
      · exact he.2
      · omega
      · omega
      · have := h2 (k - g.length) (k' - g.length) (by omega) (by omega) (Prod.ext (by omega) he.2)
        omega

/-- C64: what the new rules are made of.  The rules of the file come in groups, one per old rule.  A rule without alternations is the old object.  The others are new objects: their S-expressions with
an alternation inside are new too, and the ones without are the very objects of the old rule, so they are shared by the whole group.  No new object is used twice in a rule. -/
theorem C64_sharing (h : Heap) (p : Addr) (ps : List Addr) (f g : File) (fuel : Nat) (hrep : RepFile h p ps f) (hfuel : fileDepth f ≤ fuel) (hok : expandAlternates f = .ok g) :
    ∃ (h' : Heap) (groups : List (List Addr)), hexpandAlternates fuel p h = some (.ok (), h') ∧ RepFile h' p groups.flatten g ∧ groups.length = ps.length ∧
      ∀ (j : Nat) r q grp, f.rules[j]? = some r → ps[j]? = some q → groups[j]? = some grp → ∀ q' ∈ grp,
        if ruleSizes r = [] then q' = q else ∃ L, NewRule h h' r q q' L ∧ L.Nodup := by
  obtain ⟨h', groups, own, e, hrep', _, hlen, hap, hout⟩ := run_groups hrep hfuel hok
  refine ⟨h', groups, e, hrep', hlen, ?_⟩
  intro j r q grp hj1 hj2 hj3 q' hq
  obtain ⟨i, hi⟩ := List.mem_iff_getElem?.1 hq
  rcases hout j r q grp hj1 hj2 hj3 i q' hi with ⟨k1, k2, _⟩ | ⟨k1, k2⟩
  · rw [if_pos k1]; exact k2
  · rw [if_neg k1]; exact ⟨_, k2, hap.nodup j i⟩

/-- C64: new objects are private.  An object that was not there before the expansion belongs to one of the rules only, so it may be modified in any way; all the other rules of the file stay as they are. -/
theorem C64_private (h : Heap) (p : Addr) (ps : List Addr) (f g : File) (fuel : Nat) (hrep : RepFile h p ps f) (hfuel : fileDepth f ≤ fuel)
    (h' : Heap) (hrun : hexpandAlternates fuel p h = some (.ok (), h')) (hok : expandAlternates f = .ok g) :
    ∃ qs, RepFile h' p qs g ∧ ∀ (k k' : Nat) (q q' : Addr) (r' : Rule), qs[k]? = some q → qs[k']? = some q' → g.rules[k']? = some r' → k ≠ k' →
      ∀ a : Nat, h.length ≤ a → ReachRule h' q a → ¬ ReachRule h' q' a ∧ ∀ c : Cell, RepRule (h'.set a c) q' r' := by
  obtain ⟨h1, groups, own, e, hrep', hgrown, hlen, hap, hout⟩ := run_groups hrep hfuel hok
  rw [e] at hrun
  cases hrun
  refine ⟨groups.flatten, hrep', ?_⟩
  intro k k' q q' r' hk hk' hr' hne a ha hreach
  obtain ⟨pos, hpos, hinj⟩ := flatten_position groups
  have hin : ∀ k q, groups.flatten[k]? = some q → ∀ a : Nat, h.length ≤ a → ReachRule h' q a → a ∈ own (pos k).1 (pos k).2 := by
    intro k q hk a ha hreach
    obtain ⟨grp, g1, g2⟩ := hpos k q hk
    have hj : (pos k).1 < ps.length := by
      have := (List.getElem?_eq_some_iff.1 g1).1
      omega
    obtain ⟨_, _, _, h3⟩ := hrep
    have hl := (relList_repRules.2 h3).length_eq
    obtain ⟨q0, k2, k3⟩ := (relList_repRules.2 h3).get (List.getElem?_eq_getElem (l := f.rules) (i := (pos k).1) (by omega))
    have hro := hout _ _ _ _ (List.getElem?_eq_getElem (by omega)) k2 g1 _ q g2
    exact reach_rule hgrown k3 hro hreach ha
  have hno : ¬ ReachRule h' q' a := by
    intro hr
    refine hap.disj _ _ _ _ ?_ a (hin k q hk a ha hreach) (hin k' q' hk' a ha hr)
    by_cases c1 : (pos k).1 = (pos k').1
    · right
      intro c2
      exact hne (hinj k k' (List.getElem?_eq_some_iff.1 hk).1 (List.getElem?_eq_some_iff.1 hk').1 (Prod.ext c1 c2))
    · exact .inl c1
  refine ⟨hno, fun c => RepRule_unreached ?_ hno⟩
  obtain ⟨_, _, _, h3⟩ := hrep'
  obtain ⟨q1, k1, k2⟩ := (relList_repRules.2 h3).get hr'
  rw [hk'] at k1
  cases k1
  exact k2

/-- The heap after expanding `exampleHeap` (Props/ExpandHeap), whose first rule is `((Add8|Add16) (N y) x) => x`. -/
def expandedHeap : Heap :=
  match hexpandAlternates 3 0 exampleHeap with
  | some (_, h') => h'
  | none => []

/-- The two rules made from the first one are the objects 12 and 13; the S-expression `(N y)`, object 6, is part of both (and of the second rule): modifying it in one of them modifies it in all. -/
theorem C64_shared_example : ReachRule expandedHeap 12 6 ∧ ReachRule expandedHeap 13 6 ∧ ReachRule expandedHeap 3 6 ∧
    RepRule expandedHeap 13 { «match» := .sexpr { op := .opcode "Add16".toList } [.sexpr { op := .opcode ['N'] } [.var ['y']], .var ['x']], result := .var ['x'] } ∧
    RepRule (expandedHeap.set 6 (.sexpr { op := .opcode ['M'] } 7)) 13
      { «match» := .sexpr { op := .opcode "Add16".toList } [.sexpr { op := .opcode ['M'] } [.var ['y']], .var ['x']], result := .var ['x'] } := by
  have hN : RepV expandedHeap (.sexpr 6) (.sexpr { op := .opcode ['N'] } [.var ['y']]) := .sexpr rfl rfl (.cons (.var _) .nil)
  refine ⟨.match rfl (.arg rfl rfl (.head .here)), .match rfl (.arg rfl rfl (.head .here)), .match rfl .here, ?_, ?_⟩
  · exact ⟨.sexpr 10, .var ['x'], rfl, .sexpr rfl rfl (.cons hN (.cons (.var _) .nil)), .var _⟩
  · exact ⟨.sexpr 10, .var ['x'], rfl, .sexpr rfl rfl (.cons (.sexpr rfl rfl (.cons (.var _) .nil)) (.cons (.var _) .nil)), .var _⟩

/-- An object of its own: the S-expression 8 (`exampleHeap` has 8 cells) belongs to the rule 12, so, by C64_private, to no other. -/
example : ReachRule expandedHeap 12 8 ∧ exampleHeap.length = 8 ∧ ∃ f g, RepFile exampleHeap 0 [2, 3] f ∧ fileDepth f ≤ 3 ∧ expandAlternates f = .ok g ∧ g.rules.length = 3 ∧
    hexpandAlternates 3 0 exampleHeap = some (.ok (), expandedHeap) := by
  refine ⟨.match rfl .here, rfl, ⟨[{ «match» := .sexpr { op := addAlt } [.sexpr { op := .opcode ['N'] } [.var ['y']], .var ['x']], result := .var ['x'] },
    { «match» := .sexpr { op := .opcode ['N'] } [.var ['y']], result := .var ['y'] }]⟩, _, ⟨1, rfl, rfl, ?_⟩, by decide, rfl, rfl, rfl⟩
  have hn : RepV exampleHeap (.sexpr 6) (.sexpr { op := .opcode ['N'] } [.var ['y']]) := .sexpr rfl rfl (.cons (.var _) .nil)
  refine .cons ⟨.sexpr 4, .var ['x'], rfl, .sexpr rfl rfl (.cons hn (.cons (.var _) .nil)), .var _⟩ (.cons ⟨.sexpr 6, .var ['y'], rfl, hn, .var _⟩ .nil)

end Verif.Props

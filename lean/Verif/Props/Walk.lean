import Verif.Proof.Walk
/-!
# Properties of ast.Walk, ast.Inspect, ast.Contains and the rules package (C01–C04)
-/
namespace Verif.Props

open Verif Verif.Spec

/-- C01.  Running `Inspect` with a callback whose answers are given by `ans` (an arbitrary function of all nodes it was
given before and of the node it is given now) returns normally, having presented the nodes `tr` in this order, iff `tr` is the pruned
depth-first pre-order traversal of the tree. -/
theorem C01_inspect_is_pruned_preorder (ans : List Node → Node → Bool) (n : Node) (tr : List Node) :
    inspect n (logging ans) [] = .done tr ↔ PreOrder ans [] n tr := by
  rw [inspect_preorder]
  constructor
  · rintro ⟨t, h, rfl⟩; simpa using h
  · intro h; exact ⟨tr, h, by simp⟩

/-- C01.  A callback that always answers `true` is given every node of the tree, exactly once, in pre-order. -/
theorem C01_inspect_all (n : Node) (hn : NoNil n) :
    inspect n (logging fun _ _ => true) [] = .done (flat n) := by
  obtain ⟨tr, h⟩ := walk_done (inspector (logging fun _ _ => true)) n hn () []
  have h' : inspect n (logging fun _ _ => true) [] = .done tr := h
  rw [h']
  rw [C01_inspect_is_pruned_preorder] at h'
  rw [preOrder_true_flat _ _ _ h']

/-- C01.  … where the nodes of the tree are the root and its descendants. -/
theorem C01_nodes_of_tree (n m : Node) : m ∈ flat n ↔ Desc n m := mem_flat_iff n m

/-- C01.  Pre-order: the root, then the trees of its children from left to right. -/
theorem C01_flat_children (n : Node) : flat n = n :: (children n).flatMap flat := flat_eq n

/-- C01, for `Walk` itself with an arbitrary (stateful) visitor: the node is visited first; if the visitor returned is
nil nothing else happens, otherwise the returned visitor walks the children from left to right. -/
theorem C01_walk_children {V σ : Type} (vis : Visiting V σ) (v : V) (n : Node) (s : σ) (hn : n ≠ .nil) :
    walk vis v n s =
      match vis.visit v n s with
      | (s', none) => .done s'
      | (s', some w) => forEach (walk vis w) (children n) s' := by
  rw [walk_eq]
  have : isNil n = false := by cases n <;> simp_all [isNil]
  rcases vis.visit v n s with ⟨s', _ | w⟩ <;> simp [this]

/-- The rule `(Add8 x y) => (Neg8 (Neg8 x))`, used in the examples. -/
def exampleRule : Rule where
  «match» := .sexpr { op := .opcode "Add8".toList } [.var ['x'], .var ['y']]
  result := .sexpr { op := .opcode "Neg8".toList, binding := ['b'] }
    [.sexpr { op := .opcode "Neg8".toList, trailing := true } [.var ['x']]]

/-- Computable version of `NoNil`. -/
def noNilB (n : Node) : Bool := (flat n).all fun m => !isNil m

theorem noNil_iff (n : Node) : NoNil n ↔ noNilB n = true := by
  simp only [NoNil, noNilB, List.all_eq_true, mem_flat_iff]
  constructor
  · intro h m hm
    cases m <;> simp [isNil]
    exact h hm
  · intro h hm
    simpa [isNil] using h _ hm

theorem exampleRule_noNil : NoNil (.rule exampleRule) := (noNil_iff _).2 (by decide)

example : (flat (.rule exampleRule)).length = 10 := by decide

/-- pruning below `(Add8 x y)`: 7 of the 10 nodes are presented -/
example : ∃ tr, inspect (.rule exampleRule)
    (logging fun _ n => match n with | .sexpr h _ => h.op != .opcode "Add8".toList | _ => true) [] = .done tr ∧ tr.length = 7 :=
  ⟨_, rfl, rfl⟩

/-- C02.  On a tree without nil, `Contains` with the predicate `p` (which records its calls) answers whether some node satisfies `p`,
and it calls the predicate on the pre-order list of nodes up to and including the first node that satisfies it. -/
theorem C02_contains (p : Node → Bool) (n : Node) (hn : NoNil n) :
    ∃ b, containsRun n (recPred p) [] = .done (b, upTo p (flat n)) ∧ contains n p = some b ∧
      (b = true ↔ ∃ m, Desc n m ∧ p m = true) := by
  refine ⟨(flat n).any p, ?_, contains_noNil n p hn, ?_⟩
  · rw [(contains_spec p n []).1, (contains_spec p n []).2, flat_noNil_upTo p n hn]
    simp
  · simp [List.any_eq_true, mem_flat_iff]

/-- C02, in general (nil nodes allowed): if `Contains` returns, its answer is right and the calls are as stated. -/
theorem C02_contains_of_done (p : Node → Bool) (n : Node) (b : Bool) (log : List Node)
    (h : containsRun n (recPred p) [] = .done (b, log)) :
    log = upTo p (flat n) ∧ (b = true ↔ ∃ m, Desc n m ∧ p m = true) := by
  rw [(contains_spec p n []).1, (contains_spec p n []).2] at h
  split at h
  · simp at h
  · simp only [Out.done.injEq, Prod.mk.injEq, List.nil_append] at h
    refine ⟨h.2.symm, ?_⟩
    rw [← h.1]
    simp [List.any_eq_true, mem_flat_iff]

example : ∃ log, containsRun (.rule exampleRule) (recPred nodeHasBinding) [] = .done (true, log) ∧ log.length = 6 :=
  ⟨_, rfl, rfl⟩

/-- C03. -/
theorem C03_hasBinding (r : Rule) (hn : NoNil (.rule r)) :
    ∃ b, hasBinding r = some b ∧ (b = true ↔ RuleHas (fun h => h.binding ≠ []) r) := by
  refine hasX r _ (fun h => h.binding != []) (by intro n; cases n <;> rfl) hn _ (by simp)
/-- C03. -/
theorem C03_hasType (r : Rule) (hn : NoNil (.rule r)) :
    ∃ b, hasType r = some b ∧ (b = true ↔ RuleHas (fun h => h.type ≠ []) r) := by
  refine hasX r _ (fun h => h.type != []) (by intro n; cases n <;> rfl) hn _ (by simp)
/-- C03. -/
theorem C03_hasAux (r : Rule) (hn : NoNil (.rule r)) :
    ∃ b, hasAux r = some b ∧ (b = true ↔ RuleHas (fun h => h.aux ≠ none) r) := by
  refine hasX r _ (fun h => h.aux.isSome) (by intro n; cases n <;> rfl) hn _ (by intro h; cases h.aux <;> simp)
/-- C03. -/
theorem C03_hasAuxInt (r : Rule) (hn : NoNil (.rule r)) :
    ∃ b, hasAuxInt r = some b ∧ (b = true ↔ RuleHas (fun h => h.auxInt ≠ none) r) := by
  refine hasX r _ (fun h => h.auxInt.isSome) (by intro n; cases n <;> rfl) hn _ (by intro h; cases h.auxInt <;> simp)
/-- C03. -/
theorem C03_hasEllipsis (r : Rule) (hn : NoNil (.rule r)) :
    ∃ b, hasEllipsis r = some b ∧ (b = true ↔ RuleHas (fun h => h.ellipsis = true) r) := by
  refine hasX r _ (fun h => h.ellipsis) (by intro n; cases n <;> rfl) hn _ (by simp)
/-- C03. -/
theorem C03_hasTrailing (r : Rule) (hn : NoNil (.rule r)) :
    ∃ b, hasTrailing r = some b ∧ (b = true ↔ RuleHas (fun h => h.trailing = true) r) := by
  refine hasX r _ (fun h => h.trailing) (by intro n; cases n <;> rfl) hn _ (by simp)

example : hasTrailing exampleRule = some true ∧ hasBinding exampleRule = some true ∧ hasType exampleRule = some false := by
  decide

/-- C04.  `Walk` (hence `Inspect`, `Contains`) returns on a tree without nil, whatever the visitor does. -/
theorem C04_walk_no_panic {V σ : Type} (vis : Visiting V σ) (v : V) (n : Node) (s : σ) (hn : NoNil n) :
    ∃ s', walk vis v n s = .done s' := walk_done vis n hn v s

/-- C04.  A visitor that never prunes makes `Walk` panic on every tree with a nil. -/
theorem C04_walk_panic {V σ : Type} (vis : Visiting V σ) (hall : ∀ v n s, ∃ s' w, vis.visit v n s = (s', some w))
    (v : V) (n : Node) (s : σ) (hn : Desc n .nil) : ∃ s', walk vis v n s = .panic s' :=
  walk_all_panic vis hall n hn v s

/-- C04.  On a nil node `Walk` visits it and then panics, unless the visitor returns nil.  (Together with `C01_walk_children` this says what
`Walk` does on every node.) -/
theorem C04_walk_nil {V σ : Type} (vis : Visiting V σ) (v : V) (s : σ) :
    walk vis v .nil s =
      match vis.visit v .nil s with
      | (s', none) => .done s'
      | (s', some _) => .panic s' := by
  show walkLeaf vis v .nil s = _
  unfold walkLeaf
  rcases vis.visit v .nil s with ⟨s', _ | w⟩ <;> rfl

/-- C04.  `Inspect` panics iff the pre-order traversal (as far as the callback's answers go) cannot be completed, and then the
last node presented was a nil of the tree on which the callback answered `true`. -/
theorem C04_inspect_panic (ans : List Node → Node → Bool) (n : Node) :
    ((∃ out, inspect n (logging ans) [] = .panic out) ↔ ¬ ∃ tr, PreOrder ans [] n tr) ∧
    ∀ out, inspect n (logging ans) [] = .panic out →
      ∃ pre, out = pre ++ [.nil] ∧ ans pre .nil = true ∧ Desc n .nil := by
  refine ⟨?_, inspect_panic ans n []⟩
  constructor
  · rintro ⟨out, h⟩ ⟨tr, ht⟩
    rw [← C01_inspect_is_pruned_preorder, h] at ht
    simp at ht
  · intro h
    cases hi : inspect n (logging ans) [] with
    | panic out => exact ⟨out, rfl⟩
    | done tr => exact absurd ⟨tr, (C01_inspect_is_pruned_preorder ans n tr).1 hi⟩ h

/-- C04.  `Contains` panics iff a nil node comes, in pre-order, before (or without) any node satisfying the predicate, and the
predicate does not hold of nil. -/
theorem C04_contains_panic (p : Node → Bool) (n : Node) :
    contains n p = none ↔ p .nil = false ∧ ∃ pre post, flat n = pre ++ .nil :: post ∧ ∀ m ∈ pre, p m = false := by
  rw [contains_eq, (contains_spec p n []).1, (contains_spec p n []).2]
  by_cases h : ((upTo p (flat n)).any fun m => isNil m && !p m) = true
  · simp only [h, if_true, true_iff]
    exact (upTo_any_nil p _).1 h
  · simp only [h, if_false, reduceCtorEq, false_iff]
    exact fun hh => h ((upTo_any_nil p _).2 hh)

/-- a rule with a nil result: the traversal panics there … -/
example : hasType { exampleRule with result := .nil } = none := by decide
/-- … unless the search stops before. -/
example : hasBinding { exampleRule with «match» := exampleRule.result, result := .nil } = some true := by decide

end Verif.Props

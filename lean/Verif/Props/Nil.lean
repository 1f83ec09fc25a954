import Verif.Proof.NilGen
/-!
# Nil pointers in an AST (C74)
-/
namespace Verif.Props

open Verif Verif.Spec Verif.Proof Verif.Proof.Nil

/-- `(Add8 x <nil *SExpr>) => <nil *Expr>`, a rule made by hand. -/
def nilRule : NRule where
  «match» := .sexpr { op := .opcode "Add8".toList } [.var ['x'], .sexprNil]
  result := .exprNil

/-- `(Neg8 (Neg8 x)) => x` -/
def okRule : NRule where
  «match» := .sexpr { op := .opcode "Neg8".toList } [.sexpr { op := .opcode "Neg8".toList } [.var ['x']]]
  result := .var ['x']

/-! ## Walk -/

/-- C74.  `Walk` on any node: the visitor gets it, nil pointer or not.  If it returns a visitor, then `Walk` panics on a nil interface and on a nil `*File`,
`*Rule` or `*SExpr` (but not on a nil `*Expr`), and goes on with the children of any other node. -/
theorem C74_walk {V σ : Type} (vis : NVisiting V σ) (v : V) (n : NNode) (s : σ) :
    nwalk vis v n s =
      match vis.visit v n s with
      | .panic (s', _) => .panic s'
      | .done (s', none) => .done s'
      | .done (s', some w) => if dead n then .panic s' else forEach (nwalk vis w) (nchildren n) s' := nwalk_eq vis v n s

/-- C74.  `Inspect` with a callback that wants to see everything presents the nodes in pre-order, up to the first nil that has no children to go to, where it
panics. -/
theorem C74_inspect (n : NNode) : ninspect n (fun n (log : List NNode) => .done (log ++ [n], true)) [] =
    if (nflat n).any dead then .panic (through dead (nflat n)) else .done (nflat n) := ninspect_log n

/-- C74.  On an AST without nil pointers other than `*Expr`, `Inspect` does what it does in the model without nil pointers. -/
theorem C74_inspect_same {σ : Type} (f : Callback σ) (n : NNode) (h : ∀ m, NDesc n m → m = .exprNil ∨ isNilPtr m = false) (st : Stand) (s : σ) :
    ninspect n (fun m s => .done (f (fillNode st m) s)) s = inspect (fillNode st n) f s := ninspect_fill f st n h s

/-- C74.  (The nodes in pre-order are the root and its descendants.) -/
theorem C74_flat (n m : NNode) : m ∈ nflat n ↔ NDesc n m := mem_nflat_iff n m

/-- C74.  `Contains`, with a predicate that may panic: what happens at the first node, in pre-order, where it holds, panics, or where the walk cannot go on. -/
theorem C74_contains (n : NNode) (pred : NNode → Option Bool) : ncontains n pred =
    match (nflat n).find? fun m => pred m != some false || dead m with
    | none => some false
    | some m => if pred m = some true then some true else none := ncontains_eq n pred

/-- C74.  The functions of package rules answer "yes" if, in pre-order, an S-expression with the feature comes before any nil interface, nil `*Rule` and nil
`*SExpr`; they panic if one of those comes first; otherwise they answer "no".  (Nil `*Expr` pointers do not matter.) -/
theorem C74_has (r : Option NRule) : ∀ fp ∈ [(nhasBinding, fun h : Hdr => h.binding != []), (nhasType, fun h => h.type != []), (nhasAux, fun h => h.aux.isSome),
      (nhasAuxInt, fun h => h.auxInt.isSome), (nhasEllipsis, fun h => h.ellipsis), (nhasTrailing, fun h => h.trailing)],
    fp.1 r =
      match (nflatRule r).find? fun m => dead m || (match m with | .sexpr h _ => fp.2 h | _ => false) with
      | none => some false
      | some m => if dead m then none else some true := by
  have key (p : Hdr → Bool) : ncontains (ruleNode r) (onSExpr p) =
      match (nflatRule r).find? fun m => dead m || (match m with | .sexpr h _ => p h | _ => false) with
      | none => some false
      | some m => if dead m then none else some true := by
    have e : (fun m => onSExpr p m != some false || dead m) = fun m => dead m || (match m with | .sexpr h _ => p h | _ => false) := by
      funext m
      cases m <;> try rfl
      rename_i h args
      simp only [onSExpr, dead]
      cases p h <;> rfl
    rw [ncontains_eq, nflat_rule, e]
    cases hf : (nflatRule r).find? fun m => dead m || (match m with | .sexpr h _ => p h | _ => false) with
    | none => rfl
    | some m =>
      have hm := List.find?_some hf
      cases m <;> simp [dead, onSExpr] at hm ⊢
      exact hm
  intro fp hfp
  simp only [List.mem_cons, List.not_mem_nil, or_false] at hfp
  rcases hfp with rfl | rfl | rfl | rfl | rfl | rfl <;> exact key _

example : nhasTrailing (some nilRule) = none ∧ nhasTrailing (some okRule) = some false ∧ nhasTrailing none = none := by decide
/-- found before the nil pointer -/
example : nhasTrailing (some { nilRule with «match» := .sexpr { op := .opcode ['A'], trailing := true } [.sexprNil] }) = some true := by decide

/-- C74.  The filter of the command: it panics on a nil `*Rule`, and on a rule without condition and block on which `HasBinding` panics; on no other. -/
theorem C74_filter (r : Option NRule) : nhasFeature r = none ↔
    match r with
    | none => True
    | some q => q.condition = none ∧ q.block = [] ∧ nhasBinding r = none := by
  cases r with
  | none => simp [nhasFeature]
  | some q =>
    have hall := C74_has (some q)
    simp only [List.forall_mem_cons] at hall
    obtain ⟨h1, h2, h3, h4, h5, h6, _⟩ := hall
    simp only [nhasFeature]
    cases hc : q.condition with
    | some c => simp [orElseB]
    | none =>
      cases hb : q.block with
      | cons b bs => simp [orElseB, show ((b :: bs : Str) != []) = true from rfl]
      | nil =>
        simp only [orElseB, Option.isSome_none, bne_self_eq_false, true_and]
        cases hB : nhasBinding (some q) with
        | none => simp
        | some b =>
          cases b with
          | true => simp
          | false =>
            have hd : ∀ m ∈ nflatRule (some q), dead m = false := by
              intro m hm
              rw [hB] at h1
              split at h1
              · rename_i hf
                have := List.find?_eq_none.1 hf m hm
                simp at this; exact this.1
              · split at h1 <;> cases h1
            have no (p : Hdr → Bool) (f : Option Bool) (hf : f = match (nflatRule (some q)).find? fun m => dead m || (match m with | .sexpr h _ => p h | _ => false) with
                | none => some false
                | some m => if dead m then none else some true) : f ≠ none := by
              intro e
              rw [e] at hf
              split at hf
              · cases hf
              · rename_i m hm
                rw [hd m (List.mem_of_find?_eq_some hm)] at hf
                cases hf
            have n2 : nhasType (some q) ≠ none := no _ _ h2
            have n3 : nhasAux (some q) ≠ none := no _ _ h3
            have n4 : nhasAuxInt (some q) ≠ none := no _ _ h4
            have n5 : nhasEllipsis (some q) ≠ none := no _ _ h5
            have n6 : nhasTrailing (some q) ≠ none := no _ _ h6
            simp only [reduceCtorEq, iff_false]
            clear h1 h2 h3 h4 h5 h6 no hd hB hb hc
            generalize nhasType (some q) = a2 at n2
            generalize nhasAux (some q) = a3 at n3
            generalize nhasAuxInt (some q) = a4 at n4
            generalize nhasEllipsis (some q) = a5 at n5
            generalize nhasTrailing (some q) = a6 at n6
            cases a2 with
            | none => exact absurd rfl n2
            | some a2 =>
            cases a3 with
            | none => exact absurd rfl n3
            | some a3 =>
            cases a4 with
            | none => exact absurd rfl n4
            | some a4 =>
            cases a5 with
            | none => exact absurd rfl n5
            | some a5 =>
            cases a6 with
            | none => exact absurd rfl n6
            | some a6 => cases a2 <;> cases a3 <;> cases a4 <;> cases a5 <;> simp

example : nhasFeature (some nilRule) = none ∧ nhasFeature (some { nilRule with block := ['b'] }) = some true := by decide

/-! ## Printing -/

/-- C74.  Printing panics exactly on ASTs with a nil pointer, whatever the writer does: also if it has failed before. -/
theorem C74_print_panic {σ : Type} (W : Writer σ) (n : NNode) (w : σ) : (∃ q, nfprint W n w = .panic q) ↔ HasNilPtr n := by
  rw [hasNilPtr_iff, ← holes_node, ← runP_panic_iff W (nItems n) { w := w, err := none }, ← npnode_items]
  unfold nfprint
  cases npnode W n { w := w, err := none } with
  | done p => simp
  | panic p => simp

/-- C74.  An AST without nil pointers is printed as usual. -/
theorem C74_print_same {σ : Type} (W : Writer σ) (n : NNode) (w : σ) (h : ¬ HasNilPtr n) (st : Stand) :
    nfprint W n w = .done (fprint W (fillNode st n) w) := by
  rw [hasNilPtr_iff, ← holes_node, Bool.not_eq_true] at h
  unfold nfprint fprint
  rw [npnode_items, runP_noHole W st _ h, pnode_items, fillNode_items]

/-- C74.  What has been written before the panic (to a writer that answers each write in any way): the texts before the first nil pointer, that is, exactly
those that are written first whatever the nil pointers are replaced with. -/
theorem C74_print_before (ans : List Str → Option Err) (n : NNode) (log : List Str) (err : Option Err)
    (h : nfprint (recorder ans) n [] = .panic (log, err)) :
    (∀ st, ∃ rest, (fprint (recorder ans) (fillNode st n) []).1 = log ++ rest) ∧
    (err = none → ∀ x, ∃ st rest, (fprint (recorder ans) (fillNode st n) []).1 = log ++ x :: rest) := by
  unfold nfprint at h
  rw [npnode_items] at h
  cases hr : runP (recorder ans) (nItems n) { w := [], err := none } with
  | done q => rw [hr] at h; cases h
  | panic q =>
    rw [hr] at h
    simp only [Out.panic.injEq, Prod.mk.injEq] at h
    obtain ⟨rfl, rfl⟩ := h
    obtain ⟨m, hm, hh⟩ := runP_hole _ _ _ _ hr
    unfold fprint
    simp only [pnode_items, fillNode_items]
    constructor
    · intro st
      obtain ⟨rest, e⟩ := hh st
      rw [e]
      exact runItems_log ans _ _
    · intro he x
      obtain ⟨rest, e⟩ := hh (markStand x)
      obtain ⟨more, e2⟩ := markStand_items x m (hole_node _ _ hm)
      refine ⟨markStand x, ?_⟩
      rw [e, e2, List.cons_append, runItems_cons]
      obtain ⟨w, err⟩ := q
      simp only at he
      subst he
      obtain ⟨rest', e3⟩ := runItems_log ans (more ++ rest) (runItem (recorder ans) { w := w, err := none } (.txt x))
      refine ⟨rest', ?_⟩
      rw [e3]
      simp [runItem, printf, recorder, PState.seterror]

/-- C74.  `Bytes` too. -/
theorem C74_bytes (n : NNode) (st : Stand) : (HasNilPtr n → nprintBytes n = .panic) ∧ (¬ HasNilPtr n → nprintBytes n = printBytes (fillNode st n)) := by
  rw [hasNilPtr_iff]
  exact ⟨nprintBytes_panic n, fun h => nprintBytes_eq n st (Bool.not_eq_true _ ▸ h)⟩

example : nfprint (recorder fun _ => none) (.rule nilRule) [] = .panic ([['('], "Add8".toList, [' '], ['x'], [' ']], none) := rfl
example : HasNilPtr (.rule nilRule) ∧ ¬ HasNilPtr (.rule okRule) := by rw [hasNilPtr_iff, hasNilPtr_iff]; decide
/-- the panic comes although the writer has failed before -/
example : nfprint (recorder fun _ => some (.other ['!'])) (.rule nilRule) [] = .panic ([['(']], some (.other ['!'])) := rfl

/-! ## Expansion -/

/-- C74.  If `ExpandAlternates` succeeds, the file has no nil `*Rule` and no nil `*SExpr`, and nil `*Expr` pointers have been handled like any other expressions:
replacing them (by anything) before is the same as replacing them after. -/
theorem C74_expand_ok (f : Option NFile) (rs : List NRule) (h : nexpandAlternates f = .ok rs) :
    (∃ g, f = some g ∧ ¬ NDesc (.file g) .ruleNil ∧ ¬ NDesc (.file g) .sexprNil) ∧
    ∀ st, expandAlternates (fillFilePtr st f) = .ok ⟨rs.map (fillRule st)⟩ := by
  constructor
  · cases f with
    | none => simp [nexpandAlternates] at h
    | some g =>
      have := ok_file g rs h
      rw [mem_nflat_iff, mem_nflat_iff] at this
      exact ⟨g, rfl, this.2, this.1⟩
  · intro st
    exact (upto_file st f).ok rs h

/-- C74.  `ExpandAlternates` reports an error exactly if it reports this error whatever the nil pointers are replaced with: the error comes before the first
nil pointer that matters. -/
theorem C74_expand_error (f : Option NFile) (e : Err) : nexpandAlternates f = .err e ↔ ∀ st, expandAlternates (fillFilePtr st f) = .err e := by
  constructor
  · intro h st; exact (upto_file st f).err e h
  · intro h
    cases hn : nexpandAlternates f with
    | ok rs => have h1 := (upto_file mixedStand f).ok rs hn; rw [h] at h1; cases h1
    | err e' => have h1 := (upto_file mixedStand f).err e' hn; rw [h] at h1; cases h1; rfl
    | panic => have h1 := (upto_file mixedStand f).panic mixed_panics hn; rw [h] at h1; cases h1

/-- C74.  And it panics exactly if it would panic for some replacement: a nil pointer is as bad as the worst value. -/
theorem C74_expand_panic (f : Option NFile) : nexpandAlternates f = .panic ↔ ∃ st, expandAlternates (fillFilePtr st f) = .panic := by
  constructor
  · intro h; exact ⟨mixedStand, (upto_file mixedStand f).panic mixed_panics h⟩
  · rintro ⟨st, h⟩
    cases hn : nexpandAlternates f with
    | ok rs => have h1 := (upto_file st f).ok rs hn; rw [h] at h1; cases h1
    | err e' => have h1 := (upto_file st f).err e' hn; rw [h] at h1; cases h1
    | panic => rfl

/-- `(A(8|16) <nil *Expr>) => x`: two rules, both with the nil pointer. -/
example : nexpandAlternates (some ⟨[some { «match» := .sexpr { op := .parts [.opcode ['A'], .alt [['8'], ['9']]] } [.exprNil], result := .var ['x'] }]⟩) =
    .ok [{ «match» := .sexpr { op := .opcode ['A', '8'] } [.exprNil], result := .var ['x'] },
      { «match» := .sexpr { op := .opcode ['A', '9'] } [.exprNil], result := .var ['x'] }] := rfl
/-- an error before the nil pointer is reported; after it, the panic comes first -/
example : nexpandAlternates (some ⟨[some { okRule with result := .nil }, some nilRule, none]⟩) = .err (.unexpectedType nilType) ∧
    nexpandAlternates (some ⟨[some okRule, none, some { okRule with result := .nil }]⟩) = .panic := ⟨rfl, rfl⟩

/-! ## The SMT generator -/

/-- C74.  `Generate` panics exactly on a nil rule and on rules with a nil pointer in the match or the result (wherever it is and whatever else is wrong: the rule
is printed first); for all other rules it does what it does for the same rule in the model without nil pointers. -/
theorem C74_generate (r : Option NRule) :
    (ngenerate r = .panic ↔ HasNilPtr (ruleNode r)) ∧
    ∀ q, r = some q → ¬ HasNilPtr (.rule q) → ∀ st, ngenerate r = generate (fillRule st q) := by
  have h2 : ∀ q, r = some q → ¬ HasNilPtr (.rule q) → ∀ st, ngenerate r = generate (fillRule st q) := by
    rintro q rfl h st
    rw [hasNilPtr_iff] at h
    exact ngenerate_eq q st (Bool.not_eq_true _ ▸ h)
  refine ⟨⟨fun h => ?_, fun h => ?_⟩, h2⟩
  · cases r with
    | none => exact ⟨_, .self _, rfl⟩
    | some q =>
      by_cases hn : HasNilPtr (.rule q)
      · exact hn
      · rw [h2 q rfl hn mixedStand] at h
        exact absurd h (generate_ne_panic _)
  · rw [hasNilPtr_iff, nflat_rule] at h
    exact ngenerate_panic r h

example : ngenerate (some nilRule) = .panic ∧ ngenerate none = .panic := ⟨rfl, rfl⟩
/-- a nil pointer beside an unsupported feature: still a panic -/
example : ngenerate (some { nilRule with «match» := .sexpr { op := .opcode ['?'], trailing := true } [], block := ['b'] }) = .panic := rfl
example : ∃ s, ngenerate (some okRule) = .ok s := ⟨_, rfl⟩

end Verif.Props

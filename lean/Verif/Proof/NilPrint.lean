import Verif.Proof.NilWalk
import Verif.Proof.Printer
/-! # Lemmas about printing ASTs with nil pointers (C74) -/
namespace Verif.Proof.Nil

open Verif Verif.Spec

variable {σ : Type}

/-- A step of the printer, or a nil pointer. -/
inductive PItem where
  | it (i : Item)
  | hole (n : NNode)

def runP (W : Writer σ) : List PItem → PState σ → Out (PState σ)
  | [], p => .done p
  | .it i :: l, p => runP W l (runItem W p i)
  | .hole _ :: _, p => .panic p

theorem runP_append (W : Writer σ) (a b : List PItem) (p : PState σ) : runP W (a ++ b) p = (runP W a p).andThen (runP W b) := by
  induction a generalizing p with
  | nil => rfl
  | cons x a ih => cases x <;> simp [runP, ih, Out.andThen]

theorem runP_its (W : Writer σ) (l : List Item) (p : PState σ) : runP W (l.map .it) p = .done (runItems W l p) := by
  induction l generalizing p with
  | nil => rfl
  | cons x a ih => simp [runP, ih, runItems_cons]

def beforeArgs (h : Hdr) : List Item :=
  (if h.binding ≠ [] then [.txt (h.binding ++ [':'])] else []) ++ .txt ['('] :: opItems h.op ++
    (if h.type ≠ [] then [.txt ([' ', '<'] ++ h.type ++ ['>'])] else []) ++ auxIntItems h.auxInt ++ auxItems h.aux

def afterArgs (h : Hdr) : List Item :=
  (if h.ellipsis then [.txt [' ', '.', '.', '.']] else []) ++ (if h.trailing then [.txt [' ', '_', '_', '_']] else []) ++ [.txt [')']]

mutual
def vItems : NValue → List PItem
  | .sexpr h args => (beforeArgs h).map .it ++ aItems args ++ (afterArgs h).map .it
  | .sexprNil => [.hole .sexprNil]
  | .exprNil => [.hole .exprNil]
  | .expr e => (goItems e).map .it
  | .var v => [.it (.txt v)]
  | .nil => [.it (.bad nilType)]
def aItems : List NValue → List PItem
  | [] => []
  | v :: vs => .it (.txt [' ']) :: vItems v ++ aItems vs
end

mutual
theorem npvalue_items (W : Writer σ) (v : NValue) (p : PState σ) : npvalue W v p = runP W (vItems v) p := by
  cases v with
  | nil => rfl
  | sexprNil => rfl
  | exprNil => rfl
  | expr e => simp only [npvalue, vItems, runP_its, pgoexpr_items]
  | var x => rfl
  | sexpr h args =>
    simp only [vItems, runP_append, runP_its, beforeArgs, afterArgs, Out.andThen, npvalue]
    have e1 : ∀ q, runItems W (if h.binding ≠ [] then [Item.txt (h.binding ++ [':'])] else []) q =
        if h.binding ≠ [] then printf W (h.binding ++ [':']) q else q := by intro q; split <;> rfl
    have e2 : ∀ q, runItems W (if h.type ≠ [] then [Item.txt ([' ', '<'] ++ h.type ++ ['>'])] else []) q =
        if h.type ≠ [] then printf W ([' ', '<'] ++ h.type ++ ['>']) q else q := by intro q; split <;> rfl
    have e3 : ∀ q, runItems W (auxIntItems h.auxInt) q =
        match h.auxInt with
        | some e => printf W [']'] (pgoexpr W e (printf W [' ', '['] q))
        | none => q := by
      intro q
      cases h.auxInt with
      | none => rfl
      | some e => simp [auxIntItems, runItems_append, runItems_cons, runItem, runItems_nil, pgoexpr_items]
    have e4 : ∀ q, runItems W (auxItems h.aux) q =
        match h.aux with
        | some e => printf W ['}'] (pgoexpr W e (printf W [' ', '{'] q))
        | none => q := by
      intro q
      cases h.aux with
      | none => rfl
      | some e => simp [auxItems, runItems_append, runItems_cons, runItem, runItems_nil, pgoexpr_items]
    have e5 : ∀ q, runItems W (if h.ellipsis then [Item.txt [' ', '.', '.', '.']] else []) q =
        if h.ellipsis then printf W [' ', '.', '.', '.'] q else q := by intro q; split <;> rfl
    have e6 : ∀ q, runItems W (if h.trailing then [Item.txt [' ', '_', '_', '_']] else []) q =
        if h.trailing then printf W [' ', '_', '_', '_'] q else q := by intro q; split <;> rfl
    simp only [runItems_append, runItems_cons, e1, e2, e3, e4, e5, e6, npvalues_items W args, pop_items]
    rfl
theorem npvalues_items (W : Writer σ) (vs : List NValue) (p : PState σ) : npvalues W vs p = runP W (aItems vs) p := by
  cases vs with
  | nil => rfl
  | cons v vs =>
    have e : npvalues W vs = runP W (aItems vs) := funext (npvalues_items W vs)
    simp only [npvalues, aItems, List.cons_append, runP, runP_append, npvalue_items W v, e]
    rfl
end

def rItems : Option NRule → List PItem
  | none => [.hole .ruleNil]
  | some r => vItems r.match ++ (condItems r.condition ++ Item.txt [' ', '=', '>', ' '] ::
    (if r.block ≠ [] then [Item.txt (['@'] ++ r.block ++ [' '])] else [])).map .it ++ vItems r.result

theorem nprule_items (W : Writer σ) (r : Option NRule) (p : PState σ) : nprule W r p = runP W (rItems r) p := by
  cases r with
  | none => rfl
  | some r =>
    simp only [nprule, rItems, runP_append, npvalue_items]
    cases runP W (vItems r.match) p with
    | panic q => rfl
    | done q =>
      have e1 : ∀ q, runItems W (condItems r.condition) q =
          match r.condition with
          | some e => pgoexpr W e (printf W [' ', '&', '&', ' '] q)
          | none => q := by
        intro q
        cases r.condition with
        | none => rfl
        | some e => simp [condItems, runItems_cons, runItem, pgoexpr_items]
      have e2 : ∀ q, runItems W (if r.block ≠ [] then [Item.txt (['@'] ++ r.block ++ [' '])] else []) q =
          if r.block ≠ [] then printf W (['@'] ++ r.block ++ [' ']) q else q := by intro q; split <;> rfl
      simp only [Out.andThen, runP_its, runItems_append, runItems_cons, e1, e2]
      rfl

def nItems : NNode → List PItem
  | .fileNil => [.hole .fileNil]
  | .file f => f.rules.flatMap fun r => rItems r ++ [.it (.txt ['\n'])]
  | .ruleNil => rItems none
  | .rule r => rItems (some r)
  | .sexprNil => vItems .sexprNil
  | .sexpr h args => vItems (.sexpr h args)
  | .exprNil => vItems .exprNil
  | .expr e => vItems (.expr e)
  | .var v => vItems (.var v)
  | .opcode s => [.it (.txt s)]
  | .parts ps => (opItems (.parts ps)).map .it
  | .alt _ => [.it (.bad "ast.OpcodeAlt".toList)]
  | .nil => [.it (.bad nilType)]

theorem npnode_items (W : Writer σ) (n : NNode) (p : PState σ) : npnode W n p = runP W (nItems n) p := by
  cases n with
  | file f =>
    simp only [npnode, nItems]
    generalize f.rules = l
    induction l generalizing p with
    | nil => rfl
    | cons r l ih =>
      simp only [nprules, List.flatMap_cons, runP_append, nprule_items]
      cases runP W (rItems r) p with
      | panic q => rfl
      | done q => exact ih _
  | parts ps => simp only [npnode, nItems, runP_its, pop_items]
  | ruleNil => exact nprule_items W none p
  | rule r => exact nprule_items W (some r) p
  | sexpr h args => exact npvalue_items W _ p
  | expr e => exact npvalue_items W _ p
  | _ => rfl

/-! ### Holes -/

def PItem.isHole : PItem → Bool
  | .hole _ => true
  | .it _ => false

def hasHole (l : List PItem) : Bool := l.any PItem.isHole

theorem hasHole_append (a b : List PItem) : hasHole (a ++ b) = (hasHole a || hasHole b) := by simp [hasHole]
theorem hasHole_cons_it (i : Item) (b : List PItem) : hasHole (.it i :: b) = hasHole b := by simp [hasHole, PItem.isHole]
theorem hasHole_its (l : List Item) : hasHole (l.map .it) = false := by
  induction l with
  | nil => rfl
  | cons x l ih => rw [List.map_cons, hasHole_cons_it, ih]
theorem hasHole_nil : hasHole [] = false := rfl

theorem nilPtr_op (o : Op) : (nflatOp o).any isNilPtr = false := by
  cases o with
  | parts ps =>
    simp only [nflatOp, List.any_cons, isNilPtr, Bool.false_or, List.any_map]
    induction ps with
    | nil => rfl
    | cons a l ih => rw [List.any_cons, ih]; cases a <;> rfl
  | _ => rfl

mutual
theorem holes_value (v : NValue) : hasHole (vItems v) = (nflatValue v).any isNilPtr := by
  cases v with
  | sexpr h args =>
    simp only [vItems, hasHole_append, hasHole_its, nflatValue, List.any_cons, List.any_append, nilPtr_op, holes_values args, isNilPtr,
      Bool.false_or, Bool.or_false]
  | expr e => simp only [vItems, hasHole_its, nflatValue]; rfl
  | _ => rfl
theorem holes_values (vs : List NValue) : hasHole (aItems vs) = (nflatValues vs).any isNilPtr := by
  cases vs with
  | nil => rfl
  | cons v vs => simp only [aItems, List.cons_append, hasHole_cons_it, hasHole_append, nflatValues, List.any_append, holes_value v, holes_values vs]
end

theorem holes_rule (r : Option NRule) : hasHole (rItems r) = (nflatRule r).any isNilPtr := by
  cases r with
  | none => rfl
  | some r =>
    simp only [rItems, hasHole_append, hasHole_its, nflatRule, List.any_cons, List.any_append, holes_value, isNilPtr, Bool.false_or, Bool.or_false]

theorem holes_node (n : NNode) : hasHole (nItems n) = (nflat n).any isNilPtr := by
  cases n with
  | file f =>
    simp only [nItems, nflat, List.any_cons, isNilPtr, Bool.false_or]
    induction f.rules with
    | nil => rfl
    | cons r l ih => simp only [List.flatMap_cons, hasHole_append, ih, List.any_append, holes_rule, hasHole_cons_it, hasHole_nil, Bool.or_false]
  | rule r => exact holes_rule (some r)
  | sexpr h args => exact holes_value _
  | expr e => exact holes_value (.expr e)
  | parts ps => simp only [nItems, hasHole_its, nflat, nilPtr_op]
  | _ => rfl

theorem hasNilPtr_iff (n : NNode) : HasNilPtr n ↔ (nflat n).any isNilPtr = true := by
  simp only [HasNilPtr, List.any_eq_true, mem_nflat_iff]

theorem runP_panic_iff (W : Writer σ) (l : List PItem) (p : PState σ) : (∃ q, runP W l p = .panic q) ↔ hasHole l = true := by
  induction l generalizing p with
  | nil => simp [runP, hasHole]
  | cons x l ih =>
    cases x with
    | it i => rw [hasHole_cons_it]; exact ih _
    | hole n => exact ⟨fun _ => rfl, fun _ => ⟨_, rfl⟩⟩

/-! ### Filling -/

def PItem.subst (st : Stand) : PItem → List Item
  | .it i => [i]
  | .hole n => nodeItems (fillNode st n)

def substs (st : Stand) (l : List PItem) : List Item := l.flatMap (PItem.subst st)

theorem substs_append (st : Stand) (a b : List PItem) : substs st (a ++ b) = substs st a ++ substs st b := by simp [substs]
theorem substs_its (st : Stand) (l : List Item) : substs st (l.map .it) = l := by
  induction l with
  | nil => rfl
  | cons x l ih => simpa [substs, PItem.subst] using ih
theorem substs_it (st : Stand) (i : Item) (l : List PItem) : substs st (.it i :: l) = i :: substs st l := rfl
theorem substs_hole (st : Stand) (n : NNode) (l : List PItem) : substs st (.hole n :: l) = nodeItems (fillNode st n) ++ substs st l := rfl
theorem substs_nil (st : Stand) : substs st [] = [] := rfl

theorem nodeItems_value (v : Value) : nodeItems v.toNode = valueItems v := by cases v <;> rfl

mutual
theorem fill_items (st : Stand) (v : NValue) : valueItems (fill st v) = substs st (vItems v) := by
  cases v with
  | sexpr h args =>
    simp only [fill, valueItems, vItems, substs_append, substs_its, fills_items st args, beforeArgs, afterArgs, List.append_assoc, List.cons_append]
  | expr e => simp only [fill, valueItems, vItems, substs_its]
  | sexprNil => simp only [fill, vItems, substs_hole, substs_nil, List.append_nil, fillNode, nodeItems_value]
  | exprNil => simp only [fill, vItems, substs_hole, substs_nil, List.append_nil, fillNode, nodeItems, valueItems]
  | _ => rfl
theorem fills_items (st : Stand) (vs : List NValue) : argItems (fills st vs) = substs st (aItems vs) := by
  cases vs with
  | nil => rfl
  | cons v vs => simp only [fills, argItems, aItems, List.cons_append, substs_it, substs_append, fill_items st v, fills_items st vs]
end

theorem fillRule_items (st : Stand) (r : Option NRule) : ruleItems (fillRulePtr st r) = substs st (rItems r) := by
  cases r with
  | none => simp only [fillRulePtr, rItems, substs_hole, substs_nil, List.append_nil, fillNode, nodeItems]
  | some r =>
    simp only [fillRulePtr, fillRule, ruleItems, rItems, substs_append, substs_its, fill_items, List.append_assoc, List.cons_append]

theorem fillNode_items (st : Stand) (n : NNode) : nodeItems (fillNode st n) = substs st (nItems n) := by
  cases n with
  | file f =>
    simp only [fillNode, fillFile, nodeItems, nItems, List.flatMap_map]
    induction f.rules with
    | nil => rfl
    | cons r l ih => rw [List.flatMap_cons, ih, List.flatMap_cons, substs_append, substs_append, fillRule_items]; rfl
  | rule r => exact fillRule_items st (some r)
  | sexpr h args => exact fill_items st (.sexpr h args)
  | expr e => exact fill_items st (.expr e)
  | parts ps => simp only [fillNode, nodeItems, nItems, substs_its]
  | fileNil => simp only [nItems, substs_hole, substs_nil, List.append_nil]
  | ruleNil => simp only [nItems, rItems, substs_hole, substs_nil, List.append_nil]
  | sexprNil => simp only [nItems, vItems, substs_hole, substs_nil, List.append_nil]
  | exprNil => simp only [nItems, vItems, substs_hole, substs_nil, List.append_nil]
  | _ => rfl

theorem runP_noHole (W : Writer σ) (st : Stand) (l : List PItem) (h : hasHole l = false) (p : PState σ) :
    runP W l p = .done (runItems W (substs st l) p) := by
  induction l generalizing p with
  | nil => rfl
  | cons x l ih =>
    cases x with
    | it i => rw [hasHole_cons_it] at h; exact ih h _
    | hole n => simp [hasHole, PItem.isHole] at h

theorem runP_hole (W : Writer σ) (l : List PItem) (p q : PState σ) (h : runP W l p = .panic q) :
    ∃ n, PItem.hole n ∈ l ∧ ∀ st, ∃ rest, runItems W (substs st l) p = runItems W (nodeItems (fillNode st n) ++ rest) q := by
  induction l generalizing p with
  | nil => simp [runP] at h
  | cons x l ih =>
    cases x with
    | it i =>
      obtain ⟨n, hn, h'⟩ := ih _ h
      exact ⟨n, List.mem_cons_of_mem _ hn, fun st => h' st⟩
    | hole n =>
      simp only [runP, Out.panic.injEq] at h
      subst h
      exact ⟨n, List.mem_cons_self, fun st => ⟨_, by rw [substs_hole]⟩⟩

theorem runItems_log (ans : List Str → Option Err) (l : List Item) : ∀ p : PState (List Str), ∃ rest, (runItems (recorder ans) l p).w = p.w ++ rest := by
  induction l with
  | nil => intro p; exact ⟨[], by simp [runItems]⟩
  | cons i l ih =>
    intro p
    have h1 : ∃ rest, (runItem (recorder ans) p i).w = p.w ++ rest := by
      cases i with
      | txt s =>
        rcases p with ⟨w, _ | e⟩
        · exact ⟨[s], by simp [runItem, printf, recorder, PState.seterror]⟩
        · exact ⟨[], by simp [runItem, printf]⟩
      | bad t =>
        rcases p with ⟨w, _ | e⟩ <;> exact ⟨[], by simp [runItem, PState.seterror]⟩
    obtain ⟨a, ha⟩ := h1
    obtain ⟨b, hb⟩ := ih (runItem (recorder ans) p i)
    exact ⟨a ++ b, by rw [runItems_cons, hb, ha, List.append_assoc]⟩

/-- Stands whose text starts with `x`. -/
def markStand (x : Str) : Stand where
  file := ⟨[{ «match» := .var x, result := .nil }]⟩
  rule := { «match» := .var x, result := .nil }
  sexpr := .var x
  expr := .ident 0 x

mutual
theorem hole_value (v : NValue) (n : NNode) (h : PItem.hole n ∈ vItems v) : isNilPtr n = true := by
  cases v with
  | sexpr hd args =>
    simp only [vItems, List.mem_append, List.mem_map, reduceCtorEq, and_false, exists_false, or_false, false_or] at h
    exact hole_values args n h
  | expr e => simp [vItems] at h
  | sexprNil => simp [vItems] at h; subst h; rfl
  | exprNil => simp [vItems] at h; subst h; rfl
  | var x => simp [vItems] at h
  | nil => simp [vItems] at h
theorem hole_values (vs : List NValue) (n : NNode) (h : PItem.hole n ∈ aItems vs) : isNilPtr n = true := by
  cases vs with
  | nil => simp [aItems] at h
  | cons v vs =>
    simp only [aItems, List.cons_append, List.mem_cons, reduceCtorEq, false_or, List.mem_append] at h
    rcases h with h | h
    · exact hole_value v n h
    · exact hole_values vs n h
end

theorem hole_rule (r : Option NRule) (n : NNode) (h : PItem.hole n ∈ rItems r) : isNilPtr n = true := by
  cases r with
  | none => simp [rItems] at h; subst h; rfl
  | some r =>
    simp only [rItems, List.mem_append, List.mem_map, reduceCtorEq, and_false, exists_false, or_false] at h
    rcases h with h | h <;> exact hole_value _ n h

theorem hole_node (m n : NNode) (h : PItem.hole n ∈ nItems m) : isNilPtr n = true := by
  cases m with
  | file f =>
    simp only [nItems, List.mem_flatMap, List.mem_append, List.mem_singleton, reduceCtorEq, or_false] at h
    obtain ⟨r, _, h⟩ := h
    exact hole_rule r n h
  | rule r => exact hole_rule (some r) n h
  | sexpr hd args => exact hole_value _ n h
  | expr e => exact hole_value (.expr e) n h
  | ruleNil => exact hole_rule none n h
  | sexprNil => exact hole_value .sexprNil n h
  | exprNil => exact hole_value .exprNil n h
  | fileNil => simp [nItems] at h; subst h; rfl
  | parts ps => simp [nItems] at h
  | var x => exact hole_value (.var x) n h
  | _ => simp [nItems] at h

theorem markStand_items (x : Str) (n : NNode) (h : isNilPtr n = true) : ∃ rest, nodeItems (fillNode (markStand x) n) = .txt x :: rest := by
  cases n <;> simp [isNilPtr] at h <;> exact ⟨_, rfl⟩

end Verif.Proof.Nil

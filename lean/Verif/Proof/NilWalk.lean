import Verif.Spec.Nil
import Verif.Proof.Walk
/-! # Lemmas about `Walk` on ASTs with nil pointers (C74) -/
namespace Verif.Proof.Nil

open Verif Verif.Spec

variable {V σ : Type}

theorem nwalkValues_eq (vis : NVisiting V σ) (v : V) (l : List NValue) (s : σ) :
    nwalkValues vis v l s = forEach (nwalkValue vis v) l s := by
  induction l generalizing s with
  | nil => simp [nwalkValues, forEach]
  | cons a l ih =>
    simp only [nwalkValues, forEach, Out.andThen]
    cases nwalkValue vis v a s <;> simp [ih]

theorem nwalk_value (vis : NVisiting V σ) (v : V) (x : NValue) : nwalk vis v x.toNNode = nwalkValue vis v x := by
  funext s; cases x <;> simp [NValue.toNNode, nwalk, nwalkValue]

theorem nwalk_op (vis : NVisiting V σ) (v : V) (x : Op) : nwalk vis v x.toNNode = nwalkOp vis v x := by
  funext s; cases x <;> simp [Op.toNNode, nwalk, nwalkOp]

theorem nwalk_part (vis : NVisiting V σ) (v : V) (x : OpPart) : nwalk vis v x.toNNode = nwalkLeaf vis v x.toNNode := by
  funext s; cases x <;> simp [OpPart.toNNode, nwalk]

theorem nwalk_rule (vis : NVisiting V σ) (v : V) (r : Option NRule) : nwalk vis v (ruleNode r) = nwalkRule vis v r := by
  funext s; cases r <;> simp [ruleNode, nwalk]

theorem forEach_two (f : NNode → σ → Out σ) (a b : NNode) (s : σ) : forEach f [a, b] s = (f a s).andThen (f b) := by
  simp only [forEach, Out.andThen]
  cases f a s with
  | panic s => rfl
  | done s => simp only; cases f b s <;> rfl

theorem nwalk_eq (vis : NVisiting V σ) (v : V) (n : NNode) (s : σ) :
    nwalk vis v n s = visitThen vis v n (fun w s => if dead n then .panic s else forEach (nwalk vis w) (nchildren n) s) s := by
  cases n with
  | file f =>
    simp only [dead, nchildren, Bool.false_eq_true, if_false, forEach_map, nwalk_rule]
    simp only [nwalk]
  | rule r =>
    simp only [dead, nchildren, Bool.false_eq_true, if_false, forEach_two, nwalk_value]
    simp only [nwalk, nwalkRule]
  | sexpr h args =>
    have e (w : V) : nwalkValues vis w args = forEach (nwalkValue vis w) args := funext (nwalkValues_eq vis w args)
    have e' (w : V) (s : σ) : forEach (nwalk vis w) (h.op.toNNode :: args.map NValue.toNNode) s =
        (nwalkOp vis w h.op s).andThen (forEach (nwalkValue vis w) args) := by
      simp only [forEach, nwalk_op, Out.andThen]
      cases nwalkOp vis w h.op s with
      | panic s => rfl
      | done s => simp only [forEach_map, nwalk_value]
    simp only [dead, nchildren, Bool.false_eq_true, if_false, e']
    simp only [nwalk, nwalkValue, e]
  | parts ps =>
    simp only [dead, nchildren, Bool.false_eq_true, if_false, forEach_map, nwalk_part]
    simp only [nwalk, nwalkOp]
  | nil => simp only [nwalk, nwalkLeaf, dead, if_true]
  | fileNil => simp only [nwalk, dead, if_true]
  | ruleNil => simp only [nwalk, nwalkRule, dead, if_true]
  | sexprNil => simp only [nwalk, nwalkValue, dead, if_true]
  | _ => simp only [nwalk, nwalkLeaf, dead, nchildren, forEach, Bool.false_eq_true, if_false]

theorem sizeOf_value (x : NValue) : sizeOf x.toNNode = sizeOf x := by cases x <;> simp [NValue.toNNode]
theorem sizeOf_op (x : Op) : sizeOf x.toNNode = sizeOf x := by cases x <;> simp [Op.toNNode]
theorem sizeOf_part (x : OpPart) : sizeOf x.toNNode = sizeOf x := by cases x <;> simp [OpPart.toNNode]
theorem sizeOf_ruleNode (x : Option NRule) : sizeOf (ruleNode x) ≤ sizeOf x := by cases x <;> simp [ruleNode]
theorem sizeOf_match (r : NRule) : sizeOf r.match < sizeOf r := by cases r; simp; omega
theorem sizeOf_result (r : NRule) : sizeOf r.result < sizeOf r := by cases r; simp; omega

theorem nchildren_lt {n c : NNode} (h : c ∈ nchildren n) : sizeOf c < sizeOf n := by
  cases n with
  | file f =>
    simp only [nchildren, List.mem_map] at h
    obtain ⟨r, hr, rfl⟩ := h
    have := List.sizeOf_lt_of_mem hr
    have := sizeOf_ruleNode r
    cases f; simp at *; omega
  | rule r =>
    simp only [nchildren, List.mem_cons, List.not_mem_nil, or_false] at h
    have h1 := sizeOf_match r
    have h2 := sizeOf_result r
    rcases h with rfl | rfl <;> simp [sizeOf_value] <;> omega
  | sexpr hd args =>
    simp only [nchildren, List.mem_cons, List.mem_map] at h
    rcases h with rfl | ⟨a, ha, rfl⟩
    · have := sizeOf_op_lt_hdr hd
      simp [sizeOf_op]; omega
    · have := List.sizeOf_lt_of_mem ha
      simp [sizeOf_value]; omega
  | parts ps =>
    simp only [nchildren, List.mem_map] at h
    obtain ⟨a, ha, rfl⟩ := h
    have := List.sizeOf_lt_of_mem ha
    simp [sizeOf_part]; omega
  | _ => simp [nchildren] at h

theorem nnode_induction {P : NNode → Prop} (ih : ∀ n, (∀ c ∈ nchildren n, P c) → P n) : ∀ n, P n := by
  intro n
  induction hn : sizeOf n using Nat.strongRecOn generalizing n with
  | _ k IH =>
    apply ih
    intro c hc
    exact IH (sizeOf c) (hn ▸ nchildren_lt hc) c rfl

/-! ### `nflat` -/

theorem nflatValues_eq (l : List NValue) : nflatValues l = l.flatMap nflatValue := by
  induction l with
  | nil => rfl
  | cons a l ih => simp [nflatValues, ih]

theorem nflat_value (x : NValue) : nflat x.toNNode = nflatValue x := by cases x <;> simp [NValue.toNNode, nflat, nflatValue]
theorem nflat_op (x : Op) : nflat x.toNNode = nflatOp x := by cases x <;> simp [Op.toNNode, nflat, nflatOp]
theorem nflat_part (x : OpPart) : nflat x.toNNode = [x.toNNode] := by cases x <;> simp [OpPart.toNNode, nflat]
theorem nflat_rule (x : Option NRule) : nflat (ruleNode x) = nflatRule x := by cases x <;> simp [ruleNode, nflat, nflatRule]

theorem nflat_eq (n : NNode) : nflat n = n :: (nchildren n).flatMap nflat := by
  cases n with
  | file f =>
    simp only [nchildren, List.flatMap_map, nflat_rule]
    simp only [nflat]
  | rule r =>
    simp only [nchildren, List.flatMap_cons, List.flatMap_nil, nflat_value, List.append_nil]
    simp only [nflat, nflatRule]
  | sexpr h args =>
    simp only [nchildren, List.flatMap_cons, nflat_op, List.flatMap_map, nflat_value]
    simp only [nflat, nflatValue, nflatValues_eq]
  | parts ps =>
    simp only [nchildren, List.flatMap_map, nflat_part]
    simp only [nflat, nflatOp, List.cons.injEq, true_and]
    induction ps with
    | nil => rfl
    | cons a l ih => simp [← ih]
  | _ => simp [nflat, nchildren]

theorem mem_nflat_iff (n m : NNode) : m ∈ nflat n ↔ NDesc n m := by
  constructor
  · induction n using nnode_induction with
    | ih n ih =>
      rw [nflat_eq, List.mem_cons, List.mem_flatMap]
      rintro (rfl | ⟨c, hc, hm⟩)
      · exact .self _
      · exact .child hc (ih c hc hm)
  · intro h
    induction h with
    | self n => rw [nflat_eq]; exact List.mem_cons_self
    | child hc _ ih => rw [nflat_eq]; exact List.mem_cons_of_mem _ (List.mem_flatMap.2 ⟨_, hc, ih⟩)

theorem ninspect_eq (f : NNode → σ → Out (σ × Bool)) (n : NNode) (s : σ) :
    ninspect n f s = match f n s with
      | .panic (s', _) => .panic s'
      | .done (s', false) => .done s'
      | .done (s', true) => if dead n then .panic s' else forEach (fun c => ninspect c f) (nchildren n) s' := by
  unfold ninspect
  rw [nwalk_eq]
  simp only [visitThen, ninspector]
  rcases f n s with ⟨s', _ | _⟩ | ⟨s', b⟩ <;> rfl

/-! ### Callbacks for which an answer `false` is the last thing they do -/

/-- The callback on one node after the other. -/
def runList (f : NNode → σ → Out (σ × Bool)) : List NNode → σ → Out σ
  | [], s => .done s
  | n :: ns, s =>
    match f n s with
    | .panic (s', _) => .panic s'
    | .done (s', false) => runList f ns s'
    | .done (s', true) => if dead n then .panic s' else runList f ns s'

theorem runList_append (f : NNode → σ → Out (σ × Bool)) (a b : List NNode) (s : σ) :
    runList f (a ++ b) s = (runList f a s).andThen (runList f b) := by
  induction a generalizing s with
  | nil => rfl
  | cons n a ih =>
    simp only [List.cons_append, runList]
    rcases f n s with ⟨s', _ | _⟩ | ⟨s', c⟩
    · exact ih s'
    · simp only
      split
      · rfl
      · exact ih s'
    · rfl

theorem runList_over (f : NNode → σ → Out (σ × Bool)) (s : σ) (h : ∀ m, f m s = .done (s, false)) (l : List NNode) :
    runList f l s = .done s := by
  induction l with
  | nil => rfl
  | cons n l ih => simp only [runList, h, ih]

theorem ninspect_runList (f : NNode → σ → Out (σ × Bool)) (h : ∀ n s s', f n s = .done (s', false) → ∀ m, f m s' = .done (s', false)) (n : NNode) :
    ∀ s, ninspect n f s = runList f (nflat n) s := by
  induction n using nnode_induction with
  | ih n ih =>
  intro s
  rw [ninspect_eq, nflat_eq, runList]
  rcases hf : f n s with ⟨s', _ | _⟩ | ⟨s', c⟩
  · simp only
    exact (runList_over f s' (h n s s' hf) _).symm
  · simp only
    split
    · rfl
    · clear hf
      generalize nchildren n = l at ih
      induction l generalizing s' with
      | nil => rfl
      | cons c l ihl =>
        rw [List.flatMap_cons, runList_append, forEach, ih c List.mem_cons_self]
        simp only [Out.andThen]
        cases runList f (nflat c) s' with
        | done s'' => exact ihl s'' (fun c hc => ih c (List.mem_cons_of_mem _ hc))
        | panic s'' => rfl
  · rfl

/-! ### A callback that wants to see everything -/

theorem runList_log (l : List NNode) : ∀ s, runList (fun n (log : List NNode) => .done (log ++ [n], true)) l s =
    if l.any dead then .panic (s ++ through dead l) else .done (s ++ l) := by
  induction l with
  | nil => intro s; simp [runList]
  | cons n l ih =>
    intro s
    simp only [runList, ih, List.any_cons, through]
    by_cases hd : dead n = true
    · simp [hd]
    · simp [hd]

theorem ninspect_log (n : NNode) : ninspect n (fun n (log : List NNode) => .done (log ++ [n], true)) [] =
    if (nflat n).any dead then .panic (through dead (nflat n)) else .done (nflat n) := by
  rw [ninspect_runList _ (by intro n s s' h; simp at h), runList_log]
  simp

/-! ### `Contains` -/

theorem runList_found (pred : NNode → Option Bool) (l : List NNode) :
    (match runList (fun n found => if found then Out.done (true, false)
      else match pred n with
        | none => .panic (found, false)
        | some b => .done (b, !b)) l false with
      | .done found => some found
      | .panic _ => none) =
    match l.find? fun m => pred m != some false || dead m with
    | none => some false
    | some m => if pred m = some true then some true else none := by
  induction l with
  | nil => simp [runList]
  | cons n l ih =>
    simp only [runList, Bool.false_eq_true, if_false, List.find?_cons]
    rcases hp : pred n with _ | _ | _
    · simp only [show ((none : Option Bool) != some false) = true from rfl, Bool.true_or]
      simp [hp]
    · simp only [Bool.not_false]
      cases hd : dead n
      · simpa [hp] using ih
      · simp [hp]
    · simp only [Bool.not_true]
      rw [runList_over _ true (by intro m; simp)]
      simp only [show ((some true : Option Bool) != some false) = true from rfl, Bool.true_or]
      simp [hp]

theorem ncontains_eq (n : NNode) (pred : NNode → Option Bool) : ncontains n pred =
    match (nflat n).find? fun m => pred m != some false || dead m with
    | none => some false
    | some m => if pred m = some true then some true else none := by
  unfold ncontains
  rw [ninspect_runList]
  · exact runList_found pred (nflat n)
  · intro n s s' h m
    cases s with
    | true => simp at h; subst h; simp
    | false =>
      simp only [Bool.false_eq_true, if_false] at h
      split at h
      · cases h
      · simp only [Out.done.injEq, Prod.mk.injEq] at h
        obtain ⟨rfl, h2⟩ := h
        rename_i b _
        cases b
        · simp at h2
        · simp

/-! ### Without nil pointers -/

theorem fillNode_value (st : Stand) (v : NValue) : fillNode st v.toNNode = (fill st v).toNode := by
  cases v <;> simp [NValue.toNNode, fillNode, fill, Value.toNode]
theorem fillNode_op (st : Stand) (o : Op) : fillNode st o.toNNode = o.toNode := by cases o <;> rfl
theorem fillNode_part (st : Stand) (o : OpPart) : fillNode st o.toNNode = o.toNode := by cases o <;> rfl
theorem fillNode_rule (st : Stand) (r : Option NRule) : fillNode st (ruleNode r) = .rule (fillRulePtr st r) := by cases r <;> rfl

theorem fills_eq_map (st : Stand) (l : List NValue) : fills st l = l.map (fill st) := by
  induction l with
  | nil => rfl
  | cons v l ih => simp [fills, ih]

theorem children_fill (st : Stand) (n : NNode) (h : n = .exprNil ∨ isNilPtr n = false) :
    children (fillNode st n) = (nchildren n).map (fillNode st) ∧ isNil (fillNode st n) = dead n := by
  cases n with
  | file f => exact ⟨by simp only [fillNode, children, fillFile, nchildren, List.map_map]; exact List.map_congr_left fun r _ => (fillNode_rule st r).symm, rfl⟩
  | rule r => exact ⟨by simp only [nchildren, List.map_cons, List.map_nil, fillNode_value]; rfl, rfl⟩
  | sexpr hd args =>
    refine ⟨?_, rfl⟩
    have e : (args.map NValue.toNNode).map (fillNode st) = (fills st args).map Value.toNode := by
      rw [fills_eq_map, List.map_map, List.map_map]
      exact List.map_congr_left fun v _ => fillNode_value st v
    simp only [nchildren, List.map_cons, fillNode_op, e]
    rfl
  | parts ps =>
    refine ⟨?_, rfl⟩
    simp only [fillNode, children, nchildren, List.map_map]
    exact List.map_congr_left fun v _ => (fillNode_part st v).symm
  | fileNil => simp [isNilPtr] at h
  | ruleNil => simp [isNilPtr] at h
  | sexprNil => simp [isNilPtr] at h
  | _ => exact ⟨rfl, rfl⟩

theorem ninspect_fill {σ : Type} (f : Callback σ) (st : Stand) (n : NNode) :
    ∀ (_ : ∀ m, NDesc n m → m = .exprNil ∨ isNilPtr m = false) s,
      ninspect n (fun m s => .done (f (fillNode st m) s)) s = inspect (fillNode st n) f s := by
  induction n using nnode_induction with
  | ih n ih =>
  intro h s
  obtain ⟨e1, e2⟩ := children_fill st n (h n (.self n))
  rw [ninspect_eq, inspect_eq, e1, e2, forEach_map]
  rcases f (fillNode st n) s with ⟨s', _ | _⟩
  · rfl
  · simp only [if_true]
    split
    · rfl
    · have h' : ∀ c ∈ nchildren n, ∀ m, NDesc c m → m = .exprNil ∨ isNilPtr m = false := fun c hc m hm => h m (.child hc hm)
      clear e1
      generalize nchildren n = l at ih h'
      induction l generalizing s' with
      | nil => rfl
      | cons c l ihl =>
        simp only [forEach]
        rw [ih c List.mem_cons_self (h' c List.mem_cons_self)]
        cases inspect (fillNode st c) f s' with
        | done s'' => exact ihl s'' (fun c hc => ih c (List.mem_cons_of_mem _ hc)) (fun c hc => h' c (List.mem_cons_of_mem _ hc))
        | panic s'' => rfl

end Verif.Proof.Nil

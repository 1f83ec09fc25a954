import Verif.Model.Walk
import Verif.Spec.Tree
/-! Lemmas about `walk`. -/
namespace Verif

open Spec

variable {V σ : Type}

theorem forEach_map {α β : Type} (f : β → σ → Out σ) (g : α → β) (l : List α) (s : σ) :
    forEach f (l.map g) s = forEach (fun a => f (g a)) l s := by
  induction l generalizing s with
  | nil => rfl
  | cons a l ih =>
    simp only [List.map_cons, forEach]
    cases f (g a) s <;> simp [ih]

theorem walkValues_eq (vis : Visiting V σ) (v : V) (l : List Value) (s : σ) :
    walkValues vis v l s = forEach (walkValue vis v) l s := by
  induction l generalizing s with
  | nil => simp [walkValues, forEach]
  | cons a l ih =>
    simp only [walkValues, forEach]
    cases walkValue vis v a s <;> simp [ih]

theorem walk_toNode_value (vis : Visiting V σ) (v : V) (x : Value) :
    walk vis v x.toNode = walkValue vis v x := by
  funext s; cases x <;> simp [Value.toNode, walk, walkValue]

theorem walk_toNode_op (vis : Visiting V σ) (v : V) (x : Op) :
    walk vis v x.toNode = walkOp vis v x := by
  funext s; cases x <;> simp [Op.toNode, walk, walkOp]

theorem walk_toNode_part (vis : Visiting V σ) (v : V) (x : OpPart) :
    walk vis v x.toNode = walkLeaf vis v x.toNode := by
  funext s; cases x <;> simp [OpPart.toNode, walk]

theorem walk_rule (vis : Visiting V σ) (v : V) (r : Rule) : walk vis v (.rule r) = walkRule vis v r := by
  funext s; simp [walk]

/-- One step of `Walk` in terms of the specification's notion of children. -/
theorem walk_eq (vis : Visiting V σ) (v : V) (n : Node) (s : σ) :
    walk vis v n s =
      match vis.visit v n s with
      | (s', none) => .done s'
      | (s', some w) => if isNil n then .panic s' else forEach (walk vis w) (children n) s' := by
  cases n with
  | file f =>
    simp only [children, forEach_map, walk_rule]
    simp only [walk]
    rcases vis.visit v (.file f) s with ⟨s', _ | w⟩ <;> simp [isNil]
  | rule r =>
    simp only [walk, walkRule, children]
    rcases vis.visit v (.rule r) s with ⟨s', _ | w⟩
    · simp
    · simp only [isNil, Bool.false_eq_true, if_false, forEach, walk_toNode_value]
      cases walkValue vis w r.match s' with
      | done s'' => simp only; cases walkValue vis w r.result s'' <;> rfl
      | panic s'' => rfl
  | sexpr h args =>
    simp only [walk, walkValue, children, walkValues_eq]
    rcases vis.visit v (.sexpr h args) s with ⟨s', _ | w⟩
    · simp
    · simp only [isNil, Bool.false_eq_true, if_false, forEach, walk_toNode_op, forEach_map, walk_toNode_value]
  | parts ps =>
    simp only [children, forEach_map, walk_toNode_part]
    simp only [walk, walkOp]
    rcases vis.visit v (.parts ps) s with ⟨s', _ | w⟩ <;> simp [isNil]
  | nil => simp only [walk, walkLeaf]; rcases vis.visit v .nil s with ⟨s', _ | w⟩ <;> simp [isNil]
  | opcode c => simp only [walk, walkLeaf, children]; rcases vis.visit v (.opcode c) s with ⟨s', _ | w⟩ <;> simp [forEach, isNil]
  | alt c => simp only [walk, walkLeaf, children]; rcases vis.visit v (.alt c) s with ⟨s', _ | w⟩ <;> simp [forEach, isNil]
  | expr c => simp only [walk, walkLeaf, children]; rcases vis.visit v (.expr c) s with ⟨s', _ | w⟩ <;> simp [forEach, isNil]
  | var c => simp only [walk, walkLeaf, children]; rcases vis.visit v (.var c) s with ⟨s', _ | w⟩ <;> simp [forEach, isNil]

theorem sizeOf_toNode_value (x : Value) : sizeOf x.toNode = sizeOf x := by
  cases x <;> simp [Value.toNode]

theorem sizeOf_toNode_op (x : Op) : sizeOf x.toNode = sizeOf x := by
  cases x <;> simp [Op.toNode]

theorem sizeOf_toNode_part (x : OpPart) : sizeOf x.toNode = sizeOf x := by
  cases x <;> simp [OpPart.toNode]

theorem sizeOf_op_lt_hdr (h : Hdr) : sizeOf h.op < sizeOf h := by
  cases h; simp; omega

theorem sizeOf_rule_match (r : Rule) : sizeOf r.match < sizeOf r := by
  cases r; simp; omega

theorem sizeOf_rule_result (r : Rule) : sizeOf r.result < sizeOf r := by
  cases r; simp; omega

theorem children_lt {n c : Node} (h : c ∈ children n) : sizeOf c < sizeOf n := by
  cases n with
  | file f =>
    simp only [children, List.mem_map] at h
    obtain ⟨r, hr, rfl⟩ := h
    have := List.sizeOf_lt_of_mem hr
    cases f; simp at *; omega
  | rule r =>
    simp only [children, List.mem_cons, List.not_mem_nil, or_false] at h
    have h1 := sizeOf_rule_match r
    have h2 := sizeOf_rule_result r
    rcases h with rfl | rfl <;> simp [sizeOf_toNode_value] <;> omega
  | sexpr hd args =>
    simp only [children, List.mem_cons, List.mem_map] at h
    rcases h with rfl | ⟨a, ha, rfl⟩
    · have := sizeOf_op_lt_hdr hd
      simp [sizeOf_toNode_op]; omega
    · have := List.sizeOf_lt_of_mem ha
      simp [sizeOf_toNode_value]; omega
  | parts ps =>
    simp only [children, List.mem_map] at h
    obtain ⟨a, ha, rfl⟩ := h
    have := List.sizeOf_lt_of_mem ha
    simp [sizeOf_toNode_part]; omega
  | _ => simp [children] at h

/-- Induction over AST nodes along the specification's children. -/
theorem node_induction {P : Node → Prop} (ih : ∀ n, (∀ c ∈ children n, P c) → P n) : ∀ n, P n := by
  intro n
  induction hn : sizeOf n using Nat.strongRecOn generalizing n with
  | _ k IH =>
    apply ih
    intro c hc
    exact IH (sizeOf c) (hn ▸ children_lt hc) c rfl

/-! ### Inspect with a history-dependent callback -/

theorem inspector_visit (f : Callback σ) (n : Node) (s : σ) :
    (inspector f).visit () n s = ((f n s).1, if (f n s).2 then some () else none) := by
  simp only [inspector]
  rcases f n s with ⟨s', _ | _⟩ <;> simp

theorem inspect_eq (f : Callback σ) (n : Node) (s : σ) :
    inspect n f s =
      if (f n s).2 then
        if isNil n then .panic (f n s).1 else forEach (fun c => inspect c f) (children n) (f n s).1
      else .done (f n s).1 := by
  unfold inspect
  rw [walk_eq, inspector_visit]
  cases h : (f n s).2 <;> simp

theorem inspect_preorder (ans : List Node → Node → Bool) (n : Node) :
    ∀ hist out, inspect n (logging ans) hist = .done out ↔ ∃ tr, PreOrder ans hist n tr ∧ out = hist ++ tr := by
  induction n using node_induction with
  | ih n ihn =>
  intro hist out
  have hlist : ∀ (l : List Node), (∀ c ∈ l, ∀ hist out, inspect c (logging ans) hist = .done out ↔
        ∃ tr, PreOrder ans hist c tr ∧ out = hist ++ tr) →
      ∀ hist out, forEach (fun c => inspect c (logging ans)) l hist = .done out ↔
        ∃ tr, PreOrders ans hist l tr ∧ out = hist ++ tr := by
    intro l
    induction l with
    | nil =>
      intro _ hist out
      constructor
      · intro h; simp only [forEach, Out.done.injEq] at h
        exact ⟨[], .nil, by simp [h]⟩
      · rintro ⟨tr, h, rfl⟩; cases h; simp [forEach]
    | cons c l ihl =>
      intro hc hist out
      simp only [forEach]
      constructor
      · intro h
        cases hcs : inspect c (logging ans) hist with
        | panic s' => simp [hcs] at h
        | done s' =>
          simp only [hcs] at h
          obtain ⟨tr, ht, rfl⟩ := (hc c (by simp) hist s').1 hcs
          obtain ⟨trs, hts, rfl⟩ := (ihl (fun c hcl => hc c (by simp [hcl])) _ _).1 h
          exact ⟨tr ++ trs, .cons ht hts, by simp⟩
      · rintro ⟨tr, h, rfl⟩
        cases h with
        | @cons _ _ _ tr trs h1 h2 =>
          rw [(hc c (by simp) hist (hist ++ tr)).2 ⟨tr, h1, rfl⟩]
          simp only
          rw [(ihl (fun c hcl => hc c (by simp [hcl])) _ _).2 ⟨trs, h2, rfl⟩]
          simp
  rw [inspect_eq]
  simp only [logging]
  rcases Bool.eq_false_or_eq_true (ans hist n) with ha | ha
  rotate_left
  · simp only [ha, Bool.false_eq_true, if_false, Out.done.injEq]
    constructor
    · rintro rfl; exact ⟨[n], .prune ha, rfl⟩
    · rintro ⟨tr, h, rfl⟩
      cases h with
      | prune _ => rfl
      | descend h1 => simp [ha] at h1
  · simp only [ha, if_true]
    by_cases hn : n = .nil
    · subst hn
      simp only [isNil, if_true, reduceCtorEq, false_iff]
      rintro ⟨tr, h, rfl⟩
      cases h with
      | prune h1 => simp [ha] at h1
      | descend _ h1 => exact h1 rfl
    · have hnn : isNil n = false := by cases n <;> simp_all [isNil]
      simp only [hnn, Bool.false_eq_true, if_false]
      rw [hlist (children n) ihn]
      constructor
      · rintro ⟨tr, h, rfl⟩; exact ⟨n :: tr, .descend ha hn h, by simp⟩
      · rintro ⟨tr, h, rfl⟩
        cases h with
        | prune h1 => simp [ha] at h1
        | @descend _ _ tr _ _ h2 => exact ⟨tr, h2, by simp⟩

/-! ### The flat list of nodes -/

theorem flat_toNode_value (x : Value) : flat x.toNode = flatValue x := by
  cases x <;> simp [Value.toNode, flat, flatValue]

theorem flat_toNode_op (x : Op) : flat x.toNode = flatOp x := by
  cases x <;> simp [Op.toNode, flat, flatOp]

theorem flat_toNode_part (x : OpPart) : flat x.toNode = [x.toNode] := by
  cases x <;> simp [OpPart.toNode, flat]

theorem flatValues_eq (l : List Value) : flatValues l = l.flatMap flatValue := by
  induction l with
  | nil => simp [flatValues]
  | cons a l ih => simp [flatValues, ih]

theorem flat_eq (n : Node) : flat n = n :: (children n).flatMap flat := by
  cases n with
  | file f => simp [flat, children, List.flatMap_map]
  | rule r => simp only [children, List.flatMap_cons, flat_toNode_value, List.flatMap_nil, List.append_nil]; simp only [flat]
  | sexpr h args =>
    simp only [children, List.flatMap_cons, flat_toNode_op, List.flatMap_map, flat_toNode_value]
    simp only [flat, flatValue, flatValues_eq]
  | parts ps =>
    simp only [children, List.flatMap_map, flat_toNode_part]
    simp only [flat, flatOp, List.cons.injEq, true_and]
    induction ps with
    | nil => rfl
    | cons a l ih => simp [← ih]
  | _ => simp [flat, children]

theorem mem_flat_iff (n m : Node) : m ∈ flat n ↔ Desc n m := by
  induction n using node_induction with
  | ih n ihn =>
  rw [flat_eq]
  simp only [List.mem_cons, List.mem_flatMap]
  constructor
  · rintro (rfl | ⟨c, hc, hm⟩)
    · exact .self _
    · exact .child hc ((ihn c hc).1 hm)
  · intro h
    cases h with
    | self => exact .inl rfl
    | child hc hd => exact .inr ⟨_, hc, (ihn _ hc).2 hd⟩

/-! ### Contains -/

/-- `found` with a recording predicate. -/
theorem contains_true_step (pred : Callback σ) (n : Node) (t : σ) :
    inspect n (containsStep pred) (true, t) = .done (true, t) := by
  rw [inspect_eq]; simp [containsStep]

theorem contains_forEach_true (pred : Callback σ) (l : List Node) (t : σ) :
    forEach (fun c => inspect c (containsStep pred)) l (true, t) = .done (true, t) := by
  induction l with
  | nil => rfl
  | cons a l ih => simp [forEach, contains_true_step, ih]

theorem upTo_append_of_any {p : Node → Bool} {a : List Node} (h : a.any p = true) (b : List Node) :
    upTo p (a ++ b) = upTo p a := by
  induction a with
  | nil => simp at h
  | cons x a ih =>
    simp only [List.cons_append, upTo]
    cases hx : p x with
    | true => simp
    | false => simp [hx] at h; simp [ih (by simpa using h)]

theorem upTo_append_of_not_any {p : Node → Bool} {a : List Node} (h : a.any p = false) (b : List Node) :
    upTo p (a ++ b) = a ++ upTo p b := by
  induction a with
  | nil => simp
  | cons x a ih =>
    simp at h
    simp [upTo, h.1, ih (by simpa using h.2)]

theorem upTo_of_not_any {p : Node → Bool} {a : List Node} (h : a.any p = false) : upTo p a = a := by
  have := upTo_append_of_not_any h []; simpa [upTo] using this

/-- Whether `Contains` panics: a nil is reached before the predicate holds. -/
theorem contains_spec (p : Node → Bool) (n : Node) : ∀ log,
    containsRun n (recPred p) log = inspect n (containsStep (recPred p)) (false, log) ∧
    inspect n (containsStep (recPred p)) (false, log) =
      (if (upTo p (flat n)).any (fun m => isNil m && !p m) then
        .panic (false, log ++ ((flat n).takeWhile (fun m => !isNil m && !p m) ++ [.nil]))
       else .done ((flat n).any p, log ++ upTo p (flat n))) := by
  intro log
  refine ⟨rfl, ?_⟩
  induction n using node_induction generalizing log with
  | ih n ihn =>
  rw [inspect_eq, flat_eq]
  simp only [containsStep, recPred]
  rcases Bool.eq_false_or_eq_true (p n) with hp | hp
  · simp [upTo, hp]
  · simp only [hp, Bool.not_false, if_true]
    by_cases hn : n = .nil
    · subst hn
      simp [upTo, hp, children, isNil]
    · have hnn : isNil n = false := by cases n <;> simp_all [isNil]
      simp only [upTo, hp, List.any_cons, Bool.false_eq_true, if_false, hnn,
        List.takeWhile_cons, Bool.false_or, decide_false, Bool.false_and, Bool.not_false, decide_true, Bool.and_self,
        not_false_eq_true, if_true]
      have hlist : ∀ (l : List Node), (∀ c ∈ l, c ∈ children n) → ∀ log,
          forEach (fun c => inspect c (containsStep (recPred p))) l (false, log) =
          (if (upTo p (l.flatMap flat)).any (fun m => isNil m && !p m) then
            .panic (false, log ++ ((l.flatMap flat).takeWhile (fun m => !isNil m && !p m) ++ [.nil]))
           else .done ((l.flatMap flat).any p, log ++ upTo p (l.flatMap flat))) := by
        intro l
        induction l with
        | nil => intro _ log; simp [forEach, upTo]
        | cons c l ihl =>
          intro hc log
          simp only [forEach, ihn c (hc c (by simp)) log, List.flatMap_cons]
          cases hany : (flat c).any p with
          | true =>
            rw [upTo_append_of_any hany]
            rcases Bool.eq_false_or_eq_true ((upTo p (flat c)).any fun m => isNil m && !p m) with hq | hq
            · simp only [hq, if_true, Out.panic.injEq, Prod.mk.injEq, true_and, List.append_cancel_left_eq]
              have : ∀ (a b : List Node), (upTo p a).any (fun m => isNil m && !p m) = true →
                  (a ++ b).takeWhile (fun m => !isNil m && !p m) =
                  a.takeWhile (fun m => !isNil m && !p m) := by
                intro a b h
                induction a with
                | nil => simp [upTo] at h
                | cons x a iha =>
                  simp only [List.cons_append, List.takeWhile_cons]
                  cases hx : (!isNil x && !p x) with
                  | false => simp
                  | true =>
                    simp only [if_true, List.cons.injEq, true_and]
                    apply iha
                    simp only [upTo, List.any_cons] at h
                    cases hpx : p x <;> cases hmx : isNil x <;> simp_all
              rw [this _ _ hq]
            · simp only [hq, Bool.false_eq_true, if_false, contains_forEach_true, List.any_append, hany, Bool.true_or]
          | false =>
            rw [upTo_append_of_not_any hany, upTo_of_not_any hany]
            simp only [List.any_append]
            cases hq : (flat c).any (fun m => isNil m && !p m) with
            | true =>
              simp only [if_true, Bool.true_or, Out.panic.injEq, Prod.mk.injEq, true_and, List.append_cancel_left_eq]
              have : ∀ (a b : List Node), a.any (fun m => isNil m && !p m) = true →
                  (a ++ b).takeWhile (fun m => !isNil m && !p m) =
                  a.takeWhile (fun m => !isNil m && !p m) := by
                intro a b h
                induction a with
                | nil => simp at h
                | cons x a iha =>
                  simp only [List.cons_append, List.takeWhile_cons]
                  cases hx : (!isNil x && !p x) with
                  | false => simp
                  | true =>
                    simp only [if_true, List.cons.injEq, true_and]
                    apply iha
                    simp only [List.any_cons] at h
                    cases hpx : p x <;> cases hmx : isNil x <;> simp_all
              rw [this _ _ hq]
            | false =>
              simp only [Bool.false_eq_true, if_false, Bool.false_or]
              rw [ihl (fun c h => hc c (by simp [h]))]
              have htw : ∀ (a b : List Node), a.any p = false →
                  a.any (fun m => isNil m && !p m) = false →
                  (a ++ b).takeWhile (fun m => !isNil m && !p m) =
                  a ++ b.takeWhile (fun m => !isNil m && !p m) := by
                intro a b h1 h2
                induction a with
                | nil => simp
                | cons x a iha =>
                  simp only [List.any_cons, Bool.or_eq_false_iff] at h1 h2
                  simp only [List.cons_append, List.takeWhile_cons]
                  rw [iha h1.2 h2.2]
                  cases hmx : isNil x <;> simp_all
              rw [htw _ _ hany hq]
              simp [hany]
      rw [hlist (children n) (fun c h => h)]
      simp

/-! ### Forgetting part of the state -/

theorem inspect_sim {σ τ : Type} (f : Callback σ) (g : Callback τ) (π : σ → τ)
    (h : ∀ n s, g n (π s) = (π (f n s).1, (f n s).2)) (n : Node) :
    ∀ s, inspect n g (π s) = match inspect n f s with
      | .done s' => .done (π s')
      | .panic s' => .panic (π s') := by
  induction n using node_induction with
  | ih n ihn =>
  intro s
  rw [inspect_eq, inspect_eq, h]
  rcases Bool.eq_false_or_eq_true (f n s).2 with hb | hb
  · simp only [hb, if_true]
    rcases Bool.eq_false_or_eq_true (isNil n) with hn | hn
    · simp [hn]
    · simp only [hn, Bool.false_eq_true, if_false]
      generalize (f n s).1 = t
      have : ∀ l : List Node, (∀ c ∈ l, c ∈ children n) → ∀ t,
          forEach (fun c => inspect c g) l (π t) = match forEach (fun c => inspect c f) l t with
            | .done s' => .done (π s')
            | .panic s' => .panic (π s') := by
        intro l
        induction l with
        | nil => intro _ t; rfl
        | cons c l ihl =>
          intro hc t
          simp only [forEach]
          rw [ihn c (hc c (by simp))]
          cases inspect c f t with
          | done s' => exact ihl (fun c h => hc c (by simp [h])) s'
          | panic s' => rfl
      exact this _ (fun _ h => h) t
  · simp [hb]

theorem contains_eq (n : Node) (p : Node → Bool) :
    contains n p = match containsRun n (recPred p) [] with
      | .done (b, _) => some b
      | .panic _ => none := by
  have h := inspect_sim (containsStep (recPred p)) (containsStep (fun n (_ : Unit) => ((), p n)))
    (fun s => (s.1, ())) (by
      rintro n ⟨b, l⟩
      cases b <;> simp [containsStep, recPred]) n (false, [])
  simp only at h
  simp only [contains, containsRun]
  rw [h]
  cases inspect n (containsStep (recPred p)) (false, []) <;> rfl

/-! ### Absence of panics -/

theorem walk_done (vis : Visiting V σ) (n : Node) (hn : NoNil n) : ∀ v s, ∃ s', walk vis v n s = .done s' := by
  induction n using node_induction with
  | ih n ihn =>
  intro v s
  rw [walk_eq]
  rcases vis.visit v n s with ⟨s', _ | w⟩
  · exact ⟨s', rfl⟩
  · have hnil : isNil n = false := by
      cases h : isNil n with
      | false => rfl
      | true => cases n <;> simp [isNil] at h; exact absurd (Desc.self _) hn
    simp only [hnil, Bool.false_eq_true, if_false]
    have : ∀ l : List Node, (∀ c ∈ l, c ∈ children n) → ∀ s, ∃ s', forEach (walk vis w) l s = .done s' := by
      intro l
      induction l with
      | nil => intro _ s; exact ⟨s, rfl⟩
      | cons c l ihl =>
        intro hc s
        obtain ⟨s1, h1⟩ := ihn c (hc c (by simp)) (fun h => hn (.child (hc c (by simp)) h)) w s
        obtain ⟨s2, h2⟩ := ihl (fun c h => hc c (by simp [h])) s1
        exact ⟨s2, by simp [forEach, h1, h2]⟩
    exact this _ (fun _ h => h) s'

theorem walk_all_panic (vis : Visiting V σ) (hall : ∀ v n s, ∃ s' w, vis.visit v n s = (s', some w))
    (n : Node) (hn : Desc n .nil) : ∀ v s, ∃ s', walk vis v n s = .panic s' := by
  generalize hm : Node.nil = m at hn
  induction hn with
  | self n =>
    subst hm
    intro v s
    obtain ⟨s', w, h⟩ := hall v .nil s
    exact ⟨s', by rw [walk_eq, h]; simp [isNil]⟩
  | @child n c m hc _ ih =>
    intro v s
    obtain ⟨s', w, h⟩ := hall v n s
    have hnil : isNil n = false := by cases n <;> simp_all [isNil, children]
    rw [walk_eq, h]
    simp only [hnil, Bool.false_eq_true, if_false]
    have : ∀ l : List Node, c ∈ l → ∀ s, ∃ s', forEach (walk vis w) l s = .panic s' := by
      intro l
      induction l with
      | nil => simp
      | cons a l ihl =>
        intro hc s
        simp only [forEach]
        cases ha : walk vis w a s with
        | panic s1 => exact ⟨s1, rfl⟩
        | done s1 =>
          simp only [List.mem_cons] at hc
          rcases hc with rfl | hc
          · obtain ⟨s2, h2⟩ := ih hm w s
            simp [ha] at h2
          · exact ihl hc s1
    exact this _ hc s'

/-- A panic happens when the callback, given a nil node, asks for its children. -/
theorem inspect_panic (ans : List Node → Node → Bool) (n : Node) : ∀ hist out,
    inspect n (logging ans) hist = .panic out →
      ∃ pre, out = pre ++ [.nil] ∧ ans pre .nil = true ∧ Desc n .nil := by
  induction n using node_induction with
  | ih n ihn =>
  intro hist out h
  rw [inspect_eq] at h
  simp only [logging] at h
  rcases Bool.eq_false_or_eq_true (ans hist n) with ha | ha
  · simp only [ha, if_true] at h
    rcases Bool.eq_false_or_eq_true (isNil n) with hn | hn
    · have : n = .nil := by cases n <;> simp_all [isNil]
      subst this
      simp [isNil] at h
      exact ⟨hist, h.symm, ha, .self _⟩
    · simp only [hn, Bool.false_eq_true, if_false] at h
      have : ∀ l : List Node, (∀ c ∈ l, c ∈ children n) → ∀ t,
          forEach (fun c => inspect c (logging ans)) l t = .panic out →
          ∃ pre, out = pre ++ [.nil] ∧ ans pre .nil = true ∧ Desc n .nil := by
        intro l
        induction l with
        | nil => intro _ t h; simp [forEach] at h
        | cons c l ihl =>
          intro hc t h
          simp only [forEach] at h
          cases hi : inspect c (logging ans) t with
          | done s' => rw [hi] at h; exact ihl (fun c h => hc c (by simp [h])) s' h
          | panic s' =>
            rw [hi] at h
            simp only [Out.panic.injEq] at h
            subst h
            obtain ⟨pre, h1, h2, h3⟩ := ihn c (hc c (by simp)) t _ hi
            exact ⟨pre, h1, h2, .child (hc c (by simp)) h3⟩
      exact this _ (fun _ h => h) _ h
  · simp [ha] at h

theorem flat_noNil_upTo (p : Node → Bool) (n : Node) (hn : NoNil n) :
    (upTo p (flat n)).any (fun m => isNil m && !p m) = false := by
  have hsub : ∀ (l : List Node) m, m ∈ upTo p l → m ∈ l := by
    intro l
    induction l with
    | nil => simp [upTo]
    | cons a l ih =>
      intro m hm
      simp only [upTo, List.mem_cons] at hm ⊢
      rcases hm with rfl | hm
      · exact .inl rfl
      · split at hm
        · simp at hm
        · exact .inr (ih m hm)
  rw [List.any_eq_false]
  intro m hm
  have : Desc n m := (mem_flat_iff n m).1 (hsub _ m hm)
  cases m <;> simp [isNil]
  exact absurd this hn

/-! ### Rules -/

theorem desc_value_iff (v : Value) (h : Hdr) (args : List Value) :
    Desc v.toNode (.sexpr h args) ↔ SubValue v (.sexpr h args) := by
  constructor
  · suffices ∀ n m, Desc n m → ∀ v : Value, n = v.toNode → m = .sexpr h args → SubValue v (.sexpr h args) from
      fun hd => this _ _ hd v rfl rfl
    intro n m hd
    induction hd with
    | self n =>
      intro v hv hm
      subst hm
      cases v <;> simp [Value.toNode] at hv
      obtain ⟨rfl, rfl⟩ := hv
      exact .self _
    | @child n c m hc _ ih =>
      intro v hv hm
      subst hv
      cases v with
      | sexpr h' as =>
        simp only [Value.toNode, children, List.mem_cons, List.mem_map] at hc
        rcases hc with rfl | ⟨a, ha, rfl⟩
        · exfalso
          rename_i hd
          subst hm
          cases ho : h'.op with
          | parts ps =>
            rw [ho] at hd
            cases hd with
            | child hc' hd' =>
              simp only [Op.toNode, children, List.mem_map] at hc'
              obtain ⟨q, _, rfl⟩ := hc'
              cases q <;> (simp only [OpPart.toNode] at hd'; cases hd' with
                | child hc'' => simp [children] at hc'')
          | nil => rw [ho] at hd; cases hd with | child hc' => simp [Op.toNode, children] at hc'
          | opcode c => rw [ho] at hd; cases hd with | child hc' => simp [Op.toNode, children] at hc'
        · exact .arg ha (ih a rfl hm)
      | _ => simp [Value.toNode, children] at hc
  · intro hs
    generalize hw : Value.sexpr h args = w at hs
    induction hs with
    | self v => subst hw; exact .self _
    | @arg h' as a w ha _ ih =>
      refine .child (c := a.toNode) ?_ (ih hw)
      simp only [Value.toNode, children, List.mem_cons, List.mem_map]
      exact .inr ⟨a, ha, rfl⟩

theorem contains_noNil (n : Node) (p : Node → Bool) (hn : NoNil n) :
    contains n p = some ((flat n).any p) := by
  rw [contains_eq, (contains_spec p n []).1, (contains_spec p n []).2, flat_noNil_upTo p n hn]
  simp

/-- A `Has*` function in terms of headers. -/
theorem contains_rule (r : Rule) (p : Node → Bool) (q : Hdr → Bool)
    (hp : ∀ n, p n = match n with | .sexpr h _ => q h | _ => false) (hn : NoNil (.rule r)) :
    contains (.rule r) p = some true ↔ RuleHas (fun h => q h = true) r := by
  rw [contains_noNil _ _ hn]
  simp only [Option.some.injEq, List.any_eq_true, mem_flat_iff]
  constructor
  · rintro ⟨m, hd, hm⟩
    rw [hp] at hm
    cases m with
    | sexpr h args =>
      simp only at hm
      cases hd with
      | child hc hd =>
        simp only [children, List.mem_cons, List.not_mem_nil, or_false] at hc
        rcases hc with rfl | rfl
        · exact ⟨h, args, hm, .inl ((desc_value_iff _ _ _).1 hd)⟩
        · exact ⟨h, args, hm, .inr ((desc_value_iff _ _ _).1 hd)⟩
    | _ => simp at hm
  · rintro ⟨h, args, hq, hs⟩
    refine ⟨.sexpr h args, ?_, by rw [hp]; exact hq⟩
    rcases hs with hs | hs
    · exact .child (c := r.match.toNode) (by simp [children]) ((desc_value_iff _ _ _).2 hs)
    · exact .child (c := r.result.toNode) (by simp [children]) ((desc_value_iff _ _ _).2 hs)

theorem hasX (r : Rule) (p : Node → Bool) (q : Hdr → Bool)
    (hp : ∀ n, p n = match n with | .sexpr h _ => q h | _ => false) (hn : NoNil (.rule r))
    (P : Hdr → Prop) (hP : ∀ h, q h = true ↔ P h) :
    ∃ b, contains (.rule r) p = some b ∧ (b = true ↔ RuleHas P r) := by
  refine ⟨_, contains_noNil _ _ hn, ?_⟩
  have h := contains_rule r p q hp hn
  rw [contains_noNil _ _ hn] at h
  simp only [Option.some.injEq, hP] at h
  exact h

theorem preOrder_true_flat (hist : List Node) (n : Node) (tr : List Node)
    (h : PreOrder (fun _ _ => true) hist n tr) : tr = flat n := by
  induction n using node_induction generalizing hist tr with
  | ih n ihn =>
  cases h with
  | prune h => simp at h
  | descend _ _ hs =>
    rw [flat_eq]
    congr 1
    rename_i tr
    have : ∀ (l : List Node), (∀ c ∈ l, c ∈ children n) → ∀ hist tr,
        PreOrders (fun _ _ => true) hist l tr → tr = l.flatMap flat := by
      intro l
      induction l with
      | nil => intro _ hist tr h; cases h; rfl
      | cons c l ihl =>
        intro hc hist tr h
        cases h with
        | cons h1 h2 =>
          rw [List.flatMap_cons, ← ihn c (hc c (by simp)) _ _ h1,
            ← ihl (fun c h => hc c (by simp [h])) _ _ h2]
    exact this _ (fun _ h => h) _ _ hs

theorem upTo_any_nil (p : Node → Bool) (l : List Node) :
    (upTo p l).any (fun m => isNil m && !p m) = true ↔
      p .nil = false ∧ ∃ pre post, l = pre ++ .nil :: post ∧ ∀ m ∈ pre, p m = false := by
  induction l with
  | nil => simp [upTo]
  | cons a l ih =>
    simp only [upTo, List.any_cons, Bool.or_eq_true]
    constructor
    · rintro (h | h)
      · have : a = .nil := by cases a <;> simp_all [isNil]
        subst this
        simp [isNil] at h
        exact ⟨h, [], l, rfl, by simp⟩
      · cases hp : p a with
        | true => simp [hp] at h
        | false =>
          simp only [hp, Bool.false_eq_true, if_false] at h
          obtain ⟨h1, pre, post, rfl, h3⟩ := ih.1 h
          exact ⟨h1, a :: pre, post, rfl, by simpa [hp] using h3⟩
    · rintro ⟨h1, pre, post, h2, h3⟩
      cases pre with
      | nil =>
        simp only [List.nil_append, List.cons.injEq] at h2
        left; rw [h2.1]; simp [isNil, h1]
      | cons b pre =>
        simp only [List.cons_append, List.cons.injEq] at h2
        obtain ⟨rfl, rfl⟩ := h2
        have ha := h3 a (by simp)
        right
        simp only [ha, Bool.false_eq_true, if_false]
        exact ih.2 ⟨h1, pre, post, rfl, fun m hm => h3 m (by simp [hm])⟩

end Verif

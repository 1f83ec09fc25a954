import Verif.Spec.LiveWalk
/-!
# Walking over an AST that is modified: lemmas for C65
-/
namespace Verif.Spec

open Verif

variable {V σ : Type}

/-! ## Ownership -/

mutual
theorem OwnV.lt {h : Heap} {hv : HVal} {v : Value} {L : List Addr} (o : OwnV h hv v L) : ∀ a ∈ L, a < h.length := by
  cases o with
  | nil => simp
  | expr => simp
  | var => simp
  | sexpr h1 h2 o =>
    intro a ha
    simp only [List.mem_cons] at ha
    rcases ha with rfl | rfl | ha
    · exact (List.getElem?_eq_some_iff.1 h1).1
    · exact (List.getElem?_eq_some_iff.1 h2).1
    · exact OwnVs.lt o a ha
theorem OwnVs.lt {h : Heap} {hvs : List HVal} {vs : List Value} {L : List Addr} (o : OwnVs h hvs vs L) : ∀ a ∈ L, a < h.length := by
  cases o with
  | nil => simp
  | cons o1 o2 =>
    intro a ha
    rcases List.mem_append.1 ha with ha | ha
    · exact OwnV.lt o1 a ha
    · exact OwnVs.lt o2 a ha
end

mutual
theorem OwnV.frame {h h' : Heap} {hv : HVal} {v : Value} {L : List Addr} (o : OwnV h hv v L) (e : ∀ a ∈ L, h'[a]? = h[a]?) : OwnV h' hv v L := by
  cases o with
  | nil => exact .nil
  | expr => exact .expr _
  | var => exact .var _
  | sexpr h1 h2 o =>
    exact .sexpr ((e _ (by simp)).trans h1) ((e _ (by simp)).trans h2) (OwnVs.frame o fun a ha => e a (by simp [ha]))
theorem OwnVs.frame {h h' : Heap} {hvs : List HVal} {vs : List Value} {L : List Addr} (o : OwnVs h hvs vs L) (e : ∀ a ∈ L, h'[a]? = h[a]?) :
    OwnVs h' hvs vs L := by
  cases o with
  | nil => exact .nil
  | cons o1 o2 => exact .cons (OwnV.frame o1 fun a ha => e a (by simp [ha])) (OwnVs.frame o2 fun a ha => e a (by simp [ha]))
end

theorem OwnRule.lt {h : Heap} {p : Addr} {r : Rule} {L : List Addr} (o : OwnRule h p r L) : ∀ a ∈ L, a < h.length := by
  cases o with
  | mk h1 o1 o2 =>
    intro a ha
    simp only [List.mem_cons, List.mem_append] at ha
    rcases ha with rfl | ha | ha
    · exact (List.getElem?_eq_some_iff.1 h1).1
    · exact o1.lt a ha
    · exact o2.lt a ha

theorem OwnRule.frame {h h' : Heap} {p : Addr} {r : Rule} {L : List Addr} (o : OwnRule h p r L) (e : ∀ a ∈ L, h'[a]? = h[a]?) : OwnRule h' p r L := by
  cases o with
  | mk h1 o1 o2 => exact .mk ((e _ (by simp)).trans h1) (o1.frame fun a ha => e a (by simp [ha])) (o2.frame fun a ha => e a (by simp [ha]))

theorem OwnRules.lt {h : Heap} {ps : List Addr} {rs : List Rule} {L : List Addr} (o : OwnRules h ps rs L) : ∀ a ∈ L, a < h.length := by
  induction o with
  | nil => simp
  | cons o1 o2 ih =>
    intro a ha
    rcases List.mem_append.1 ha with ha | ha
    · exact o1.lt a ha
    · exact ih a ha

theorem OwnRules.frame {h h' : Heap} {ps : List Addr} {rs : List Rule} {L : List Addr} (o : OwnRules h ps rs L) (e : ∀ a ∈ L, h'[a]? = h[a]?) :
    OwnRules h' ps rs L := by
  induction o with
  | nil => exact .nil
  | cons o1 o2 ih => exact .cons (o1.frame fun a ha => e a (by simp [ha])) (ih fun a ha => e a (by simp [ha]))

theorem OwnN.lt {h : Heap} {hn : HNode} {n : Node} {L : List Addr} (o : OwnN h hn n L) : ∀ a ∈ L, a < h.length := by
  cases o with
  | sexpr o => exact o.lt
  | rule o => exact o.lt
  | file h1 h2 o =>
    intro a ha
    simp only [List.mem_cons] at ha
    rcases ha with rfl | rfl | ha
    · exact (List.getElem?_eq_some_iff.1 h1).1
    · exact (List.getElem?_eq_some_iff.1 h2).1
    · exact o.lt a ha
  | _ => simp

theorem OwnN.frame {h h' : Heap} {hn : HNode} {n : Node} {L : List Addr} (o : OwnN h hn n L) (e : ∀ a ∈ L, h'[a]? = h[a]?) : OwnN h' hn n L := by
  cases o with
  | nil => exact .nil
  | expr => exact .expr _
  | var => exact .var _
  | opcode => exact .opcode _
  | parts => exact .parts _
  | alt => exact .alt _
  | sexpr o => exact .sexpr (o.frame e)
  | rule o => exact .rule (o.frame e)
  | file h1 h2 o => exact .file ((e _ (by simp)).trans h1) ((e _ (by simp)).trans h2) (o.frame fun a ha => e a (by simp [ha]))

/-- A list of nodes. -/
inductive OwnNs (h : Heap) : List HNode → List Node → List Addr → Prop
  | nil : OwnNs h [] [] []
  | cons {x n xs ns L M} : OwnN h x n L → OwnNs h xs ns M → OwnNs h (x :: xs) (n :: ns) (L ++ M)

theorem OwnNs.lt {h : Heap} {xs : List HNode} {ns : List Node} {L : List Addr} (o : OwnNs h xs ns L) : ∀ a ∈ L, a < h.length := by
  induction o with
  | nil => simp
  | cons o1 o2 ih =>
    intro a ha
    rcases List.mem_append.1 ha with ha | ha
    · exact o1.lt a ha
    · exact ih a ha

theorem OwnNs.frame {h h' : Heap} {xs : List HNode} {ns : List Node} {L : List Addr} (o : OwnNs h xs ns L) (e : ∀ a ∈ L, h'[a]? = h[a]?) : OwnNs h' xs ns L := by
  induction o with
  | nil => exact .nil
  | cons o1 o2 ih => exact .cons (o1.frame fun a ha => e a (by simp [ha])) (ih fun a ha => e a (by simp [ha]))

theorem OwnNs.length {h : Heap} {xs : List HNode} {ns : List Node} {L : List Addr} (o : OwnNs h xs ns L) : xs.length = ns.length := by
  induction o with
  | nil => rfl
  | cons _ _ ih => simp [ih]

theorem ownN_value {h : Heap} {hv : HVal} {n : Node} {L : List Addr} : OwnN h hv.toHNode n L ↔ OwnV h hv (asValue n) L ∧ n = (asValue n).toNode := by
  cases hv with
  | nil =>
    constructor
    · intro o; cases o; exact ⟨.nil, rfl⟩
    · rintro ⟨o, e⟩
      generalize asValue n = v at o e
      cases o; rw [e]; exact .nil
  | expr e =>
    constructor
    · intro o; cases o; exact ⟨.expr _, rfl⟩
    · rintro ⟨o, e⟩
      generalize asValue n = v at o e
      cases o; rw [e]; exact .expr _
  | var e =>
    constructor
    · intro o; cases o; exact ⟨.var _, rfl⟩
    · rintro ⟨o, e⟩
      generalize asValue n = v at o e
      cases o; rw [e]; exact .var _
  | sexpr p =>
    constructor
    · intro o; cases o with | sexpr o => exact ⟨o, rfl⟩
    · rintro ⟨o, e⟩
      generalize asValue n = v at o e
      cases o with | sexpr h1 h2 o => rw [e]; exact .sexpr (.sexpr h1 h2 o)

theorem asValue_toNode (v : Value) : asValue v.toNode = v := by cases v <;> rfl

theorem ownN_toNode {h : Heap} {hv : HVal} {v : Value} {L : List Addr} : OwnN h hv.toHNode v.toNode L ↔ OwnV h hv v L := by
  rw [ownN_value, asValue_toNode]; simp

theorem ownNs_toNode {h : Heap} : ∀ {hvs : List HVal} {vs : List Value} {L : List Addr}, OwnVs h hvs vs L → OwnNs h (hvs.map HVal.toHNode) (vs.map Value.toNode) L
  | _, _, _, .nil => .nil
  | _, _, _, .cons o1 o2 => .cons (ownN_toNode.2 o1) (ownNs_toNode o2)

theorem ownNs_values {h : Heap} : ∀ {hvs : List HVal} {ns : List Node} {L : List Addr}, OwnNs h (hvs.map HVal.toHNode) ns L → OwnVs h hvs (ns.map asValue) L
  | [], _, _, o => by cases o; exact .nil
  | a :: as, _, _, o => by
    cases o with | cons o1 o2 => exact .cons (ownN_value.1 o1).1 (ownNs_values o2)

theorem ownNs_rules {h : Heap} : ∀ {ps : List Addr} {rs : List Rule} {L : List Addr}, OwnRules h ps rs L → OwnNs h (ps.map HNode.rule) (rs.map Node.rule) L
  | _, _, _, .nil => .nil
  | _, _, _, .cons o1 o2 => .cons (.rule o1) (ownNs_rules o2)

theorem ownNs_asRule {h : Heap} : ∀ {ps : List Addr} {ns : List Node} {L : List Addr}, OwnNs h (ps.map HNode.rule) ns L → OwnRules h ps (ns.filterMap asRule) L
  | [], _, _, o => by cases o; exact .nil
  | a :: as, _, _, o => by
    cases o with | cons o1 o2 => cases o1 with | rule o1 => exact .cons o1 (ownNs_asRule o2)

theorem ownN_op {h : Heap} {o : Op} {n : Node} {L : List Addr} : OwnN h o.toHNode n L ↔ n = o.toNode ∧ L = [] := by
  constructor
  · intro k; cases o <;> (cases k; exact ⟨rfl, rfl⟩)
  · rintro ⟨rfl, rfl⟩; cases o
    · exact .nil
    · exact .opcode _
    · exact .parts _

theorem asOp_toNode (o : Op) : asOp o.toNode = o := by cases o <;> rfl
theorem asPart_toNode (o : OpPart) : asPart o.toNode = o := by cases o <;> rfl

theorem ownN_part {h : Heap} {o : OpPart} {n : Node} {L : List Addr} : OwnN h o.toHNode n L ↔ n = o.toNode ∧ L = [] := by
  constructor
  · intro k; cases o <;> (cases k; exact ⟨rfl, rfl⟩)
  · rintro ⟨rfl, rfl⟩; cases o
    · exact .nil
    · exact .opcode _
    · exact .alt _

theorem ownNs_parts {h : Heap} : ∀ {ps : List OpPart} {ns : List Node} {L : List Addr}, OwnNs h (ps.map OpPart.toHNode) ns L ↔ ns = ps.map OpPart.toNode ∧ L = []
  | [], _, _ => by
    constructor
    · intro o; cases o; exact ⟨rfl, rfl⟩
    · rintro ⟨rfl, rfl⟩; exact .nil
  | a :: as, _, _ => by
    constructor
    · intro o
      cases o with
      | cons o1 o2 =>
        obtain ⟨rfl, rfl⟩ := ownN_part.1 o1
        obtain ⟨rfl, rfl⟩ := ownNs_parts.1 o2
        exact ⟨rfl, rfl⟩
    · rintro ⟨rfl, rfl⟩
      exact .cons (L := []) (M := []) (ownN_part.2 ⟨rfl, rfl⟩) (ownNs_parts.2 ⟨rfl, rfl⟩)

/-! ## Frames -/

theorem Within.refl (h : Heap) (L : List Addr) : Within h L h L := ⟨Nat.le_refl _, fun _ _ _ => rfl, fun _ ha => .inl ha⟩

theorem Within.trans {h h1 h2 : Heap} {L L1 L2 : List Addr} (a : Within h L h1 L1) (b : Within h1 L1 h2 L2) : Within h L h2 L2 := by
  refine ⟨Nat.le_trans a.grows b.grows, ?_, ?_⟩
  · intro x hx hl
    rw [b.rest x (Nat.lt_of_lt_of_le hx a.grows), a.rest x hx hl]
    intro k
    rcases a.cells x k with k | k
    · exact hl k
    · exact absurd hx (Nat.not_lt.2 k)
  · intro x hx
    rcases b.cells x hx with k | k
    · exact a.cells x k
    · exact .inr (Nat.le_trans a.grows k)

/-- The part `L` of `L ++ K` has become `L1`. -/
theorem Within.part {h h1 : Heap} {L L1 K : List Addr} (a : Within h L h1 L1) (hnd : L1.Nodup) (hK : K.Nodup) (hd : ∀ x ∈ K, x ∉ L) (hlt : ∀ x ∈ K, x < h.length) :
    Within h (L ++ K) h1 (L1 ++ K) ∧ (L1 ++ K).Nodup ∧ (∀ x ∈ K, x ∉ L1) ∧ (∀ x ∈ K, h1[x]? = h[x]?) ∧ (∀ x ∈ K, x < h1.length) := by
  have hdis : ∀ x ∈ K, x ∉ L1 := by
    intro x hx k
    rcases a.cells x k with k | k
    · exact hd x hx k
    · exact absurd (hlt x hx) (Nat.not_lt.2 k)
  refine ⟨⟨a.grows, fun x hx hl => a.rest x hx fun k => hl (by simp [k]), ?_⟩, ?_, hdis, fun x hx => a.rest x (hlt x hx) (hd x hx), fun x hx => Nat.lt_of_lt_of_le (hlt x hx) a.grows⟩
  · intro x hx
    rcases List.mem_append.1 hx with hx | hx
    · exact (a.cells x hx).imp_left fun k => by simp [k]
    · exact .inl (by simp [hx])
  · rw [List.nodup_append]
    exact ⟨hnd, hK, fun x hx y hy e => hdis y hy (e ▸ hx)⟩

/-! ## The walk on trees, as a function -/

def liveList (f : Node → σ → Option (Bool × Node × σ)) : List Node → σ → Option (Bool × List Node × σ)
  | [], s => some (false, [], s)
  | n :: ns, s =>
    match f n s with
    | none => none
    | some (true, n', s1) => some (true, n' :: ns, s1)
    | some (false, n', s1) =>
      match liveList f ns s1 with
      | none => none
      | some (b, ns', s2) => some (b, n' :: ns', s2)

def liveWalk (ed : Editor V σ) : Nat → V → Node → σ → Option (Bool × Node × σ)
  | 0, _, _, _ => none
  | fuel + 1, v, n, s =>
    match ed v n s with
    | (n1, s1, none) => some (false, n1, s1)
    | (n1, s1, some w) =>
      if isNil n1 then some (true, .nil, s1)
      else
        match liveList (liveWalk ed fuel w) (children n1) s1 with
        | none => none
        | some (b, ns, s2) => some (b, withChildren n1 ns, s2)

/-- The walk on the heap does what the walk on trees says. -/
def Sim (h : Heap) (hn : HNode) (L : List Addr) : Option (Bool × Node × σ) → Option (Out (Heap × σ)) → Prop
  | none, o => o = none
  | some (b, n', s'), o => ∃ h' L', o = some (ending b (h', s')) ∧ OwnN h' hn n' L' ∧ L'.Nodup ∧ Within h L h' L'

def SimL (h : Heap) (xs : List HNode) (L : List Addr) : Option (Bool × List Node × σ) → Option (Out (Heap × σ)) → Prop
  | none, o => o = none
  | some (b, ns', s'), o => ∃ h' L', o = some (ending b (h', s')) ∧ OwnNs h' xs ns' L' ∧ L'.Nodup ∧ Within h L h' L'

theorem nodup_split {L M : List Addr} (h : (L ++ M).Nodup) : L.Nodup ∧ M.Nodup ∧ (∀ x ∈ M, x ∉ L) := by
  rw [List.nodup_append] at h
  exact ⟨h.1, h.2.1, fun x hx k => h.2.2 x k x hx rfl⟩

theorem loop_sim {elem : Heap → Nat → Option HNode} {lf : Node → σ → Option (Bool × Node × σ)} {hf : HNode → Heap × σ → Option (Out (Heap × σ))}
    (hstep : ∀ hn n L h s, OwnN h hn n L → L.Nodup → Sim h hn L (lf n s) (hf hn (h, s))) (K : List Addr) :
    ∀ (xs : List HNode) (ns : List Node) (L : List Addr) (h : Heap) (s : σ) (i : Nat), OwnNs h xs ns L → L.Nodup → (∀ x ∈ K, x ∉ L) → (∀ x ∈ K, x < h.length) →
      (∀ h', (∀ x ∈ K, h'[x]? = h[x]?) → ∀ j, j < xs.length → elem h' (i + j) = xs[j]?) →
      SimL h xs L (liveList lf ns s) (rangeLoop elem hf xs.length i (h, s)) := by
  intro xs
  induction xs with
  | nil =>
    intro ns L h s i o hnd _ _ _
    cases o
    exact ⟨h, [], rfl, .nil, hnd, .refl _ _⟩
  | cons x xs ih =>
    intro ns L h s i o hnd hK hKlt hel
    cases o with
    | @cons _ n _ ns L M o1 o2 =>
    obtain ⟨n1, n2, n3⟩ := nodup_split hnd
    have hs := hstep x n L h s o1 n1
    have hx : elem h i = some x := by simpa using hel h (fun _ _ => rfl) 0 (by simp)
    rw [List.length_cons, rangeLoop, hx, liveList]
    generalize lf n s = r at hs
    match r with
    | none =>
      have e : hf x (h, s) = none := hs
      simp only [e]
      exact rfl
    | some (true, n', s1) =>
      obtain ⟨h1, L1, e, o1', nd1, w1⟩ := hs
      simp only [e, ending]
      obtain ⟨w, nd, -, k, -⟩ := w1.part nd1 n2 n3 o2.lt
      exact ⟨h1, L1 ++ M, rfl, .cons o1' (o2.frame k), nd, w⟩
    | some (false, n', s1) =>
      obtain ⟨h1, L1, e, o1', nd1, w1⟩ := hs
      simp only [e, ending]
      obtain ⟨w, nd, dj, k, lt⟩ := w1.part nd1 n2 n3 o2.lt
      have hKr : ∀ y ∈ K, h1[y]? = h[y]? := fun y hy => w1.rest y (hKlt y hy) fun q => hK y hy (by simp [q])
      have := ih ns M h1 s1 (i + 1) (o2.frame k) n2 (fun y hy q => hK y hy (by simp [q])) (fun y hy => Nat.lt_of_lt_of_le (hKlt y hy) w1.grows) ?_
      · generalize liveList lf ns s1 = r2 at this
        match r2 with
        | none => exact this
        | some (b, ns', s2) =>
          obtain ⟨h2, M2, e2, o3, nd3, w3⟩ := this
          have hL1 : ∀ y ∈ L1, y ∉ M := fun y hy q => dj y q hy
          obtain ⟨w', nd', dj', k', lt'⟩ := w3.part nd3 nd1 hL1 o1'.lt
          refine ⟨h2, L1 ++ M2, e2, .cons (o1'.frame k') o3, ?_, w.trans ?_⟩
          · rw [List.nodup_append]
            exact ⟨nd1, nd3, fun a ha b hb e => dj' a ha (e ▸ hb)⟩
          · refine ⟨w'.grows, fun a ha hn => w'.rest a ha fun q => hn ?_, fun a ha => ?_⟩
            · simp only [List.mem_append] at q ⊢; exact q.symm
            · have := w'.cells a (by simp only [List.mem_append] at ha ⊢; exact ha.symm)
              simp only [List.mem_append] at this ⊢
              exact this.imp_left Or.symm
      · intro h' hh j hj
        have := hel h' (fun y hy => (hh y hy).trans (hKr y hy)) (j + 1) (by simpa using hj)
        rw [Nat.add_assoc, Nat.add_comm 1 j]
        simpa using this

theorem within_cons {h h1 : Heap} {L L1 K : List Addr} (hnd : (K ++ L).Nodup) (hK : ∀ x ∈ K, x < h.length) (nd1 : L1.Nodup) (w : Within h L h1 L1) :
    Within h (K ++ L) h1 (K ++ L1) ∧ (K ++ L1).Nodup ∧ (∀ x ∈ K, h1[x]? = h[x]?) := by
  obtain ⟨k1, k2, k3⟩ := nodup_split hnd
  obtain ⟨w', nd', dj, k, -⟩ := w.part nd1 k1 (fun x hx q => k3 x q hx) hK
  refine ⟨⟨w'.grows, fun a ha hn => w'.rest a ha fun q => hn ?_, fun a ha => ?_⟩, ?_, k⟩
  · simp only [List.mem_append] at q ⊢; exact q.symm
  · have := w'.cells a (by simp only [List.mem_append] at ha ⊢; exact ha.symm)
    simp only [List.mem_append] at this ⊢
    exact this.imp_left Or.symm
  · rw [List.nodup_append]
    exact ⟨k1, nd1, fun a ha b hb e => dj a ha (e ▸ hb)⟩

theorem mem_lt {h : Heap} {a : Addr} {c : Cell} (e : h[a]? = some c) : a < h.length := (List.getElem?_eq_some_iff.1 e).1

theorem withChildren_sexpr (hd : Hdr) (vs vs' : List Value) (n : Node) (e : n = hd.op.toNode) (ns : List Node) (he : ns.map asValue = vs') :
    withChildren (.sexpr hd vs) (n :: ns) = .sexpr hd vs' := by
  subst e; subst he
  simp only [withChildren, asOp_toNode]

theorem map_asValue (vs : List Value) : (vs.map Value.toNode).map asValue = vs := by
  induction vs with
  | nil => rfl
  | cons v vs ih => simp [asValue_toNode, ih]

theorem map_asPart (vs : List OpPart) : (vs.map OpPart.toNode).map asPart = vs := by
  induction vs with
  | nil => rfl
  | cons v vs ih => simp [asPart_toNode, ih]

/-- Nothing was modified: the walk over a leaf. -/
theorem within_nil {h h1 : Heap} {L' : List Addr} (w : Within h [] h1 L') (L : List Addr) (hL : ∀ a ∈ L, a < h.length) : Within h L h1 L ∧ ∀ a ∈ L, h1[a]? = h[a]? :=
  ⟨⟨w.grows, fun a ha _ => w.rest a ha (by simp), fun _ ha => .inl ha⟩, fun a ha => w.rest a (hL a ha) (by simp)⟩

section
variable {lf : Node → σ → Option (Bool × Node × σ)} {hf : HNode → Heap × σ → Option (Out (Heap × σ))}

theorem parts_sim (hstep : ∀ hn n L h s, OwnN h hn n L → L.Nodup → Sim h hn L (lf n s) (hf hn (h, s))) (ps : List OpPart) (h : Heap) (s : σ) :
    Sim h (.parts ps) [] (match liveList lf (children (.parts ps)) s with | none => none | some (b, ns, s2) => some (b, withChildren (.parts ps) ns, s2))
      (rangeLoop (fun _ i => ps[i]?.map OpPart.toHNode) hf ps.length 0 (h, s)) := by
  have := loop_sim (elem := fun _ i => ps[i]?.map OpPart.toHNode) hstep [] (ps.map OpPart.toHNode) (ps.map OpPart.toNode) [] h s 0 (ownNs_parts.2 ⟨rfl, rfl⟩) (by simp)
    (by simp) (by simp) (by intro h' _ j _; simp)
  rw [List.length_map] at this
  change SimL _ _ _ (liveList lf (children (.parts ps)) s) _ at this
  generalize liveList lf (children (.parts ps)) s = r at this
  match r with
  | none => exact this
  | some (b, ns, s2) =>
    obtain ⟨h', L', e, o, nd, w⟩ := this
    obtain ⟨rfl, rfl⟩ := ownNs_parts.1 o
    refine ⟨h', [], e, ?_, nd, w⟩
    have : withChildren (.parts ps) (ps.map OpPart.toNode) = .parts ps := by
      simp only [withChildren, map_asPart]
    simp only [this]
    exact .parts ps

theorem sexpr_sim (hstep : ∀ hn n L h s, OwnN h hn n L → L.Nodup → Sim h hn L (lf n s) (hf hn (h, s))) {p : Addr} {hd : Hdr} {arr : Addr} {hvs : List HVal} {vs : List Value}
    {M : List Addr} {h : Heap} (s : σ) (hp : h[p]? = some (.sexpr hd arr)) (harr : h[arr]? = some (.values hvs)) (o : OwnVs h hvs vs M) (hnd : (p :: arr :: M).Nodup) :
    Sim h (.sexpr p) (p :: arr :: M)
      (match liveList lf (children (.sexpr hd vs)) s with | none => none | some (b, ns, s2) => some (b, withChildren (.sexpr hd vs) ns, s2))
      (match hf hd.op.toHNode (h, s) with
        | some (.done st2) =>
          match st2.1[p]? with
          | some (.sexpr _ arr) =>
            match sliceLen arr st2.1 with
            | some len => rangeLoop (valueElem arr) hf len 0 st2
            | none => none
          | _ => none
        | r => r) := by
  have hop := hstep hd.op.toHNode hd.op.toNode [] h s (ownN_op.2 ⟨rfl, rfl⟩) (by simp)
  have hlt : ∀ a ∈ p :: arr :: M, a < h.length := by
    intro a ha
    simp only [List.mem_cons] at ha
    rcases ha with rfl | rfl | ha
    · exact mem_lt hp
    · exact mem_lt harr
    · exact o.lt a ha
  simp only [children, liveList]
  generalize lf hd.op.toNode s = r at hop
  match r with
  | none =>
    have e : hf hd.op.toHNode (h, s) = none := hop
    simp only [e]
    exact rfl
  | some (true, n', s1) =>
    obtain ⟨h2, L2, e, o2, -, w2⟩ := hop
    simp only [e, ending]
    obtain ⟨rfl, rfl⟩ := ownN_op.1 o2
    obtain ⟨w, k⟩ := within_nil w2 _ hlt
    refine ⟨h2, _, rfl, ?_, hnd, w⟩
    rw [withChildren_sexpr hd vs vs _ rfl _ (map_asValue vs)]
    exact .sexpr (OwnV.frame (.sexpr hp harr o) k)
  | some (false, n', s1) =>
    obtain ⟨h2, L2, e, o2, -, w2⟩ := hop
    simp only [e, ending]
    obtain ⟨rfl, rfl⟩ := ownN_op.1 o2
    obtain ⟨w, k⟩ := within_nil w2 _ hlt
    have hp2 : h2[p]? = some (.sexpr hd arr) := (k p (by simp)).trans hp
    have harr2 : h2[arr]? = some (.values hvs) := (k arr (by simp)).trans harr
    have o' : OwnVs h2 hvs vs M := o.frame fun a ha => k a (by simp [ha])
    have hlen : sliceLen arr h2 = some (hvs.map HVal.toHNode).length := by simp [sliceLen, harr2]
    simp only [Bool.false_eq_true, if_false, hp2, hlen]
    have hM := (nodup_split (L := [p, arr]) hnd).2.1
    have hdis := (nodup_split (L := [p, arr]) hnd).2.2
    have := loop_sim (elem := valueElem arr) hstep [arr] (hvs.map HVal.toHNode) (vs.map Value.toNode) M h2 s1 0 (ownNs_toNode o') hM
      (by intro x hx q; simp only [List.mem_singleton] at hx; subst hx; exact hdis x q (by simp))
      (by intro x hx; simp only [List.mem_singleton] at hx; subst hx; exact mem_lt harr2)
      (by
        intro h' hh j hj
        have := hh arr (by simp)
        simp only [valueElem, this, harr2, Nat.zero_add, List.getElem?_map])
    generalize liveList lf (vs.map Value.toNode) s1 = r2 at this
    match r2 with
    | none => exact this
    | some (b, ns, s2) =>
      obtain ⟨h3, M3, e3, o3, nd3, w3⟩ := this
      obtain ⟨w4, nd4, k4⟩ := within_cons (K := [p, arr]) hnd (by
        intro x hx
        simp only [List.mem_cons, List.not_mem_nil, or_false] at hx
        rcases hx with rfl | rfl
        · exact mem_lt hp2
        · exact mem_lt harr2) nd3 w3
      refine ⟨h3, p :: arr :: M3, e3, ?_, nd4, w.trans w4⟩
      rw [withChildren_sexpr hd vs (ns.map asValue) _ rfl _ rfl]
      exact .sexpr (.sexpr ((k4 p (by simp)).trans hp2) ((k4 arr (by simp)).trans harr2) (ownNs_values o3))

theorem file_sim (hstep : ∀ hn n L h s, OwnN h hn n L → L.Nodup → Sim h hn L (lf n s) (hf hn (h, s))) {p : Addr} {arr : Addr} {ps : List Addr} {f : File}
    {M : List Addr} {h : Heap} (s : σ) (hp : h[p]? = some (.file arr)) (harr : h[arr]? = some (.rules ps)) (o : OwnRules h ps f.rules M) (hnd : (p :: arr :: M).Nodup) :
    Sim h (.file p) (p :: arr :: M)
      (match liveList lf (children (.file f)) s with | none => none | some (b, ns, s2) => some (b, withChildren (.file f) ns, s2))
      (match sliceLen arr h with
        | some len => rangeLoop (ruleElem arr) hf len 0 (h, s)
        | none => none) := by
  have hlen : sliceLen arr h = some (ps.map HNode.rule).length := by simp [sliceLen, harr]
  have hM := (nodup_split (L := [p, arr]) hnd).2.1
  have hdis := (nodup_split (L := [p, arr]) hnd).2.2
  have := loop_sim (elem := ruleElem arr) hstep [arr] (ps.map HNode.rule) (f.rules.map Node.rule) M h s 0 (ownNs_rules o) hM
    (by intro x hx q; simp only [List.mem_singleton] at hx; subst hx; exact hdis x q (by simp))
    (by intro x hx; simp only [List.mem_singleton] at hx; subst hx; exact mem_lt harr)
    (by
      intro h' hh j hj
      have := hh arr (by simp)
      simp only [ruleElem, this, harr, Nat.zero_add, List.getElem?_map])
  simp only [hlen, children]
  generalize liveList lf (f.rules.map Node.rule) s = r2 at this
  match r2 with
  | none => exact this
  | some (b, ns, s2) =>
    obtain ⟨h3, M3, e3, o3, nd3, w3⟩ := this
    obtain ⟨w4, nd4, k4⟩ := within_cons (K := [p, arr]) hnd (by
      intro x hx
      simp only [List.mem_cons, List.not_mem_nil, or_false] at hx
      rcases hx with rfl | rfl
      · exact mem_lt hp
      · exact mem_lt harr) nd3 w3
    exact ⟨h3, p :: arr :: M3, e3, .file ((k4 p (by simp)).trans hp) ((k4 arr (by simp)).trans harr) (ownNs_asRule o3), nd4, w4⟩

theorem rule_sim (hstep : ∀ hn n L h s, OwnN h hn n L → L.Nodup → Sim h hn L (lf n s) (hf hn (h, s))) {p : Addr} {r : Rule} {m res : HVal}
    {L M : List Addr} {h : Heap} (s : σ) (hp : h[p]? = some (.rule m r.condition r.block res)) (om : OwnV h m r.match L) (ores : OwnV h res r.result M)
    (hnd : (p :: (L ++ M)).Nodup) :
    Sim h (.rule p) (p :: (L ++ M))
      (match liveList lf (children (.rule r)) s with | none => none | some (b, ns, s2) => some (b, withChildren (.rule r) ns, s2))
      (match hf m.toHNode (h, s) with
        | some (.done st2) =>
          match st2.1[p]? with
          | some (.rule _ _ _ res) => hf res.toHNode st2
          | _ => none
        | r => r) := by
  obtain ⟨-, nLM, hpn⟩ := nodup_split (L := [p]) hnd
  obtain ⟨nL, nM, dLM⟩ := nodup_split nLM
  have hpL : p ∉ L := fun q => hpn p (by simp [q]) (by simp)
  have hpM : p ∉ M := fun q => hpn p (by simp [q]) (by simp)
  have hm := hstep m.toHNode r.match.toNode L h s (ownN_toNode.2 om) nL
  have hMlt := ores.lt
  have npM : (p :: M).Nodup := List.nodup_cons.2 ⟨hpM, nM⟩
  simp only [children, liveList]
  generalize lf r.match.toNode s = q at hm
  match q with
  | none =>
    have e : hf m.toHNode (h, s) = none := hm
    simp only [e]
    exact rfl
  | some (b, n', s1) =>
    obtain ⟨h2, L2, e, o2, nd2, w2⟩ := hm
    have hplt : ∀ x ∈ p :: M, x < h.length := by
      intro x hx
      rcases List.mem_cons.1 hx with rfl | hx
      · exact mem_lt hp
      · exact hMlt x hx
    have hdis : ∀ x ∈ p :: M, x ∉ L := by
      intro x hx
      rcases List.mem_cons.1 hx with rfl | hx
      · exact hpL
      · exact dLM x hx
    obtain ⟨w3, nd3, dj3, k3, lt3⟩ := w2.part nd2 npM hdis hplt
    have hp2 : h2[p]? = some (.rule m r.condition r.block res) := (k3 p (by simp)).trans hp
    have ores2 : OwnV h2 res r.result M := ores.frame fun a ha => k3 a (by simp [ha])
    have om2 := (ownN_value.1 o2).1
    -- the cells in another order
    have w5 : Within h (p :: (L ++ M)) h2 (p :: (L2 ++ M)) := by
      refine ⟨w3.grows, fun a ha hn => w3.rest a ha fun q => hn ?_, fun a ha => ?_⟩
      · simp only [List.mem_append, List.mem_cons] at q ⊢
        rcases q with q | q | q <;> simp [q]
      · have := w3.cells a (by
          simp only [List.mem_append, List.mem_cons] at ha ⊢
          rcases ha with ha | ha | ha <;> simp [ha])
        simp only [List.mem_append, List.mem_cons] at this ⊢
        rcases this with (q | q | q) | q <;> simp [q]
    have nd5 : (p :: (L2 ++ M)).Nodup := by
      rw [List.nodup_append] at nd3
      rw [List.nodup_cons, List.nodup_append]
      refine ⟨fun q => ?_, nd2, nM, fun a ha b hb => nd3.2.2 a ha b (by simp [hb])⟩
      rcases List.mem_append.1 q with q | q
      · exact dj3 p (by simp) q
      · exact hpM q
    match b with
    | true =>
      simp only [e, ending]
      refine ⟨h2, p :: (L2 ++ M), rfl, ?_, nd5, w5⟩
      simp only [withChildren, asValue_toNode]
      exact .rule (.mk (r := { r with «match» := asValue n' }) hp2 om2 ores2)
    | false =>
      simp only [e, ending, Bool.false_eq_true, if_false, hp2]
      have hr := hstep res.toHNode r.result.toNode M h2 s1 (ownN_toNode.2 ores2) nM
      generalize lf r.result.toNode s1 = q2 at hr
      have fin : ∀ b n'' s2, Sim h2 res.toHNode M (some (b, n'', s2)) (hf res.toHNode (h2, s1)) →
          Sim h (.rule p) (p :: (L ++ M)) (some (b, withChildren (.rule r) [n', n''], s2)) (hf res.toHNode (h2, s1)) := by
        rintro b n'' s2 ⟨h4, M4, e4, o4, nd4, w4⟩
        have npL : (p :: L2).Nodup := List.nodup_cons.2 ⟨fun q => dj3 p (by simp) q, nd2⟩
        have hdis2 : ∀ x ∈ p :: L2, x ∉ M := by
          intro x hx q
          rcases List.mem_cons.1 hx with rfl | hx
          · exact hpM q
          · exact dj3 x (by simp [q]) hx
        obtain ⟨w6, nd6, dj6, k6, -⟩ := w4.part nd4 npL hdis2 (by
          intro x hx
          rcases List.mem_cons.1 hx with rfl | hx
          · exact mem_lt hp2
          · exact o2.lt x hx)
        refine ⟨h4, p :: (L2 ++ M4), e4, ?_, ?_, w5.trans ?_⟩
        · simp only [withChildren]
          exact .rule (.mk (r := { r with «match» := asValue n', result := asValue n'' }) ((k6 p (by simp)).trans hp2)
            (om2.frame fun a ha => k6 a (by simp [ha])) (ownN_value.1 o4).1)
        · rw [List.nodup_cons, List.nodup_append]
          refine ⟨fun q => ?_, nd2, nd4, fun a ha b hb e => dj6 a (by simp [ha]) (e ▸ hb)⟩
          rcases List.mem_append.1 q with q | q
          · exact dj3 p (by simp) q
          · exact dj6 p (by simp) q
        · refine ⟨w6.grows, fun a ha hn => w6.rest a ha fun q => hn ?_, fun a ha => ?_⟩
          · simp only [List.mem_append, List.mem_cons] at q ⊢
            rcases q with q | q | q <;> simp [q]
          · have := w6.cells a (by
              simp only [List.mem_append, List.mem_cons] at ha ⊢
              rcases ha with ha | ha | ha <;> simp [ha])
            simp only [List.mem_append, List.mem_cons] at this ⊢
            rcases this with (q | q | q) | q <;> simp [q]
      match q2 with
      | none => exact hr
      | some (true, n'', s2) => exact fin true n'' s2 hr
      | some (false, n'', s2) => exact fin false n'' s2 hr
end

theorem hwalk_sim {vis : HVisiting V σ} {ed : Editor V σ} (E : Edits vis ed) :
    ∀ fuel v hn n L h s, OwnN h hn n L → L.Nodup → Sim h hn L (liveWalk ed fuel v n s) (hwalk vis fuel v hn (h, s)) := by
  intro fuel
  induction fuel with
  | zero => intros; exact rfl
  | succ fuel ih =>
    intro v hn n L h s o hnd
    obtain ⟨h1, L1, hv, o1, nd1, w1⟩ := E v hn n L h s o hnd
    rw [hwalk, liveWalk, hv]
    generalize ed v n s = r at o1
    obtain ⟨n1, s1, w⟩ := r
    have tr : ∀ (x : Option (Bool × Node × σ)) y, Sim h1 hn L1 x y → Sim h hn L x y := by
      intro x y k
      match x with
      | none => exact k
      | some (b, n', s') =>
        obtain ⟨h2, L2, e, o, nd, w⟩ := k
        exact ⟨h2, L2, e, o, nd, w1.trans w⟩
    cases w with
    | none => exact ⟨h1, L1, rfl, o1, nd1, w1⟩
    | some w =>
    have step := ih w
    apply tr
    cases o1 with
    | nil => exact ⟨h1, [], rfl, .nil, nd1, .refl _ _⟩
    | expr e => exact ⟨h1, [], rfl, .expr e, nd1, .refl _ _⟩
    | var e => exact ⟨h1, [], rfl, .var e, nd1, .refl _ _⟩
    | opcode e => exact ⟨h1, [], rfl, .opcode e, nd1, .refl _ _⟩
    | alt e => exact ⟨h1, [], rfl, .alt e, nd1, .refl _ _⟩
    | parts ps => exact parts_sim step ps h1 s1
    | sexpr o =>
      cases o with
      | sexpr hp harr o =>
        simp only [hp]
        exact sexpr_sim step s1 hp harr o nd1
    | rule o =>
      cases o with
      | mk hp om ores =>
        simp only [hp]
        exact rule_sim step s1 hp om ores nd1
    | file hp harr orules =>
      simp only [hp]
      exact file_sim step s1 hp harr orules nd1

/-! ## The walk as a function and as a relation -/

theorem liveList_rel {ed : Editor V σ} {w : V} {f : Node → σ → Option (Bool × Node × σ)}
    (hf : ∀ n s b n' s', f n s = some (b, n', s') → Live ed w n s b n' s') :
    ∀ ns s b ns' s', liveList f ns s = some (b, ns', s') → Lives ed w ns s b ns' s' := by
  intro ns
  induction ns with
  | nil => intro s b ns' s' h; cases h; exact .nil
  | cons n ns ih =>
    intro s b ns' s' h
    rw [liveList] at h
    generalize hr : f n s = r at h
    match r with
    | none => cases h
    | some (true, n', s1) => cases h; exact .panic (hf _ _ _ _ _ hr)
    | some (false, n', s1) =>
      simp only at h
      generalize hr2 : liveList f ns s1 = r2 at h
      match r2 with
      | none => cases h
      | some (b2, ns2, s2) => cases h; exact .cons (hf _ _ _ _ _ hr) (ih _ _ _ _ hr2)

theorem liveWalk_rel (ed : Editor V σ) : ∀ fuel v n s b n' s', liveWalk ed fuel v n s = some (b, n', s') → Live ed v n s b n' s' := by
  intro fuel
  induction fuel with
  | zero => intro _ _ _ _ _ _ h; cases h
  | succ fuel ih =>
    intro v n s b n' s' h
    rw [liveWalk] at h
    generalize he : ed v n s = r at h
    match r with
    | (n1, s1, none) => cases h; exact .stop he
    | (n1, s1, some w) =>
      simp only at h
      split at h
      · next hnil =>
        cases n1 <;> cases hnil
        cases h
        exact .panic he
      · next hnil =>
        generalize hr : liveList (liveWalk ed fuel w) (children n1) s1 = r at h
        match r with
        | none => cases h
        | some (b2, ns, s2) =>
          cases h
          exact .descend he (by rintro rfl; exact hnil rfl) (liveList_rel (ih w) _ _ _ _ _ hr)

theorem liveList_mono {f g : Node → σ → Option (Bool × Node × σ)} (hfg : ∀ n s r, f n s = some r → g n s = some r) :
    ∀ ns s r, liveList f ns s = some r → liveList g ns s = some r := by
  intro ns
  induction ns with
  | nil => intro s r h; exact h
  | cons n ns ih =>
    intro s r h
    rw [liveList] at h ⊢
    generalize hr : f n s = q at h
    match q with
    | none => cases h
    | some (true, n', s1) => rw [hfg _ _ _ hr]; exact h
    | some (false, n', s1) =>
      rw [hfg _ _ _ hr]
      simp only at h ⊢
      generalize hr2 : liveList f ns s1 = r2 at h
      match r2 with
      | none => cases h
      | some (b2, ns2, s2) => rw [ih _ _ hr2]; exact h

theorem liveWalk_succ (ed : Editor V σ) : ∀ fuel v n s r, liveWalk ed fuel v n s = some r → liveWalk ed (fuel + 1) v n s = some r := by
  intro fuel
  induction fuel with
  | zero => intro _ _ _ _ h; cases h
  | succ fuel ih =>
    intro v n s r h
    rw [liveWalk] at h ⊢
    generalize ed v n s = q at h
    match q with
    | (n1, s1, none) => exact h
    | (n1, s1, some w) =>
      simp only at h ⊢
      by_cases hnil : isNil n1 = true
      · rw [if_pos hnil] at h ⊢; exact h
      · rw [if_neg hnil] at h ⊢
        generalize hr : liveList (liveWalk ed fuel w) (children n1) s1 = r at h
        match r with
        | none => cases h
        | some (b2, ns, s2) => rw [liveList_mono (ih w) _ _ _ hr]; exact h

theorem liveWalk_mono (ed : Editor V σ) {fuel fuel' : Nat} (hle : fuel ≤ fuel') (v : V) (n : Node) (s : σ) (r) (h : liveWalk ed fuel v n s = some r) :
    liveWalk ed fuel' v n s = some r := by
  obtain ⟨d, rfl⟩ := Nat.le.dest hle
  induction d with
  | zero => exact h
  | succ d ih => exact liveWalk_succ ed _ v n s r (ih (Nat.le_add_right _ _))

theorem isNil_false {n : Node} (h : n ≠ .nil) : ¬ isNil n = true := by
  intro q
  cases n <;> first | cases q; done | exact h rfl

theorem live_fuel {ed : Editor V σ} {v : V} {n : Node} {s : σ} {b : Bool} {n' : Node} {s' : σ} (h : Live ed v n s b n' s') :
    ∃ fuel, liveWalk ed fuel v n s = some (b, n', s') := by
  refine Live.rec (motive_1 := fun v n s b n' s' _ => ∃ fuel, liveWalk ed fuel v n s = some (b, n', s'))
    (motive_2 := fun v ns s b ns' s' _ => ∃ fuel, liveList (liveWalk ed fuel v) ns s = some (b, ns', s')) ?_ ?_ ?_ ?_ ?_ ?_ h
  · intro v n s n1 s1 e
    exact ⟨1, by rw [liveWalk, e]⟩
  · intro v n s s1 w e
    exact ⟨1, by rw [liveWalk, e]; rfl⟩
  · rintro v n s n1 s1 w b ns s2 e hn - ⟨k, hk⟩
    refine ⟨k + 1, ?_⟩
    rw [liveWalk, e]
    simp only
    rw [if_neg (isNil_false hn), hk]
  · intro w s
    exact ⟨0, rfl⟩
  · rintro w n ns s n' s1 b ns' s2 - - ⟨k1, e1⟩ ⟨k2, e2⟩
    refine ⟨max k1 k2, ?_⟩
    rw [liveList, liveWalk_mono ed (Nat.le_max_left k1 k2) _ _ _ _ e1]
    simp only
    rw [liveList_mono (fun n s r => liveWalk_mono ed (Nat.le_max_right k1 k2) w n s r) _ _ _ e2]
  · rintro w n ns s n' s1 - ⟨k1, e1⟩
    exact ⟨k1, by rw [liveList, e1]⟩

/-! ## Visitors that only read -/

theorem repN_value {h : Heap} {hv : HVal} {v : Value} (r : RepV h hv v) : RepN h hv.toHNode v.toNode := by
  cases r with
  | nil => exact .nil
  | expr => exact .expr _
  | var => exact .var _
  | sexpr h1 h2 r => exact .sexpr (.sexpr h1 h2 r)

theorem repN_op (h : Heap) (o : Op) : RepN h o.toHNode o.toNode := by
  cases o
  · exact .nil
  · exact .opcode _
  · exact .parts _

theorem repN_part (h : Heap) (o : OpPart) : RepN h o.toHNode o.toNode := by
  cases o
  · exact .nil
  · exact .opcode _
  · exact .alt _

/-- The outcome of a walk that leaves the heap `h` alone. -/
def sameHeap (h : Heap) : Out σ → Out (Heap × σ)
  | .done s => .done (h, s)
  | .panic s => .panic (h, s)

theorem loop_reads {h : Heap} {elem : Heap → Nat → Option HNode} {hf : HNode → Heap × σ → Option (Out (Heap × σ))} {α : Type} {f : α → σ → Out σ} (node : α → HNode) :
    ∀ (xs : List α) (s : σ) (i : Nat), (∀ x ∈ xs, ∀ s, hf (node x) (h, s) = some (sameHeap h (f x s))) → (∀ j, j < xs.length → elem h (i + j) = xs[j]?.map node) →
      rangeLoop elem hf xs.length i (h, s) = some (sameHeap h (forEach f xs s)) := by
  intro xs
  induction xs with
  | nil => intros; rfl
  | cons x xs ih =>
    intro s i hx hel
    have e0 : elem h i = some (node x) := by simpa using hel 0 (by simp)
    rw [List.length_cons, rangeLoop]
    simp only [e0, hx x List.mem_cons_self s]
    rw [forEach]
    cases hr : f x s with
    | done s' =>
      simp only [sameHeap]
      refine ih s' (i + 1) (fun y hy => hx y (List.mem_cons_of_mem _ hy)) fun j hj => ?_
      have := hel (j + 1) (by simpa using hj)
      rw [Nat.add_assoc, Nat.add_comm 1 j]
      simpa using this
    | panic s' => rfl

section
variable {vis : HVisiting V σ} {vis' : Visiting V σ} {h : Heap}

theorem leaf_reads (R : Reads vis vis' h) {hn : HNode} {n : Node} (r : RepN h hn n) (hleaf : children n = []) (hp : ∀ p, hn ≠ .file p) (hps : ∀ p, hn ≠ .parts p)
    (fuel : Nat) (hf : 1 ≤ fuel) (w : V) (s : σ) : hwalk vis fuel w hn (h, s) = some (sameHeap h (walkLeaf vis' w n s)) := by
  obtain ⟨k, rfl⟩ : ∃ k, fuel = k + 1 := ⟨fuel - 1, by omega⟩
  rw [hwalk, walkLeaf, R w hn n s r]
  generalize vis'.visit w n s = q
  obtain ⟨s', o⟩ := q
  cases o with
  | none => rfl
  | some w' =>
    cases r with
    | nil => rfl
    | expr => rfl
    | var => rfl
    | opcode => rfl
    | alt => rfl
    | parts => exact absurd rfl (hps _)
    | sexpr => cases hleaf
    | rule => cases hleaf
    | file => exact absurd rfl (hp _)

theorem part_reads (R : Reads vis vis' h) (o : OpPart) (fuel : Nat) (hf : 1 ≤ fuel) (w : V) (s : σ) :
    hwalk vis fuel w o.toHNode (h, s) = some (sameHeap h (walkLeaf vis' w o.toNode s)) :=
  leaf_reads R (repN_part h o) (by cases o <;> rfl) (by intro p; cases o <;> (intro q; cases q)) (by intro p; cases o <;> (intro q; cases q)) fuel hf w s

theorem op_reads (R : Reads vis vis' h) (o : Op) (fuel : Nat) (hf : 2 ≤ fuel) (w : V) (s : σ) :
    hwalk vis fuel w o.toHNode (h, s) = some (sameHeap h (walkOp vis' w o s)) := by
  cases o with
  | nil => exact leaf_reads R .nil rfl (by intro _ q; cases q) (by intro _ q; cases q) fuel (by omega) w s
  | opcode x => exact leaf_reads R (.opcode x) rfl (by intro _ q; cases q) (by intro _ q; cases q) fuel (by omega) w s
  | parts ps =>
    obtain ⟨k, rfl⟩ : ∃ k, fuel = k + 1 := ⟨fuel - 1, by omega⟩
    simp only [Op.toHNode]
    rw [hwalk, walkOp, R w _ _ s (.parts ps)]
    generalize vis'.visit w (.parts ps) s = q
    obtain ⟨s', o⟩ := q
    cases o with
    | none => rfl
    | some w' =>
      exact loop_reads (elem := fun _ i => ps[i]?.map OpPart.toHNode) (f := fun p => walkLeaf vis' w' p.toNode) OpPart.toHNode ps s' 0 (fun x _ s => part_reads R x k (by omega) w' s) (by intro j _; simp)

mutual
theorem value_reads (R : Reads vis vis' h) : ∀ (v : Value) (hv : HVal), RepV h hv v → ∀ (fuel : Nat), depth v + 2 ≤ fuel → ∀ (w : V) (s : σ),
    hwalk vis fuel w hv.toHNode (h, s) = some (sameHeap h (walkValue vis' w v s))
  | .nil, _, r, fuel, hf, w, s => by
    cases r
    rw [walkValue]
    exact leaf_reads R .nil rfl (by intro _ q; cases q) (by intro _ q; cases q) fuel (by omega) w s
  | .expr e, _, r, fuel, hf, w, s => by
    cases r
    rw [walkValue]
    exact leaf_reads R (.expr e) rfl (by intro _ q; cases q) (by intro _ q; cases q) fuel (by omega) w s
  | .var e, _, r, fuel, hf, w, s => by
    cases r
    rw [walkValue]
    exact leaf_reads R (.var e) rfl (by intro _ q; cases q) (by intro _ q; cases q) fuel (by omega) w s
  | .sexpr hd vs, _, r, fuel, hf, w, s => by
    cases r with
    | @sexpr p _ arr hvs _ hp harr rs =>
    have rn : RepN h (.sexpr p) (.sexpr hd vs) := .sexpr (.sexpr hp harr rs)
    simp only [depth] at hf
    obtain ⟨k, rfl⟩ : ∃ k, fuel = k + 1 := ⟨fuel - 1, by omega⟩
    simp only [HVal.toHNode]
    rw [hwalk, walkValue, R w _ _ s rn]
    generalize vis'.visit w (.sexpr hd vs) s = q
    obtain ⟨s', o⟩ := q
    cases o with
    | none => rfl
    | some w' =>
      simp only [hp, op_reads R hd.op k (by omega) w' s']
      cases walkOp vis' w' hd.op s' with
      | panic s'' => rfl
      | done s'' =>
        simp only [sameHeap, hp, sliceLen, harr]
        exact values_reads R vs hvs rs k (by omega) w' s'' 0 (valueElem arr) (by intro j hj; simp [valueElem, harr])
theorem values_reads (R : Reads vis vis' h) : ∀ (vs : List Value) (hvs : List HVal), RepVs h hvs vs → ∀ (fuel : Nat), depth.depths vs + 2 ≤ fuel → ∀ (w : V) (s : σ) (i : Nat)
    (elem : Heap → Nat → Option HNode), (∀ j, j < hvs.length → elem h (i + j) = hvs[j]?.map HVal.toHNode) →
    rangeLoop elem (hwalk vis fuel w) hvs.length i (h, s) = some (sameHeap h (walkValues vis' w vs s))
  | [], _, r, _, _, _, _, _, _, _ => by cases r; rfl
  | v :: vs, _, r, fuel, hf, w, s, i, elem, hel => by
    cases r with
    | @cons a _ as _ r1 r2 =>
    simp only [depth.depths] at hf
    have e0 : elem h i = some a.toHNode := by simpa using hel 0 (by simp)
    rw [List.length_cons, rangeLoop]
    simp only [e0, value_reads R v a r1 fuel (by omega) w s]
    rw [walkValues]
    cases walkValue vis' w v s with
    | panic s' => rfl
    | done s' =>
      simp only [sameHeap]
      refine values_reads R vs as r2 fuel (by omega) w s' (i + 1) elem fun j hj => ?_
      have := hel (j + 1) (by simpa using hj)
      rw [Nat.add_assoc, Nat.add_comm 1 j]
      simpa using this
end

theorem rule_reads (R : Reads vis vis' h) (r : Rule) (p : Addr) (rep : RepRule h p r) (fuel : Nat) (hf : max (depth r.match) (depth r.result) + 3 ≤ fuel) (w : V) (s : σ) :
    hwalk vis fuel w (.rule p) (h, s) = some (sameHeap h (walkRule vis' w r s)) := by
  have rn : RepN h (.rule p) (.rule r) := .rule rep
  obtain ⟨m, res, hp, rm, rr⟩ := rep
  obtain ⟨k, rfl⟩ : ∃ k, fuel = k + 1 := ⟨fuel - 1, by omega⟩
  rw [hwalk, walkRule, R w _ _ s rn]
  generalize vis'.visit w (.rule r) s = q
  obtain ⟨s', o⟩ := q
  cases o with
  | none => rfl
  | some w' =>
    simp only [hp, value_reads R _ m rm k (by omega) w' s']
    cases walkValue vis' w' r.match s' with
    | panic s'' => rfl
    | done s'' =>
      simp only [sameHeap, hp]
      exact value_reads R _ res rr k (by omega) w' s''

theorem rules_reads (R : Reads vis vis' h) : ∀ (rs : List Rule) (ps : List Addr), RepRules h ps rs → ∀ (fuel : Nat),
    (rs.map fun r => max (depth r.match) (depth r.result)).foldr max 0 + 3 ≤ fuel → ∀ (w : V) (s : σ) (i : Nat)
    (elem : Heap → Nat → Option HNode), (∀ j, j < ps.length → elem h (i + j) = ps[j]?.map HNode.rule) →
    rangeLoop elem (hwalk vis fuel w) ps.length i (h, s) = some (sameHeap h (forEach (walkRule vis' w) rs s))
  | [], _, r, _, _, _, _, _, _, _ => by cases r; rfl
  | v :: vs, _, r, fuel, hf, w, s, i, elem, hel => by
    cases r with
    | @cons a _ as _ r1 r2 =>
    simp only [List.map_cons, List.foldr_cons] at hf
    have e0 : elem h i = some (.rule a) := by simpa using hel 0 (by simp)
    rw [List.length_cons, rangeLoop]
    simp only [e0, rule_reads R v a r1 fuel (by omega) w s]
    rw [forEach]
    cases walkRule vis' w v s with
    | panic s' => rfl
    | done s' =>
      simp only [sameHeap]
      refine rules_reads R vs as r2 fuel (by omega) w s' (i + 1) elem fun j hj => ?_
      have := hel (j + 1) (by simpa using hj)
      rw [Nat.add_assoc, Nat.add_comm 1 j]
      simpa using this

theorem walk_reads (R : Reads vis vis' h) {hn : HNode} {n : Node} (r : RepN h hn n) : ∃ fuel0, ∀ fuel, fuel0 ≤ fuel → ∀ (w : V) (s : σ),
    hwalk vis fuel w hn (h, s) = some (sameHeap h (walk vis' w n s)) := by
  cases r with
  | nil => exact ⟨1, fun fuel hf w s => leaf_reads R .nil rfl (by intro _ q; cases q) (by intro _ q; cases q) fuel hf w s⟩
  | expr e => exact ⟨1, fun fuel hf w s => leaf_reads R (.expr e) rfl (by intro _ q; cases q) (by intro _ q; cases q) fuel hf w s⟩
  | var e => exact ⟨1, fun fuel hf w s => leaf_reads R (.var e) rfl (by intro _ q; cases q) (by intro _ q; cases q) fuel hf w s⟩
  | opcode e => exact ⟨1, fun fuel hf w s => leaf_reads R (.opcode e) rfl (by intro _ q; cases q) (by intro _ q; cases q) fuel hf w s⟩
  | alt e => exact ⟨1, fun fuel hf w s => leaf_reads R (.alt e) rfl (by intro _ q; cases q) (by intro _ q; cases q) fuel hf w s⟩
  | parts ps => exact ⟨2, fun fuel hf w s => op_reads R (.parts ps) fuel hf w s⟩
  | @sexpr p hd vs r => exact ⟨depth (.sexpr hd vs) + 2, fun fuel hf w s => value_reads R _ _ r fuel hf w s⟩
  | @rule p r rep => exact ⟨_, fun fuel hf w s => rule_reads R r p rep fuel hf w s⟩
  | @file p ps f rep =>
    refine ⟨fileDepth f + 4, fun fuel hf w s => ?_⟩
    have rn : RepN h (.file p) (.file f) := .file rep
    obtain ⟨arr, hp, harr, rs⟩ := rep
    simp only [fileDepth] at hf
    obtain ⟨k, rfl⟩ : ∃ k, fuel = k + 1 := ⟨fuel - 1, by omega⟩
    rw [hwalk, walk, R w _ _ s rn]
    generalize vis'.visit w (.file f) s = q
    obtain ⟨s', o⟩ := q
    cases o with
    | none => rfl
    | some w' =>
      simp only [hp, sliceLen, harr]
      exact rules_reads R f.rules ps rs k (by omega) w' s' 0 (ruleElem arr) (by intro j hj; simp [ruleElem, harr])
end

/-! ## More depth does not change the outcome -/

theorem rangeLoop_mono {elem : Heap → Nat → Option HNode} {f g : HNode → Heap × σ → Option (Out (Heap × σ))} (hfg : ∀ n st r, f n st = some r → g n st = some r) :
    ∀ k i st r, rangeLoop elem f k i st = some r → rangeLoop elem g k i st = some r := by
  intro k
  induction k with
  | zero => intro i st r h; exact h
  | succ k ih =>
    intro i st r h
    rw [rangeLoop] at h ⊢
    generalize elem st.1 i = x at h
    cases x with
    | none => cases h
    | some x =>
      simp only at h ⊢
      generalize hr : f x st = q at h
      match q with
      | none => cases h
      | some (.done st') => rw [hfg _ _ _ hr]; exact ih _ _ _ h
      | some (.panic st') => rw [hfg _ _ _ hr]; exact h

theorem hwalk_succ {vis : HVisiting V σ} : ∀ fuel v hn st r, hwalk vis fuel v hn st = some r → hwalk vis (fuel + 1) v hn st = some r := by
  intro fuel
  induction fuel with
  | zero => intro _ _ _ _ h; cases h
  | succ fuel ih =>
    intro v hn st r h
    rw [hwalk] at h ⊢
    generalize vis.visit v hn st = q at h
    obtain ⟨st1, o⟩ := q
    cases o with
    | none => exact h
    | some w =>
      cases hn with
      | file p =>
        simp only at h ⊢
        generalize st1.1[p]? = c at h
        match c with
        | some (.file arr) =>
          simp only at h ⊢
          generalize sliceLen arr st1.1 = len at h
          cases len with
          | none => cases h
          | some len => exact rangeLoop_mono (ih w) _ _ _ _ h
        | none => cases h
        | some (.sexpr _ _) => cases h
        | some (.values _) => cases h
        | some (.rule _ _ _ _) => cases h
        | some (.rules _) => cases h
      | rule p =>
        simp only at h ⊢
        generalize st1.1[p]? = c at h
        match c with
        | some (.rule m _ _ _) =>
          simp only at h ⊢
          generalize hq : hwalk vis fuel w m.toHNode st1 = q at h
          match q with
          | none => cases h
          | some (.panic st2) => rw [ih _ _ _ _ hq]; exact h
          | some (.done st2) =>
            rw [ih _ _ _ _ hq]
            simp only at h ⊢
            generalize st2.1[p]? = c at h
            match c with
            | some (.rule _ _ _ res) => exact ih _ _ _ _ h
            | none => cases h
            | some (.sexpr _ _) => cases h
            | some (.values _) => cases h
            | some (.file _) => cases h
            | some (.rules _) => cases h
        | none => cases h
        | some (.sexpr _ _) => cases h
        | some (.values _) => cases h
        | some (.file _) => cases h
        | some (.rules _) => cases h
      | sexpr p =>
        simp only at h ⊢
        generalize st1.1[p]? = c at h
        match c with
        | some (.sexpr hd _) =>
          simp only at h ⊢
          generalize hq : hwalk vis fuel w hd.op.toHNode st1 = q at h
          match q with
          | none => cases h
          | some (.panic st2) => rw [ih _ _ _ _ hq]; exact h
          | some (.done st2) =>
            rw [ih _ _ _ _ hq]
            simp only at h ⊢
            generalize st2.1[p]? = c at h
            match c with
            | some (.sexpr _ arr) =>
              simp only at h ⊢
              generalize sliceLen arr st2.1 = len at h
              cases len with
              | none => cases h
              | some len => exact rangeLoop_mono (ih w) _ _ _ _ h
            | none => cases h
            | some (.rule _ _ _ _) => cases h
            | some (.values _) => cases h
            | some (.file _) => cases h
            | some (.rules _) => cases h
        | none => cases h
        | some (.rule _ _ _ _) => cases h
        | some (.values _) => cases h
        | some (.file _) => cases h
        | some (.rules _) => cases h
      | parts ps => exact rangeLoop_mono (ih w) _ _ _ _ h
      | nil => exact h
      | opcode => exact h
      | alt => exact h
      | expr => exact h
      | var => exact h

theorem hwalk_mono {vis : HVisiting V σ} {fuel fuel' : Nat} (hle : fuel ≤ fuel') (v : V) (hn : HNode) (st : Heap × σ) {r} (h : hwalk vis fuel v hn st = some r) :
    hwalk vis fuel' v hn st = some r := by
  obtain ⟨d, rfl⟩ := Nat.le.dest hle
  induction d with
  | zero => exact h
  | succ d ih => exact hwalk_succ _ v hn st r (ih (Nat.le_add_right _ _))

end Verif.Spec

import Verif.Proof.Expand
import Verif.Proof.Decimal
import Verif.Spec.ExpandError
/-!
# Proofs about failures of ExpandAlternates
-/
namespace Verif

open Verif.Spec

theorem failure_bind {α β : Type} {x : Res α} {f : α → Res β} {φ : Fault} (h : faultOf x = some φ) : faultOf (x >>= f) = some φ := by
  cases x with
  | ok a => simp [faultOf] at h
  | err e => exact h
  | panic => exact h

theorem failure_nil {α : Type} : faultOf (Res.err (α := α) (.unexpectedType nilType)) = some Fault.nil := rfl
theorem counts_text (m n : Nat) : (Err.incompatible m n).text = "incompatible alternative counts ".toList ++ numeral m ++ " and ".toList ++ numeral n := by
  rw [decimal_eq, decimal_eq]; rfl
theorem failure_counts {α : Type} (m n : Nat) : faultOf (Res.err (α := α) (.incompatible m n)) = some (Fault.counts m n) := by
  show some (Fault.text (Err.incompatible m n).text) = _
  rw [counts_text]; rfl

theorem failure_none {α : Type} {x : Res α} (h : faultOf x = none) : ∃ a, x = .ok a := by
  cases x with
  | ok a => exact ⟨a, rfl⟩
  | err e => cases h
  | panic => cases h

/-! ## Sizes -/

/-- The counting loop, on sizes. -/
def sizesCount : Nat → List Nat → Res Nat
  | n, [] => .ok n
  | n, k :: l => resolvecounts n k >>= fun n' => sizesCount n' l

theorem partsCount_sizes : ∀ (ps : List OpPart) (n : Nat), partsCount n ps = sizesCount n (ps.flatMap partSizes)
  | [], _ => rfl
  | .alt cs :: ps, n => by
    simp only [partsCount, List.flatMap_cons, partSizes, List.singleton_append, sizesCount]
    congr 1
    funext k
    exact partsCount_sizes ps k
  | .opcode _ :: ps, n => by simpa [partsCount, partSizes] using partsCount_sizes ps n
  | .nil :: ps, n => by simpa [partsCount, partSizes] using partsCount_sizes ps n

theorem sizesCount_append (l l' : List Nat) : ∀ n, sizesCount n (l ++ l') = (sizesCount n l >>= fun k => sizesCount k l') := by
  induction l with
  | nil => intro n; rfl
  | cons a l ih =>
    intro n
    simp only [List.cons_append, sizesCount]
    cases resolvecounts n a with
    | ok k => exact ih k
    | err e => rfl
    | panic => rfl

/-- The number the loop has reached after these sizes. -/
def big : List Nat → Nat
  | [] => 1
  | a :: l => if 1 < a then a else big l

theorem big_cases (l : List Nat) : (big l = 1 ∧ ∀ a ∈ l, ¬ 1 < a) ∨ (1 < big l ∧ big l ∈ l) := by
  induction l with
  | nil => left; simp [big]
  | cons a l ih =>
    unfold big
    split
    · right; exact ⟨by assumption, by simp⟩
    · rcases ih with ⟨h1, h2⟩ | ⟨h1, h2⟩
      · left; exact ⟨h1, by simp_all⟩
      · right; exact ⟨h1, by simp [h2]⟩

theorem big_eq {l : List Nat} (h : SizesFine l) {m : Nat} (hm : m ∈ l) (h1 : 1 < m) : big l = m := by
  rcases big_cases l with ⟨_, h2⟩ | ⟨h2, h3⟩
  · exact absurd h1 (h2 m hm)
  · exact h.2 _ h3 _ hm h2 h1

theorem fine_left {l l' : List Nat} (h : SizesFine (l ++ l')) : SizesFine l :=
  ⟨fun k => h.1 (by simp [k]), fun a ha b hb => h.2 a (by simp [ha]) b (by simp [hb])⟩

theorem big_append (l : List Nat) (k : Nat) : big (l ++ [k]) = if big l = 1 then (if 1 < k then k else 1) else big l := by
  induction l with
  | nil => simp [big]
  | cons a l ih =>
    simp only [List.cons_append, big]
    split
    · rw [if_neg (by omega)]
    · exact ih

theorem big_pos (l : List Nat) : 0 < big l := by
  rcases big_cases l with ⟨h, _⟩ | ⟨h, _⟩ <;> omega

theorem resolve_big {S : List Nat} {k : Nat} (h : SizesFine (S ++ [k])) : resolvecounts (big S) k = .ok (big (S ++ [k])) := by
  have hk : k ≠ 0 := fun e => h.1 (by simp [e])
  have hp := big_pos S
  rw [big_append]
  unfold resolvecounts
  rw [if_neg (by omega)]
  rcases big_cases S with ⟨h1, h2⟩ | ⟨h1, h2⟩
  · rw [h1, if_neg (by omega), if_neg (by omega), if_pos rfl]
    split
    · rfl
    · congr 1; omega
  · have : 1 < k → big S = k := fun hk => h.2 _ (by simp [h2]) _ (by simp) h1 hk
    rw [if_neg (by omega), if_neg (by omega : ¬ big S = 1)]
    split
    · rfl
    · congr 1; omega

theorem sizesCount_fine : ∀ (l S : List Nat), SizesFine (S ++ l) → sizesCount (big S) l = .ok (big (S ++ l))
  | [], S, _ => by simp [sizesCount]
  | k :: l, S, h => by
    have e : S ++ k :: l = S ++ [k] ++ l := by simp
    rw [e] at h ⊢
    rw [sizesCount, resolve_big (fine_left h), Res.bind_ok, sizesCount_fine l _ h]

theorem sizesCount_one {l : List Nat} (h : SizesFine l) : sizesCount 1 l = .ok (big l) := sizesCount_fine l [] h

theorem fine_nil : SizesFine [] := ⟨by simp, by simp⟩

/-- Either all sizes are fine or there is a first that is not. -/
theorem fine_or : ∀ (l S : List Nat), SizesFine S → SizesFine (S ++ l) ∨
    ∃ l1 k l2, S ++ l = l1 ++ k :: l2 ∧ SizesFine l1 ∧ (k = 0 ∨ ∃ m ∈ l1, 1 < m ∧ 1 < k ∧ m ≠ k)
  | [], S, h => .inl (by simpa using h)
  | k :: l, S, h => by
    by_cases h0 : k = 0
    · exact .inr ⟨S, k, l, rfl, h, .inl h0⟩
    · by_cases h1 : ∃ m ∈ S, 1 < m ∧ 1 < k ∧ m ≠ k
      · exact .inr ⟨S, k, l, rfl, h, .inr h1⟩
      · have hS : SizesFine (S ++ [k]) := by
          refine ⟨by simp [h.1, Ne.symm h0], ?_⟩
          intro a ha b hb h2 h3
          simp only [List.mem_append, List.mem_singleton] at ha hb
          rcases ha with ha | rfl <;> rcases hb with hb | rfl
          · exact h.2 a ha b hb h2 h3
          · exact Classical.byContradiction fun hne => h1 ⟨a, ha, h2, h3, hne⟩
          · exact Classical.byContradiction fun hne => h1 ⟨b, hb, h3, h2, fun e => hne e.symm⟩
          · rfl
        have := fine_or l (S ++ [k]) hS
        simpa using this

/-! ## Opcodes -/

theorem sizes_ne {ps : List OpPart} {x : Nat} (h : x ∈ opSizes (.parts ps)) : ps.length ≠ 0 := by
  cases ps with
  | nil => simp [opSizes] at h
  | cons => simp

theorem expandop_parts {ps : List OpPart} (h : ps.length ≠ 0) : expandop (.parts ps) = (sizesCount 1 (opSizes (.parts ps)) >>= fun n =>
    if n = 1 then .err (.assertion "multi-part opcode should represent multiple alternatives".toList)
    else forRes (fun i => buildAlt i [] ps) (List.range n)) := by
  rw [expandop, expandopcodeparts, if_neg h, partsCount_sizes]
  rfl

theorem buildAlt_nil {ps : List OpPart} (h : .nil ∈ ps) (hz : ∀ cs, .alt cs ∈ ps → 0 < cs.length) (acc : Str) :
    buildAlt 0 acc ps = .err (.unexpectedType nilType) := by
  cases hb : buildAlt 0 acc ps with
  | ok s => exact absurd h (buildAlt_ok.1 hb).1.1
  | err e => rw [(buildAlt_err hb).2]
  | panic =>
    obtain ⟨cs, h1, h2⟩ := buildAlt_panic hb
    have := hz cs h1
    omega

theorem expandop_fault {o : Op} {φ : Fault} (h : OpFault o φ) : faultOf (expandop o) = some φ := by
  cases h with
  | nil => exact failure_nil
  | noParts => rfl
  | @empty ps l l' e hf =>
    rw [expandop_parts (sizes_ne (by rw [e]; simp : 0 ∈ _)), e, sizesCount_append, sizesCount_one hf]
    simp only [Res.bind_ok, sizesCount]
    have : resolvecounts (big l) 0 = .err (.assertion "expect positive counts".toList) := by rw [resolvecounts, if_pos (.inr rfl)]
    rw [this]
    rfl
  | @clash ps l l' m n e hf hm h1 h2 hne =>
    rw [expandop_parts (sizes_ne (by rw [e]; simp : n ∈ _)), e, sizesCount_append, sizesCount_one hf, big_eq hf hm h1]
    simp only [Res.bind_ok, sizesCount]
    rw [resolvecounts, if_neg (by omega), if_pos ⟨h1, h2, hne⟩]
    exact failure_counts m n
  | @single ps hp h1 =>
    have hf : SizesFine (opSizes (.parts ps)) := ⟨fun h0 => absurd (h1 0 h0) (by omega), fun a ha b hb _ _ => by rw [h1 a ha, h1 b hb]⟩
    rw [expandop_parts (by simpa using hp), sizesCount_one hf, Res.bind_ok, if_pos]
    · rfl
    · rcases big_cases (opSizes (.parts ps)) with ⟨h, _⟩ | ⟨_, h⟩
      · exact h
      · exact h1 _ h
  | @nilPart ps m hf hm h1 hn =>
    rw [expandop_parts (sizes_ne hm), sizesCount_one hf, Res.bind_ok, big_eq hf hm h1, if_neg (by omega)]
    obtain ⟨k, rfl⟩ : ∃ k, m = k + 1 := ⟨m - 1, by omega⟩
    rw [List.range_succ_eq_map, forRes, buildAlt_nil hn]
    · exact failure_nil
    · intro cs hcs
      have : cs.length ∈ opSizes (.parts ps) := mem_partSizes.2 ⟨cs, hcs, rfl⟩
      exact Nat.pos_of_ne_zero fun e => hf.1 (e ▸ this)
  | @mixed ps m hf hm h1 hn h2 =>
    have : expandop (.parts ps) = .panic := by
      rw [expandop_panic_iff]
      refine ⟨ps, rfl, hn, ?_, m, h1, ?_, ?_⟩
      · obtain ⟨cs, k1, k2⟩ := mem_partSizes.1 h2
        match cs, k2 with
        | [c], _ => exact ⟨c, k1⟩
      · obtain ⟨cs, k1, k2⟩ := mem_partSizes.1 hm
        exact ⟨cs, k1, k2.symm⟩
      · intro cs hcs
        have hc : cs.length ∈ opSizes (.parts ps) := mem_partSizes.2 ⟨cs, hcs, rfl⟩
        by_cases hb : 1 < cs.length
        · exact .inr (hf.2 _ hc _ hm hb h1)
        · have : cs.length ≠ 0 := fun e => hf.1 (e ▸ hc)
          left; omega
    rw [this]
    rfl

theorem op_fault_or (o : Op) : (OpMeaningful o ∧ Agree (opSizes o)) ∨ ∃ φ, OpFault o φ := by
  cases o with
  | nil => exact .inr ⟨_, .nil⟩
  | opcode s => exact .inl ⟨trivial, by simp [opSizes, Agree]⟩
  | parts ps =>
    by_cases hp : ps = []
    · subst hp; exact .inr ⟨_, .noParts⟩
    · rcases fine_or (opSizes (.parts ps)) [] fine_nil with hf | ⟨l1, k, l2, e, hf, h⟩
      · rw [List.nil_append] at hf
        rcases big_cases (opSizes (.parts ps)) with ⟨_, h⟩ | ⟨h1, hm⟩
        · refine .inr ⟨_, .single hp ?_⟩
          intro n hn
          have := h n hn
          have h0 : n ≠ 0 := fun e => hf.1 (e ▸ hn)
          omega
        · by_cases hn : .nil ∈ ps
          · exact .inr ⟨_, .nilPart hf hm h1 hn⟩
          · by_cases h2 : 1 ∈ opSizes (.parts ps)
            · exact .inr ⟨_, .mixed hf hm h1 hn h2⟩
            · have hb : ∀ n ∈ opSizes (.parts ps), 1 < n := by
                intro n hn
                have h0 : n ≠ 0 := fun e => hf.1 (e ▸ hn)
                have h1 : n ≠ 1 := fun e => h2 (e ▸ hn)
                omega
              refine .inl ⟨⟨hn, ?_, ?_⟩, fun a ha b hb' => hf.2 a ha b hb' (hb a ha) (hb b hb')⟩
              · obtain ⟨cs, k1, _⟩ := mem_partSizes.1 hm
                exact ⟨cs, k1⟩
              · intro cs hcs
                exact hb _ (mem_partSizes.2 ⟨cs, hcs, rfl⟩)
      · rw [List.nil_append] at e
        rcases h with rfl | ⟨m, hm, h1, h2, hne⟩
        · exact .inr ⟨_, .empty e hf⟩
        · exact .inr ⟨_, .clash e hf hm h1 h2 hne⟩

/-! ## Values -/

theorem uniform_one {v : Value} : Uniform [v] ↔ Meaningful v ∧ Agree (sizes v) := by simp [Uniform]

theorem meaningful_head {h : Hdr} : Meaningful (.sexpr h []) ↔ OpMeaningful h.op := by rw [meaningful_sexpr]; simp

theorem sizes_head {h : Hdr} : sizes (.sexpr h []) = opSizes h.op := by simp [sizes_sexpr, opsOfs]

theorem opsOfs_sizes (l : List Value) : (opsOfs l).flatMap opSizes = l.flatMap sizes := by
  rw [opsOfs_flatMap, List.flatMap_assoc]; rfl

theorem uniform_sexpr {h : Hdr} {args : List Value} : Uniform [.sexpr h args] ↔ Uniform (.sexpr h [] :: args) := by
  rw [uniform_one, Uniform, meaningful_sexpr, sizes_sexpr, opsOfs_sizes]
  simp [meaningful_head, sizes_head]

theorem uniform_left {a b : List Value} (h : Uniform (a ++ b)) : Uniform a := by
  refine ⟨fun v hv => h.1 v (by simp [hv]), ?_⟩
  have := h.2
  rw [List.flatMap_append] at this
  exact (agree_append.1 this).1

theorem uniform_right {a b : List Value} (h : Uniform (a ++ b)) : Uniform b := by
  refine ⟨fun v hv => h.1 v (by simp [hv]), ?_⟩
  have := h.2
  rw [List.flatMap_append] at this
  exact (agree_append.1 this).2.1

theorem flat_ge {vs : List Value} (h : ∀ v ∈ vs, Meaningful v) : ∀ x ∈ vs.flatMap sizes, 2 ≤ x := by
  intro x hx
  obtain ⟨v, hv, hx⟩ := List.mem_flatMap.1 hx
  exact sizes_ge (h v hv) x hx

theorem expandvalue_uniform {v : Value} (h : Uniform [v]) :
    expandvalue v = .ok ((List.range (count (sizes v))).map fun i => mapOps (pickOp i) v) := by
  obtain ⟨hm, ha⟩ := uniform_one.1 h
  rcases expandvalue_meaningful v hm with ⟨_, e⟩ | ⟨m, h1, n, h2, hne, _⟩
  · exact e
  · exact absurd (ha m h1 n h2) hne

theorem expandop_uniform {h : Hdr} (hu : Uniform [.sexpr h []]) : ∃ l, expandop h.op = .ok l ∧ l.length = count (opSizes h.op) := by
  obtain ⟨hm, ha⟩ := uniform_one.1 hu
  rw [meaningful_head] at hm
  rw [sizes_head] at ha
  rcases expandop_meaningful hm with ⟨_, e⟩ | ⟨m, h1, n, h2, hne, _⟩
  · exact ⟨_, e, by simp⟩
  · exact absurd (ha m h1 n h2) hne

theorem expandargs_uniform {h : Hdr} {args : List Value} (hu : Uniform (.sexpr h [] :: args)) :
    expandargs (count (opSizes h.op)) args = .ok (count ((Value.sexpr h [] :: args).flatMap sizes), argsResult args) := by
  have hh : Uniform [.sexpr h []] := uniform_left (a := [.sexpr h []]) (b := args) hu
  obtain ⟨hm, ha⟩ := uniform_one.1 hh
  rw [meaningful_head] at hm
  rw [sizes_head] at ha
  have hs : (Value.sexpr h [] :: args).flatMap sizes = opSizes h.op ++ args.flatMap sizes := by simp [sizes_head]
  have hu2 := hu.2
  rw [hs] at hu2 ⊢
  rcases expandargs_meaningful args (fun a ha => hu.1 a (by simp [ha])) (opSizes h.op) (opSizes_ge hm) ha with ⟨_, e⟩ | ⟨m, h1, n, h2, hne, _⟩
  · rw [e, opsOfs_sizes]
  · rw [opsOfs_sizes] at h1 h2
    exact absurd (hu2 m h1 n h2) hne

theorem expandargs_append : ∀ (a b : List Value) (n : Nat), expandargs n (a ++ b) =
    (expandargs n a >>= fun x => expandargs x.1 b >>= fun y => .ok (y.1, x.2 ++ y.2))
  | [], b, n => by
    simp only [List.nil_append, expandargs, Res.bind_ok]
    cases expandargs n b <;> rfl
  | v :: a, b, n => by
    simp only [List.cons_append, expandargs]
    cases expandvalue v with
    | err e => rfl
    | panic => rfl
    | ok vs =>
      simp only [Res.bind_ok]
      cases resolvecounts n vs.length with
      | err e => rfl
      | panic => rfl
      | ok k =>
        simp only [Res.bind_ok]
        rw [expandargs_append a b k]
        cases expandargs k a with
        | err e => rfl
        | panic => rfl
        | ok x =>
          simp only [Res.bind_ok]
          cases expandargs x.1 b with
          | err e => rfl
          | panic => rfl
          | ok y => rfl

theorem expandvalue_def (h : Hdr) (args : List Value) : expandvalue (.sexpr h args) = (expandop h.op >>= fun opcodes =>
    expandargs opcodes.length args >>= fun x => if x.1 = 1 then .ok [.sexpr h args] else forRes (buildSExpr h opcodes x.2) (List.range x.1)) := by
  rw [expandvalue]

theorem clash_counts {a b : List Nat} (ha : ∀ x ∈ a, 2 ≤ x) (hb : ∀ x ∈ b, 2 ≤ x) (ga : Agree a) (gb : Agree b) {m n : Nat} (hm : m ∈ a) (hn : n ∈ b)
    (hne : m ≠ n) : resolvecounts (count a) (count b) = .err (.incompatible m n) := by
  rw [← agree_eq_count ga hm, ← agree_eq_count gb hn]
  have h1 := ha m hm
  have h2 := hb n hn
  rw [resolvecounts, if_neg (by omega), if_pos ⟨by omega, by omega, hne⟩]

theorem expandvalue_fault {v : Value} {φ : Fault} (h : ValueFault v φ) : faultOf (expandvalue v) = some φ := by
  induction h with
  | nil => rw [expandvalue]; exact failure_nil
  | op h => rw [expandvalue_def]; exact failure_bind (expandop_fault h)
  | @inside h before a after e hu _ ih =>
    obtain ⟨l, h1, h2⟩ := expandop_uniform (uniform_left (a := [.sexpr h []]) hu)
    rw [expandvalue_def, h1, Res.bind_ok, h2]
    refine failure_bind ?_
    rw [expandargs_append, expandargs_uniform hu, Res.bind_ok]
    refine failure_bind ?_
    rw [expandargs]
    exact failure_bind ih
  | @clash h before a after m n hu ha hm hn hne =>
    obtain ⟨l, h1, h2⟩ := expandop_uniform (uniform_left (a := [.sexpr h []]) hu)
    rw [expandvalue_def, h1, Res.bind_ok, h2]
    refine failure_bind ?_
    rw [expandargs_append, expandargs_uniform hu, Res.bind_ok]
    refine failure_bind ?_
    rw [expandargs, expandvalue_uniform ha, Res.bind_ok]
    refine failure_bind ?_
    obtain ⟨a1, a2⟩ := uniform_one.1 ha
    rw [List.length_map, List.length_range, clash_counts (flat_ge hu.1) (sizes_ge a1) hu.2 a2 hm hn hne]
    exact failure_counts m n

theorem uniform_snoc_or {vs : List Value} {a : Value} (h : Uniform vs) (ha : Uniform [a]) :
    Uniform (vs ++ [a]) ∨ ∃ m ∈ vs.flatMap sizes, ∃ n ∈ sizes a, m ≠ n := by
  by_cases hx : ∃ m ∈ vs.flatMap sizes, ∃ n ∈ sizes a, m ≠ n
  · exact .inr hx
  · refine .inl ⟨?_, ?_⟩
    · intro v hv
      rcases List.mem_append.1 hv with hv | hv
      · exact h.1 v hv
      · exact ha.1 v hv
    · rw [List.flatMap_append]
      refine agree_append.2 ⟨h.2, ha.2, ?_⟩
      intro m hm n hn
      refine Classical.byContradiction fun hne => hx ⟨m, hm, n, by simpa using hn, hne⟩

mutual
theorem value_fault_or : ∀ v : Value, Uniform [v] ∨ ∃ φ, ValueFault v φ
  | .nil => .inr ⟨_, .nil⟩
  | .expr e => .inl (uniform_one.2 ⟨by simp [Meaningful, valuesOf, opsOf], by simp [sizes, opsOf, Agree]⟩)
  | .var x => .inl (uniform_one.2 ⟨by simp [Meaningful, valuesOf, opsOf], by simp [sizes, opsOf, Agree]⟩)
  | .sexpr h args => by
    rcases op_fault_or h.op with ⟨h1, h2⟩ | ⟨φ, hφ⟩
    · have hu : Uniform [.sexpr h []] := uniform_one.2 ⟨meaningful_head.2 h1, by rw [sizes_head]; exact h2⟩
      rcases args_fault_or h args [] hu with hk | ⟨φ, hk⟩
      · exact .inl (uniform_sexpr.2 hk)
      · exact .inr ⟨φ, hk⟩
    · exact .inr ⟨φ, .op hφ⟩
theorem args_fault_or (h : Hdr) : ∀ (args before : List Value), Uniform (.sexpr h [] :: before) →
    Uniform (.sexpr h [] :: (before ++ args)) ∨ ∃ φ, ValueFault (.sexpr h (before ++ args)) φ
  | [], before, hu => .inl (by simpa using hu)
  | a :: args, before, hu => by
    rcases value_fault_or a with ha | ⟨φ, ha⟩
    · rcases uniform_snoc_or hu ha with hk | ⟨m, hm, n, hn, hne⟩
      · have := args_fault_or h args (before ++ [a]) (by simpa using hk)
        simpa using this
      · exact .inr ⟨_, .clash hu ha hm hn hne⟩
    · exact .inr ⟨φ, .inside hu ha⟩
end

/-! ## Rules and files -/

theorem expandrule_fault {r : Rule} {φ : Fault} (h : RuleFault r φ) : faultOf (expandrule r) = some φ := by
  unfold expandrule
  cases h with
  | inMatch h => exact failure_bind (expandvalue_fault h)
  | inResult hm h =>
    rw [expandvalue_uniform hm, Res.bind_ok]
    exact failure_bind (expandvalue_fault h)
  | clash hm hr h1 h2 hne =>
    rw [expandvalue_uniform hm, Res.bind_ok, expandvalue_uniform hr, Res.bind_ok]
    refine failure_bind ?_
    rw [uniform_one] at hm hr
    rw [List.length_map, List.length_range, List.length_map, List.length_range, clash_counts (sizes_ge hm.1) (sizes_ge hr.1) hm.2 hr.2 h1 h2 hne]
    exact failure_counts _ _

theorem rule_fault_or (r : Rule) : Uniform [r.match, r.result] ∨ ∃ φ, RuleFault r φ := by
  rcases value_fault_or r.match with hm | ⟨φ, h⟩
  · rcases value_fault_or r.result with hr | ⟨φ, h⟩
    · rcases uniform_snoc_or hm hr with h | ⟨m, h1, n, h2, hne⟩
      · exact .inl h
      · exact .inr ⟨_, .clash hm hr (by simpa using h1) h2 hne⟩
    · exact .inr ⟨φ, .inResult hm h⟩
  · exact .inr ⟨φ, .inMatch h⟩

theorem uniform_rule {r : Rule} : Uniform [r.match, r.result] ↔ RuleMeaningful r ∧ Agree (ruleSizes r) := by
  simp [Uniform, RuleMeaningful, ruleSizes]

theorem file_fault_or : ∀ rs : List Rule, (∀ r ∈ rs, Uniform [r.match, r.result]) ∨ ∃ φ, FileFault ⟨rs⟩ φ
  | [] => .inl (by simp)
  | r :: rs => by
    rcases rule_fault_or r with h | ⟨φ, h⟩
    · rcases file_fault_or rs with k | ⟨φ, before, q, after, e, k1, k2⟩
      · exact .inl (by simpa using ⟨h, k⟩)
      · refine .inr ⟨φ, r :: before, q, after, by simpa using e, ?_, k2⟩
        simpa using ⟨h, k1⟩
    · exact .inr ⟨φ, [], r, rs, rfl, by simp, h⟩

theorem expand_fault {f : File} {φ : Fault} (h : FileFault f φ) : faultOf (expandAlternates f) = some φ := by
  obtain ⟨before, r, after, e, h1, h2⟩ := h
  unfold expandAlternates
  refine failure_bind ?_
  have hb : ∃ out, expandrules before = .ok out := ⟨_, expandrules_ok_iff.2 ⟨fun q hq => uniform_rule.1 (h1 q hq), rfl⟩⟩
  obtain ⟨out, hb⟩ := hb
  rw [e, expandrules_append, hb, Res.bind_ok, expandrules_cons]
  exact failure_bind (failure_bind (expandrule_fault h2))

theorem expand_failure_iff (f : File) (φ : Fault) : faultOf (expandAlternates f) = some φ ↔ FileFault f φ := by
  constructor
  · intro h
    rcases file_fault_or f.rules with k | ⟨ψ, k⟩
    · have : expandAlternates f = .ok ⟨f.rules.flatMap expansion⟩ := expandAlternates_ok_iff.2 ⟨fun q hq => uniform_rule.1 (k q hq), rfl⟩
      rw [this] at h
      cases h
    · have k' : FileFault f ψ := k
      rw [expand_fault k'] at h
      cases h
      exact k'
  · exact expand_fault

end Verif

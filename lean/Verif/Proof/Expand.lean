import Verif.Model.Expand
import Verif.Spec.Expand
import Verif.Proof.Walk
/-! # Lemmas about expansion -/
namespace Verif

open Verif.Spec

/-! ### Loops -/

theorem forRes_eq_ok {α β : Type} {f : α → Res β} {l : List α} {ys : List β} :
    forRes f l = .ok ys ↔ l.map f = ys.map Res.ok := by
  induction l generalizing ys with
  | nil => cases ys <;> simp [forRes]
  | cons a l ih =>
    simp only [forRes, Res.bind_eq_ok]
    constructor
    · rintro ⟨y, hy, zs, hz, h⟩
      cases h
      simp [hy, ih.1 hz]
    · cases ys with
      | nil => simp
      | cons y ys =>
        simp only [List.map_cons, List.cons.injEq]
        rintro ⟨h1, h2⟩
        exact ⟨y, h1, ys, ih.2 h2, rfl⟩

theorem forRes_map_ok {α β : Type} {f : α → Res β} {g : α → β} {l : List α} (h : ∀ a ∈ l, f a = .ok (g a)) :
    forRes f l = .ok (l.map g) := by
  rw [forRes_eq_ok, List.map_map]
  exact List.map_congr_left h

theorem forRes_err {α β : Type} {f : α → Res β} {l : List α} {e : Err} (h : forRes f l = .err e) :
    ∃ a ∈ l, f a = .err e := by
  induction l with
  | nil => simp [forRes] at h
  | cons a l ih =>
    simp only [forRes, Res.bind_eq_err] at h
    rcases h with h | ⟨y, h1, h | ⟨z, h2, h3⟩⟩
    · exact ⟨a, by simp, h⟩
    · obtain ⟨b, hb, hb'⟩ := ih h
      exact ⟨b, by simp [hb], hb'⟩
    · simp at h3

theorem forRes_panic {α β : Type} {f : α → Res β} {l : List α} (h : forRes f l = .panic) :
    ∃ a ∈ l, f a = .panic := by
  induction l with
  | nil => simp [forRes] at h
  | cons a l ih =>
    simp only [forRes, Res.bind_eq_panic] at h
    rcases h with h | ⟨y, h1, h | ⟨z, h2, h3⟩⟩
    · exact ⟨a, by simp, h⟩
    · obtain ⟨b, hb, hb'⟩ := ih h
      exact ⟨b, by simp [hb], hb'⟩
    · simp at h3

theorem forRes_append {α β : Type} (f : α → Res β) (a b : List α) :
    forRes f (a ++ b) = (do let x ← forRes f a; let y ← forRes f b; .ok (x ++ y)) := by
  induction a with
  | nil =>
    simp only [List.nil_append, forRes]
    cases forRes f b <;> simp
  | cons x a ih =>
    simp only [List.cons_append, forRes, ih]
    cases f x <;> simp
    cases forRes f a <;> simp
    cases forRes f b <;> simp

/-! ### Counts -/

theorem agree_append {a b : List Nat} : Agree (a ++ b) ↔ Agree a ∧ Agree b ∧ ∀ x ∈ a, ∀ y ∈ b, x = y := by
  simp only [Agree, List.mem_append]
  constructor
  · intro h
    exact ⟨fun x hx y hy => h x (.inl hx) y (.inl hy), fun x hx y hy => h x (.inr hx) y (.inr hy),
      fun x hx y hy => h x (.inl hx) y (.inr hy)⟩
  · rintro ⟨h1, h2, h3⟩ x hx y hy
    rcases hx with hx | hx <;> rcases hy with hy | hy
    · exact h1 x hx y hy
    · exact h3 x hx y hy
    · exact (h3 y hy x hx).symm
    · exact h2 x hx y hy

theorem agree_eq_count {l : List Nat} (h : Agree l) {x : Nat} (hx : x ∈ l) : x = count l := by
  cases l with
  | nil => simp at hx
  | cons a l => exact h x hx a (by simp)

theorem count_append (a b : List Nat) : count (a ++ b) = if a = [] then count b else count a := by
  cases a <;> simp [count]

theorem count_mem {l : List Nat} (h : l ≠ []) : count l ∈ l := by
  cases l <;> simp_all [count]

theorem count_eq_one {l : List Nat} (h : ∀ x ∈ l, 2 ≤ x) : count l = 1 ↔ l = [] := by
  constructor
  · intro h1
    apply Classical.byContradiction
    intro hl
    have := h _ (count_mem hl)
    omega
  · rintro rfl; rfl

theorem count_pos {l : List Nat} (h : ∀ x ∈ l, 2 ≤ x) : 1 ≤ count l := by
  by_cases hl : l = []
  · subst hl; simp [count]
  · have := h _ (count_mem hl); omega

/-- Combining two groups of alternations. -/
theorem resolve_iff {a b : List Nat} (ha : ∀ x ∈ a, 2 ≤ x) (hb : ∀ x ∈ b, 2 ≤ x) (ga : Agree a) (gb : Agree b) :
    (Agree (a ++ b) ∧ resolvecounts (count a) (count b) = .ok (count (a ++ b))) ∨
    (∃ m ∈ a, ∃ n ∈ b, m ≠ n ∧ resolvecounts (count a) (count b) = .err (.incompatible m n)) := by
  have pa := count_pos ha
  have pb := count_pos hb
  by_cases ea : a = []
  · subst ea
    left
    refine ⟨by simpa using gb, ?_⟩
    simp only [List.nil_append, resolvecounts]
    have : count ([] : List Nat) = 1 := rfl
    rw [this, if_neg (by omega), if_neg (by omega)]
    split
    · omega
    · rfl
  by_cases eb : b = []
  · subst eb
    left
    refine ⟨by simpa using ga, ?_⟩
    simp only [List.append_nil, resolvecounts]
    have : count ([] : List Nat) = 1 := rfl
    rw [this, if_neg (by omega), if_neg (by omega)]
    split
    · rfl
    · congr 1; omega
  have ma := count_mem ea
  have mb := count_mem eb
  have ta := ha _ ma
  have tb := hb _ mb
  by_cases hc : count a = count b
  · left
    refine ⟨agree_append.2 ⟨ga, gb, fun x hx y hy => by rw [agree_eq_count ga hx, agree_eq_count gb hy, hc]⟩, ?_⟩
    rw [count_append, if_neg ea, resolvecounts, if_neg (by omega), if_neg (by omega), hc]
    simp
  · right
    refine ⟨_, ma, _, mb, hc, ?_⟩
    rw [resolvecounts, if_neg (by omega), if_pos ⟨by omega, by omega, hc⟩]

theorem resolve_ok {a b : List Nat} {k : Nat} (ha : ∀ x ∈ a, 2 ≤ x) (hb : ∀ x ∈ b, 2 ≤ x) (ga : Agree a) (gb : Agree b) :
    resolvecounts (count a) (count b) = .ok k ↔ Agree (a ++ b) ∧ k = count (a ++ b) := by
  rcases resolve_iff ha hb ga gb with ⟨h1, h2⟩ | ⟨m, hm, n, hn, hne, h2⟩
  · rw [h2]
    simp only [Res.ok.injEq]
    exact ⟨fun h => ⟨h1, h.symm⟩, fun h => h.2.symm⟩
  · rw [h2]
    simp only [reduceCtorEq, false_iff]
    rintro ⟨h, _⟩
    exact hne ((agree_append.1 h).2.2 m hm n hn)

theorem resolvecounts_pos {m n k : Nat} (h : resolvecounts m n = .ok k) : 0 < m ∧ 0 < n ∧ k = max m n ∧ (m = 1 ∨ n = 1 ∨ m = n) := by
  unfold resolvecounts at h
  split at h
  · simp at h
  · split at h
    · simp at h
    · split at h <;> (simp only [Res.ok.injEq] at h; omega)

/-! ### Opcodes -/

theorem partsCount_one_nil (ps : List OpPart) : partsCount 1 (.nil :: ps) = partsCount 1 ps := rfl

/-- What the counting loop computes, on arbitrary parts. -/
theorem partsCount_ok {n k : Nat} {ps : List OpPart} (hn : 1 ≤ n) :
    partsCount n ps = .ok k →
      (∀ x ∈ ps.flatMap partSizes, 1 ≤ x ∧ (x = 1 ∨ x = k)) ∧ n ≤ k ∧ (n = 1 ∨ n = k) ∧ (k = n ∨ k ∈ ps.flatMap partSizes) := by
  induction ps generalizing n with
  | nil => simp only [partsCount, Res.ok.injEq, List.flatMap_nil]; rintro rfl; simp
  | cons p ps ih =>
    cases p with
    | alt cs =>
      simp only [partsCount, Res.bind_eq_ok, List.flatMap_cons, partSizes]
      rintro ⟨n', h1, h2⟩
      obtain ⟨_, h4, h5, h6⟩ := resolvecounts_pos h1
      obtain ⟨i1, i2, i3, i4⟩ := ih (by omega) h2
      refine ⟨?_, by omega, by omega, ?_⟩
      · intro x hx
        simp only [List.mem_append, List.mem_singleton] at hx
        rcases hx with rfl | hx
        · omega
        · exact i1 x hx
      · simp only [List.mem_append, List.mem_singleton]
        rcases i4 with i4 | i4
        · omega
        · exact .inr (.inr i4)
    | opcode s => simpa [partsCount, partSizes] using ih hn
    | nil => simpa [partsCount, partSizes] using ih hn

theorem partsCount_ne_panic (n : Nat) (ps : List OpPart) : partsCount n ps ≠ .panic := by
  induction ps generalizing n with
  | nil => simp [partsCount]
  | cons p ps ih =>
    cases p with
    | alt cs =>
      simp only [partsCount, ne_eq, Res.bind_eq_panic, not_or, not_exists, not_and]
      refine ⟨?_, fun a _ => ih a⟩
      unfold resolvecounts
      repeat' split
      all_goals simp
    | opcode s => exact ih n
    | nil => exact ih n

theorem buildAlt_ok {i : Nat} {ps : List OpPart} {acc s : Str} :
    buildAlt i acc ps = .ok s ↔
      (.nil ∉ ps ∧ ∀ cs, .alt cs ∈ ps → i < cs.length) ∧ s = acc ++ ps.flatMap (pickPart i) := by
  induction ps generalizing acc with
  | nil => simp [buildAlt, eq_comm]
  | cons p ps ih =>
    cases p with
    | nil => simp [buildAlt]
    | opcode t =>
      rw [buildAlt, ih]
      simp [pickPart]
    | alt cs =>
      simp only [buildAlt, Res.bind_eq_ok, ih, getIdx]
      by_cases hi : i < cs.length
      · simp only [List.getElem?_eq_getElem hi, Res.ok.injEq]
        simp only [List.mem_cons, OpPart.alt.injEq, List.flatMap_cons, pickPart]
        constructor
        · rintro ⟨_, rfl, ⟨h1, h2⟩, rfl⟩
          refine ⟨⟨by simp [h1], ?_⟩, by simp [List.getD, List.getElem?_eq_getElem hi]⟩
          rintro cs' (rfl | h)
          · exact hi
          · exact h2 _ h
        · rintro ⟨⟨h1, h2⟩, rfl⟩
          refine ⟨_, rfl, ⟨by simpa using h1, fun cs h => h2 cs (.inr h)⟩, by simp [List.getD, List.getElem?_eq_getElem hi]⟩
      · rw [List.getElem?_eq_none (by omega)]
        simp only [reduceCtorEq, false_and, exists_false, false_iff, not_and]
        rintro ⟨_, h⟩
        exact absurd (h cs (by simp)) hi

theorem buildAlt_panic {i : Nat} {ps : List OpPart} {acc : Str} (h : buildAlt i acc ps = .panic) :
    ∃ cs, .alt cs ∈ ps ∧ cs.length ≤ i := by
  induction ps generalizing acc with
  | nil => simp [buildAlt] at h
  | cons p ps ih =>
    cases p with
    | nil => simp [buildAlt] at h
    | opcode t =>
      obtain ⟨cs, h1, h2⟩ := ih h
      exact ⟨cs, by simp [h1], h2⟩
    | alt cs =>
      simp only [buildAlt, Res.bind_eq_panic, getIdx] at h
      by_cases hi : i < cs.length
      · simp only [List.getElem?_eq_getElem hi] at h
        rcases h with h | ⟨a, _, h⟩
        · simp at h
        · obtain ⟨cs, h1, h2⟩ := ih h
          exact ⟨cs, by simp [h1], h2⟩
      · exact ⟨cs, by simp, by omega⟩

theorem buildAlt_err {i : Nat} {ps : List OpPart} {acc : Str} {e : Err} (h : buildAlt i acc ps = .err e) :
    .nil ∈ ps ∧ e = .unexpectedType nilType := by
  induction ps generalizing acc with
  | nil => simp [buildAlt] at h
  | cons p ps ih =>
    cases p with
    | nil => simp [buildAlt] at h; exact ⟨by simp, h.symm⟩
    | opcode t => have := ih h; exact ⟨by simp [this.1], this.2⟩
    | alt cs =>
      simp only [buildAlt, Res.bind_eq_err, getIdx] at h
      by_cases hi : i < cs.length
      · simp only [List.getElem?_eq_getElem hi] at h
        rcases h with h | ⟨a, _, h⟩
        · simp at h
        · have := ih h; exact ⟨by simp [this.1], this.2⟩
      · rw [List.getElem?_eq_none (by omega)] at h; simp at h

theorem mem_partSizes {ps : List OpPart} {x : Nat} : x ∈ ps.flatMap partSizes ↔ ∃ cs, .alt cs ∈ ps ∧ x = cs.length := by
  simp only [List.mem_flatMap]
  constructor
  · rintro ⟨p, hp, hx⟩
    cases p with
    | alt cs => simp [partSizes] at hx; exact ⟨cs, hp, hx⟩
    | _ => simp [partSizes] at hx
  · rintro ⟨cs, h1, rfl⟩
    exact ⟨_, h1, by simp [partSizes]⟩

theorem opSizes_ge {o : Op} (h : OpMeaningful o) : ∀ x ∈ opSizes o, 2 ≤ x := by
  cases o with
  | parts ps =>
    intro x hx
    obtain ⟨cs, h1, rfl⟩ := mem_partSizes.1 hx
    exact h.2.2 cs h1
  | _ => simp [opSizes]

theorem sizes_ge {v : Value} (h : Meaningful v) : ∀ x ∈ sizes v, 2 ≤ x := by
  intro x hx
  simp only [sizes, List.mem_flatMap] at hx
  obtain ⟨o, ho, hx⟩ := hx
  exact opSizes_ge (h.2 o ho) x hx

/-- Counting on meaningful parts: success or the incompatibility error. -/
theorem partsCount_meaningful {ps : List OpPart} {S : List Nat} (hS : ∀ x ∈ S, 2 ≤ x) (gS : Agree S)
    (hp : ∀ cs, .alt cs ∈ ps → 2 ≤ cs.length) :
    (Agree (S ++ ps.flatMap partSizes) ∧ partsCount (count S) ps = .ok (count (S ++ ps.flatMap partSizes))) ∨
    (∃ m ∈ S ++ ps.flatMap partSizes, ∃ n ∈ S ++ ps.flatMap partSizes, m ≠ n ∧
      partsCount (count S) ps = .err (.incompatible m n)) := by
  induction ps generalizing S with
  | nil => left; simpa [partsCount] using gS
  | cons p ps ih =>
    cases p with
    | alt cs =>
      have hc := hp cs (by simp)
      have h1 : ∀ x ∈ [cs.length], 2 ≤ x := by simpa using hc
      have g1 : Agree [cs.length] := by intro a ha b hb; simp_all
      simp only [partsCount, List.flatMap_cons, partSizes]
      rcases resolve_iff hS h1 gS g1 with ⟨ga, hr⟩ | ⟨m, hm, n, hn, hne, hr⟩
      · rw [show count [cs.length] = cs.length from rfl] at hr
        rw [hr, Res.bind_ok]
        have := ih (S := S ++ [cs.length]) (by
          intro x hx; simp only [List.mem_append] at hx; rcases hx with hx | hx
          · exact hS x hx
          · exact h1 x hx) ga (fun cs h => hp cs (by simp [h]))
        simpa only [List.append_assoc] using this
      · right
        rw [show count [cs.length] = cs.length from rfl] at hr
        rw [hr, Res.bind_err]
        exact ⟨m, by simp [hm], n, by simp at hn; simp [hn], hne, rfl⟩
    | opcode s => exact ih hS gS (fun cs h => hp cs (by simp [h]))
    | nil => exact ih hS gS (fun cs h => hp cs (by simp [h]))

/-- The opcode text picked. -/
def opStr (i : Nat) : Op → Str
  | .opcode s => s
  | .parts ps => ps.flatMap (pickPart i)
  | .nil => []

theorem pickOp_eq {o : Op} (h : OpMeaningful o) (i : Nat) : pickOp i o = .opcode (opStr i o) := by
  cases o <;> simp_all [OpMeaningful, pickOp, opStr]

/-- Success of opcode expansion, exactly. -/
theorem expandop_meaningful {o : Op} (h : OpMeaningful o) :
    (Agree (opSizes o) ∧ expandop o = .ok ((List.range (count (opSizes o))).map fun i => opStr i o)) ∨
    (∃ m ∈ opSizes o, ∃ n ∈ opSizes o, m ≠ n ∧ expandop o = .err (.incompatible m n)) := by
  cases o with
  | nil => simp [OpMeaningful] at h
  | opcode s => left; simp [opSizes, Agree, expandop, count, opStr]
  | parts ps =>
    obtain ⟨h1, ⟨cs, h2⟩, h3⟩ := h
    have hlen : ps.length ≠ 0 := by
      intro h0
      have := List.length_eq_zero_iff.1 h0
      simp [this] at h2
    have hne : ps.flatMap partSizes ≠ [] := by
      intro h0
      have := mem_partSizes.2 ⟨cs, h2, rfl⟩
      simp [h0] at this
    have hge := opSizes_ge (o := .parts ps) ⟨h1, ⟨cs, h2⟩, h3⟩
    simp only [opSizes] at *
    simp only [expandop, expandopcodeparts, hlen, if_false]
    rcases partsCount_meaningful (S := []) (ps := ps) (by simp) (by simp [Agree]) h3 with ⟨ga, hc⟩ | ⟨m, hm, n, hn, hmn, hc⟩
    · left
      simp only [List.nil_append] at ga hc
      rw [show count [] = 1 from rfl] at hc
      rw [hc, Res.bind_ok]
      have h1' : count (ps.flatMap partSizes) ≠ 1 := by rw [Ne, count_eq_one hge]; exact hne
      rw [if_neg h1']
      refine ⟨ga, ?_⟩
      apply forRes_map_ok
      intro i hi
      rw [buildAlt_ok]
      refine ⟨⟨h1, ?_⟩, by simp [opStr]⟩
      intro cs' hcs'
      rw [List.mem_range] at hi
      have := agree_eq_count ga (mem_partSizes.2 ⟨cs', hcs', rfl⟩)
      omega
    · right
      simp only [List.nil_append] at hm hn
      rw [show count [] = 1 from rfl] at hc
      rw [hc, Res.bind_err]
      exact ⟨m, hm, n, hn, hmn, rfl⟩

/-- A successful opcode expansion is of a meaningful opcode. -/
theorem expandop_ok_meaningful {o : Op} {l : List Str} (h : expandop o = .ok l) : OpMeaningful o := by
  cases o with
  | nil => simp [expandop] at h
  | opcode s => trivial
  | parts ps =>
    simp only [expandop, expandopcodeparts] at h
    split at h
    · simp at h
    · simp only [Res.bind_eq_ok] at h
      obtain ⟨n, hc, h⟩ := h
      split at h
      · simp at h
      · rename_i hn
        obtain ⟨c1, c2, c3, c4⟩ := partsCount_ok (by omega) hc
        rw [forRes_eq_ok] at h
        have hb : ∀ i < n, ∃ s, buildAlt i [] ps = .ok s := by
          intro i hi
          have : buildAlt i [] ps ∈ List.map (fun i => buildAlt i [] ps) (List.range n) :=
            List.mem_map.2 ⟨i, by simpa using hi, rfl⟩
          rw [h, List.mem_map] at this
          obtain ⟨s, _, hs⟩ := this
          exact ⟨s, hs.symm⟩
        obtain ⟨s0, h0⟩ := hb (n - 1) (by omega)
        rw [buildAlt_ok] at h0
        refine ⟨h0.1.1, ?_, ?_⟩
        · rcases c4 with c4 | c4
          · omega
          · obtain ⟨cs, h1, _⟩ := mem_partSizes.1 c4
            exact ⟨cs, h1⟩
        · intro cs hcs
          have := h0.1.2 cs hcs
          omega

/-! ### Values -/

theorem sizes_sexpr (h : Hdr) (args : List Value) :
    sizes (.sexpr h args) = opSizes h.op ++ (opsOfs args).flatMap opSizes := by
  simp [sizes, opsOf]

theorem meaningful_sexpr {h : Hdr} {args : List Value} :
    Meaningful (.sexpr h args) ↔ OpMeaningful h.op ∧ ∀ a ∈ args, Meaningful a := by
  have hv : ∀ args : List Value, (.nil ∉ valuesOfs args ∧ ∀ o ∈ opsOfs args, OpMeaningful o) ↔ ∀ a ∈ args, Meaningful a := by
    intro args
    induction args with
    | nil => simp [valuesOfs, opsOfs]
    | cons a as ih =>
      rw [List.forall_mem_cons, ← ih]
      simp only [valuesOfs, opsOfs, List.mem_append, not_or, Meaningful]
      constructor
      · rintro ⟨⟨h1, h2⟩, h3⟩
        exact ⟨⟨h1, fun o h => h3 o (.inl h)⟩, h2, fun o h => h3 o (.inr h)⟩
      · rintro ⟨⟨h1, h2⟩, h3, h4⟩
        refine ⟨⟨h1, h3⟩, ?_⟩
        rintro o (h | h)
        · exact h2 o h
        · exact h4 o h
  rw [← hv]
  simp only [Meaningful, valuesOf, opsOf, List.mem_cons, forall_eq_or_imp]
  simp only [reduceCtorEq, false_or]
  grind

mutual
theorem mapOps_eq_self (f : Op → Op) (v : Value) (h : ∀ o ∈ opsOf v, f o = o) : mapOps f v = v := by
  cases v with
  | sexpr hd args =>
    simp only [opsOf, List.forall_mem_cons] at h
    simp only [mapOps, h.1, mapOpss_eq_self f args h.2]
  | _ => rfl
theorem mapOpss_eq_self (f : Op → Op) (vs : List Value) (h : ∀ o ∈ opsOfs vs, f o = o) : mapOpss f vs = vs := by
  cases vs with
  | nil => rfl
  | cons v vs =>
    simp only [opsOfs, List.mem_append] at h
    rw [mapOpss, mapOps_eq_self f v (fun o ho => h o (.inl ho)), mapOpss_eq_self f vs (fun o ho => h o (.inr ho))]
end

theorem pickOp_of_no_sizes {o : Op} (hm : OpMeaningful o) (h : opSizes o = []) (i : Nat) : pickOp i o = o := by
  cases o with
  | parts ps =>
    obtain ⟨_, ⟨cs, h2⟩, _⟩ := hm
    have := mem_partSizes.2 ⟨cs, h2, rfl⟩
    simp only [opSizes] at h
    simp [h] at this
  | _ => rfl

theorem pick_of_no_sizes {v : Value} (hm : Meaningful v) (h : sizes v = []) (i : Nat) : mapOps (pickOp i) v = v := by
  apply mapOps_eq_self
  intro o ho
  apply pickOp_of_no_sizes (hm.2 o ho)
  simp only [sizes, List.flatMap_eq_nil_iff] at h
  exact h o ho

theorem getIdx_range_map {α : Type} {f : Nat → α} {c i : Nat} (hi : i < c) :
    getIdx ((List.range c).map f) i = .ok (f i) := by
  simp [getIdx, List.getElem?_map, List.getElem?_range hi]

/-- Looking up the `i`-th alternative in a list of expansions of one group, `i` being within the overall count. -/
theorem getIdx_idx {α : Type} {f : Nat → α} {T U : List Nat} {i : Nat} (hT : ∀ x ∈ T, 2 ≤ x) (hc : T = [] → ∀ j, f j = f 0)
    (hU : Agree U) (hTU : ∀ x ∈ T, x ∈ U) (hi : i < count U) :
    getIdx ((List.range (count T)).map f) (idx i ((List.range (count T)).map f).length) = .ok (f i) := by
  simp only [List.length_map, List.length_range, idx]
  by_cases h : T = []
  · subst h
    rw [if_pos (by rfl), getIdx_range_map (by simp [count]), hc rfl i]
  · have h1 : count T ≠ 1 := by rw [Ne, count_eq_one hT]; exact h
    rw [if_neg h1]
    have := agree_eq_count hU (hTU _ (count_mem h))
    exact getIdx_range_map (by omega)

/-- Result of the argument loop when it succeeds. -/
def argsResult (args : List Value) : List (List Value) :=
  args.map fun a => (List.range (count (sizes a))).map fun i => mapOps (pickOp i) a

theorem mapOpss_map (f : Op → Op) (l : List Value) : mapOpss f l = l.map (mapOps f) := by
  induction l with
  | nil => rfl
  | cons a l ih => simp [mapOpss, ih]

theorem opsOfs_flatMap (l : List Value) : opsOfs l = l.flatMap opsOf := by
  induction l with
  | nil => rfl
  | cons a l ih => simp [opsOfs, ih]

mutual
/-- Expansion of a meaningful value. -/
theorem expandvalue_meaningful (v : Value) (h : Meaningful v) :
    (Agree (sizes v) ∧ expandvalue v = .ok ((List.range (count (sizes v))).map fun i => mapOps (pickOp i) v)) ∨
    (∃ m ∈ sizes v, ∃ n ∈ sizes v, m ≠ n ∧ expandvalue v = .err (.incompatible m n)) := by
  cases v with
  | nil => simp [Meaningful, valuesOf] at h
  | expr e => left; simp [sizes, opsOf, Agree, expandvalue, count, mapOps]
  | var x => left; simp [sizes, opsOf, Agree, expandvalue, count, mapOps]
  | sexpr hd args =>
    obtain ⟨ho, ha⟩ := meaningful_sexpr.1 h
    rw [sizes_sexpr]
    simp only [expandvalue]
    rcases expandop_meaningful ho with ⟨go, hx⟩ | ⟨m, hm, n, hn, hne, hx⟩
    · rw [hx, Res.bind_ok]
      simp only [List.length_map, List.length_range]
      rcases expandargs_meaningful args ha (opSizes hd.op) (opSizes_ge ho) go with ⟨ga, hy⟩ | ⟨m, hm, n, hn, hne, hy⟩
      · left
        refine ⟨ga, ?_⟩
        rw [hy, Res.bind_ok]
        simp only
        have hge : ∀ x ∈ opSizes hd.op ++ (opsOfs args).flatMap opSizes, 2 ≤ x := by
          rw [← sizes_sexpr]; exact sizes_ge h
        by_cases hc : count (opSizes hd.op ++ (opsOfs args).flatMap opSizes) = 1
        · rw [if_pos hc, hc]
          rw [count_eq_one hge] at hc
          have := pick_of_no_sizes h (by rw [sizes_sexpr]; exact hc) 0
          simp [this]
        · rw [if_neg hc]
          apply forRes_map_ok
          intro i hi
          rw [List.mem_range] at hi
          have e1 := getIdx_idx (f := fun i => opStr i hd.op) (T := opSizes hd.op) (opSizes_ge ho) (by
            intro h0 j
            have h1 := pickOp_of_no_sizes ho h0 j
            have h2 := pickOp_of_no_sizes ho h0 0
            rw [pickOp_eq ho] at h1 h2
            exact Op.opcode.inj (h1.trans h2.symm)) ga (by intro x hx; simp only [List.mem_append]; simp [hx]) hi
          have e2 : forRes (fun alts : List Value => getIdx alts (idx i alts.length)) (argsResult args) =
              .ok (args.map (mapOps (pickOp i))) := by
            rw [argsResult, forRes_eq_ok, List.map_map, List.map_map]
            apply List.map_congr_left
            intro a haa
            simp only [Function.comp]
            apply getIdx_idx (f := fun i => mapOps (pickOp i) a) (T := sizes a) (sizes_ge (ha a haa)) (by
              intro h0 j
              rw [pick_of_no_sizes (ha a haa) h0, pick_of_no_sizes (ha a haa) h0]) ga (by
              intro x hx
              simp only [sizes, List.mem_flatMap] at hx
              obtain ⟨o, ho', hx⟩ := hx
              simp only [List.mem_append, List.mem_flatMap, opsOfs_flatMap]
              exact .inr ⟨o, ⟨a, haa, ho'⟩, hx⟩) hi
          simp only [buildSExpr]
          rw [e1, Res.bind_ok, e2, Res.bind_ok]
          simp only [mapOps, mapOpss_map, pickOp_eq ho]
      · right
        rw [hy, Res.bind_err]
        exact ⟨m, hm, n, hn, hne, rfl⟩
    · right
      rw [hx, Res.bind_err]
      exact ⟨m, by simp [hm], n, by simp [hn], hne, rfl⟩
/-- The argument loop, started after alternations of sizes `S` have been seen. -/
theorem expandargs_meaningful (args : List Value) (h : ∀ a ∈ args, Meaningful a) (S : List Nat) (hS : ∀ x ∈ S, 2 ≤ x) (gS : Agree S) :
    (Agree (S ++ (opsOfs args).flatMap opSizes) ∧
      expandargs (count S) args = .ok (count (S ++ (opsOfs args).flatMap opSizes), argsResult args)) ∨
    (∃ m ∈ S ++ (opsOfs args).flatMap opSizes, ∃ n ∈ S ++ (opsOfs args).flatMap opSizes, m ≠ n ∧
      expandargs (count S) args = .err (.incompatible m n)) := by
  cases args with
  | nil => left; simpa [expandargs, opsOfs, argsResult] using gS
  | cons a as =>
    simp only [List.forall_mem_cons] at h
    simp only [expandargs, opsOfs, List.flatMap_append]
    rw [show (opsOf a).flatMap opSizes = sizes a from rfl]
    rcases expandvalue_meaningful a h.1 with ⟨ga, hx⟩ | ⟨m, hm, n, hn, hne, hx⟩
    · rw [hx, Res.bind_ok]
      simp only [List.length_map, List.length_range]
      rcases resolve_iff hS (sizes_ge h.1) gS ga with ⟨gb, hr⟩ | ⟨m, hm, n, hn, hne, hr⟩
      · rw [hr, Res.bind_ok]
        have hge : ∀ x ∈ S ++ sizes a, 2 ≤ x := by
          intro x hx; simp only [List.mem_append] at hx
          rcases hx with hx | hx
          · exact hS x hx
          · exact sizes_ge h.1 x hx
        rcases expandargs_meaningful as h.2 (S ++ sizes a) hge gb with ⟨gc, hy⟩ | ⟨m, hm, n, hn, hne, hy⟩
        · left
          rw [List.append_assoc] at gc
          refine ⟨gc, ?_⟩
          rw [hy, Res.bind_ok]
          simp [argsResult]
        · right
          rw [hy, Res.bind_err]
          rw [List.append_assoc] at hm hn
          exact ⟨m, hm, n, hn, hne, rfl⟩
      · right
        rw [hr, Res.bind_err]
        exact ⟨m, by simp [hm], n, by simp only [List.mem_append]; exact .inr (.inl hn), hne, rfl⟩
    · right
      rw [hx, Res.bind_err]
      exact ⟨m, by simp only [List.mem_append]; exact .inr (.inl hm), n, by simp only [List.mem_append]; exact .inr (.inl hn), hne, rfl⟩
end

mutual
theorem expandvalue_ok_meaningful (v : Value) (vs : List Value) (h : expandvalue v = .ok vs) : Meaningful v := by
  cases v with
  | nil => simp [expandvalue] at h
  | expr e => simp [Meaningful, valuesOf, opsOf]
  | var x => simp [Meaningful, valuesOf, opsOf]
  | sexpr hd args =>
    simp only [expandvalue, Res.bind_eq_ok] at h
    obtain ⟨ops, h1, ⟨n, ex⟩, h2, _⟩ := h
    exact meaningful_sexpr.2 ⟨expandop_ok_meaningful h1, expandargs_ok_meaningful args _ _ h2⟩
theorem expandargs_ok_meaningful (args : List Value) (n : Nat) (r : Nat × List (List Value)) (h : expandargs n args = .ok r) :
    ∀ a ∈ args, Meaningful a := by
  cases args with
  | nil => simp
  | cons a as =>
    simp only [expandargs, Res.bind_eq_ok] at h
    obtain ⟨ex, h1, n', h2, ⟨m, rest⟩, h3, _⟩ := h
    simp only [List.forall_mem_cons]
    exact ⟨expandvalue_ok_meaningful a _ h1, expandargs_ok_meaningful as _ _ h3⟩
end

/-! ### Rules -/

theorem expandrule_meaningful (r : Rule) (h : RuleMeaningful r) :
    (Agree (ruleSizes r) ∧ expandrule r = .ok ((List.range (count (ruleSizes r))).map fun i => pickRule i r)) ∨
    (∃ m ∈ ruleSizes r, ∃ n ∈ ruleSizes r, m ≠ n ∧ expandrule r = .err (.incompatible m n)) := by
  obtain ⟨hm, hr⟩ := h
  simp only [expandrule, ruleSizes]
  rcases expandvalue_meaningful _ hm with ⟨gm, ex⟩ | ⟨m, h1, n, h2, hne, ex⟩
  · rw [ex, Res.bind_ok]
    rcases expandvalue_meaningful _ hr with ⟨gr, ey⟩ | ⟨m, h1, n, h2, hne, ey⟩
    · rw [ey, Res.bind_ok]
      simp only [List.length_map, List.length_range]
      rcases resolve_iff (sizes_ge hm) (sizes_ge hr) gm gr with ⟨g, e⟩ | ⟨m, h1, n, h2, hne, e⟩
      · left
        refine ⟨g, ?_⟩
        rw [e, Res.bind_ok]
        have hge : ∀ x ∈ sizes r.match ++ sizes r.result, 2 ≤ x := by
          intro x hx; simp only [List.mem_append] at hx
          rcases hx with hx | hx
          · exact sizes_ge hm x hx
          · exact sizes_ge hr x hx
        by_cases hc : count (sizes r.match ++ sizes r.result) = 1
        · rw [if_pos hc, hc]
          rw [count_eq_one hge] at hc
          simp only [List.append_eq_nil_iff] at hc
          simp [pickRule, mapRuleOps, pick_of_no_sizes hm hc.1, pick_of_no_sizes hr hc.2]
        · rw [if_neg hc]
          apply forRes_map_ok
          intro i hi
          rw [List.mem_range] at hi
          have e1 := getIdx_idx (f := fun i => mapOps (pickOp i) r.match) (T := sizes r.match) (sizes_ge hm) (by
            intro h0 j; rw [pick_of_no_sizes hm h0, pick_of_no_sizes hm h0]) g (by intro x hx; simp only [List.mem_append]; simp [hx]) hi
          have e2 := getIdx_idx (f := fun i => mapOps (pickOp i) r.result) (T := sizes r.result) (sizes_ge hr) (by
            intro h0 j; rw [pick_of_no_sizes hr h0, pick_of_no_sizes hr h0]) g (by intro x hx; simp only [List.mem_append]; simp [hx]) hi
          simp only [buildRule]
          rw [e1, Res.bind_ok, e2, Res.bind_ok]
          rfl
      · right
        rw [e, Res.bind_err]
        exact ⟨m, by simp [h1], n, by simp [h2], hne, rfl⟩
    · right
      rw [ey, Res.bind_err]
      exact ⟨m, by simp [h1], n, by simp [h2], hne, rfl⟩
  · right
    rw [ex, Res.bind_err]
    exact ⟨m, by simp [h1], n, by simp [h2], hne, rfl⟩

theorem expandrule_ok_meaningful {r : Rule} {l : List Rule} (h : expandrule r = .ok l) : RuleMeaningful r := by
  simp only [expandrule, Res.bind_eq_ok] at h
  obtain ⟨ms, h1, rs, h2, _⟩ := h
  exact ⟨expandvalue_ok_meaningful _ _ h1, expandvalue_ok_meaningful _ _ h2⟩

/-- Success of rule expansion, on any rule whatsoever. -/
theorem expandrule_ok_iff {r : Rule} {l : List Rule} :
    expandrule r = .ok l ↔ RuleMeaningful r ∧ Agree (ruleSizes r) ∧
      l = (List.range (count (ruleSizes r))).map fun i => pickRule i r := by
  constructor
  · intro h
    have hm := expandrule_ok_meaningful h
    rcases expandrule_meaningful r hm with ⟨g, e⟩ | ⟨m, h1, n, h2, hne, e⟩
    · rw [e] at h
      simp only [Res.ok.injEq] at h
      exact ⟨hm, g, h.symm⟩
    · rw [e] at h; simp at h
  · rintro ⟨hm, g, rfl⟩
    rcases expandrule_meaningful r hm with ⟨g, e⟩ | ⟨m, h1, n, h2, hne, e⟩
    · exact e
    · exact absurd (g m h1 n h2) hne

/-! ### Files -/

theorem expandrules_append (a b : List Rule) :
    expandrules (a ++ b) = (do let x ← expandrules a; let y ← expandrules b; .ok (x ++ y)) := by
  simp only [expandrules, forRes_append]
  cases forRes expandrule a <;> simp
  cases forRes expandrule b <;> simp

theorem expandrules_singleton (r : Rule) : expandrules [r] = expandrule r := by
  simp only [expandrules, forRes]
  cases expandrule r <;> simp

theorem expandrules_cons (r : Rule) (rs : List Rule) :
    expandrules (r :: rs) = (do let x ← expandrule r; let y ← expandrules rs; .ok (x ++ y)) := by
  rw [show r :: rs = [r] ++ rs from rfl, expandrules_append, expandrules_singleton]

/-- The expansion of a rule, as a list. -/
def expansion (r : Rule) : List Rule := (List.range (count (ruleSizes r))).map fun i => pickRule i r

theorem expandrules_ok_iff {rs out : List Rule} :
    expandrules rs = .ok out ↔ (∀ r ∈ rs, RuleMeaningful r ∧ Agree (ruleSizes r)) ∧ out = rs.flatMap expansion := by
  induction rs generalizing out with
  | nil => simp [expandrules, forRes, eq_comm]
  | cons r rs ih =>
    rw [expandrules_cons]
    simp only [Res.bind_eq_ok, expandrule_ok_iff, ih, List.forall_mem_cons, List.flatMap_cons, Res.ok.injEq]
    constructor
    · rintro ⟨x, ⟨h1, h2, rfl⟩, y, ⟨h3, rfl⟩, rfl⟩
      exact ⟨⟨⟨h1, h2⟩, h3⟩, rfl⟩
    · rintro ⟨⟨⟨h1, h2⟩, h3⟩, rfl⟩
      exact ⟨_, ⟨h1, h2, rfl⟩, _, ⟨h3, rfl⟩, rfl⟩

theorem expandrules_err {rs : List Rule} (h : ∀ r ∈ rs, RuleMeaningful r) :
    (∃ out, expandrules rs = .ok out) ∨
    ∃ r ∈ rs, ∃ m ∈ ruleSizes r, ∃ n ∈ ruleSizes r, m ≠ n ∧ expandrules rs = .err (.incompatible m n) := by
  induction rs with
  | nil => left; exact ⟨[], rfl⟩
  | cons r rs ih =>
    simp only [List.forall_mem_cons] at h
    rw [expandrules_cons]
    rcases expandrule_meaningful r h.1 with ⟨_, e⟩ | ⟨m, hm, n, hn, hne, e⟩
    · rcases ih h.2 with ⟨out, e2⟩ | ⟨r', hr', m, hm, n, hn, hne, e2⟩
      · left; rw [e, e2]; simp
      · right; rw [e, e2]; simp only [Res.bind_ok, Res.bind_err]
        exact ⟨r', by simp [hr'], m, hm, n, hn, hne, rfl⟩
    · right; rw [e, Res.bind_err]
      exact ⟨r, by simp, m, hm, n, hn, hne, rfl⟩

theorem expandAlternates_ok_iff {f g : File} :
    expandAlternates f = .ok g ↔ (∀ r ∈ f.rules, RuleMeaningful r ∧ Agree (ruleSizes r)) ∧ g.rules = f.rules.flatMap expansion := by
  simp only [expandAlternates, Res.bind_eq_ok, expandrules_ok_iff, Res.ok.injEq]
  constructor
  · rintro ⟨rs, ⟨h, rfl⟩, rfl⟩; exact ⟨h, rfl⟩
  · rintro ⟨h, h2⟩; exact ⟨_, ⟨h, rfl⟩, by cases g; simp_all⟩

/-! ### Panics -/

theorem expandop_panic_iff (o : Op) : expandop o = .panic ↔
    ∃ ps, o = .parts ps ∧ .nil ∉ ps ∧ (∃ c, .alt [c] ∈ ps) ∧
      ∃ n, 1 < n ∧ (∃ cs, .alt cs ∈ ps ∧ cs.length = n) ∧ ∀ cs, .alt cs ∈ ps → cs.length = 1 ∨ cs.length = n := by
  cases o with
  | nil => simp [expandop]
  | opcode s => simp [expandop]
  | parts ps =>
    simp only [expandop, expandopcodeparts, Op.parts.injEq, exists_eq_left']
    constructor
    · intro h
      split at h
      · simp at h
      · rw [Res.bind_eq_panic] at h
        rcases h with h | ⟨n, hc, h⟩
        · exact absurd h (partsCount_ne_panic _ _)
        · split at h
          · simp at h
          · rename_i hn
            obtain ⟨c1, c2, c3, c4⟩ := partsCount_ok (by omega) hc
            obtain ⟨i, hi, hp⟩ := forRes_panic h
            obtain ⟨cs, hcs, hlen⟩ := buildAlt_panic hp
            rw [List.mem_range] at hi
            have hz := c1 _ (mem_partSizes.2 ⟨cs, hcs, rfl⟩)
            refine ⟨?_, ?_, n, by omega, ?_, ?_⟩
            · intro hnil
              -- the pass for i = 0 reports the nil part
              have : forRes (fun i => buildAlt i [] ps) (List.range n) = .err (.unexpectedType nilType) := by
                obtain ⟨k, rfl⟩ : ∃ k, n = k + 1 := ⟨n - 1, by omega⟩
                rw [List.range_succ_eq_map]
                simp only [forRes]
                cases hb : buildAlt 0 [] ps with
                | ok s => exact absurd hnil (buildAlt_ok.1 hb).1.1
                | err e => rw [(buildAlt_err hb).2]; rfl
                | panic =>
                  obtain ⟨cs', h1, h2⟩ := buildAlt_panic hb
                  have := c1 _ (mem_partSizes.2 ⟨cs', h1, rfl⟩)
                  omega
              rw [this] at h
              simp at h
            · have : cs.length = 1 := by omega
              obtain ⟨c, rfl⟩ := List.length_eq_one_iff.1 this
              exact ⟨c, hcs⟩
            · rcases c4 with c4 | c4
              · omega
              · obtain ⟨cs', h1, h2⟩ := mem_partSizes.1 c4
                exact ⟨cs', h1, h2.symm⟩
            · intro cs' hcs'
              have := c1 _ (mem_partSizes.2 ⟨cs', hcs', rfl⟩)
              omega
    · rintro ⟨hnil, ⟨c, hc⟩, n, hn, ⟨cs, hcs, hlen⟩, hall⟩
      have hlen0 : ps.length ≠ 0 := by
        intro h0; rw [List.length_eq_zero_iff.1 h0] at hc; simp at hc
      rw [if_neg hlen0]
      have hcount : ∀ (l : List OpPart) (k : Nat), (∀ cs, .alt cs ∈ l → cs.length = 1 ∨ cs.length = n) → (k = 1 ∨ k = n) →
          (k = n ∨ ∃ cs, .alt cs ∈ l ∧ cs.length = n) → partsCount k l = .ok n := by
        intro l
        induction l with
        | nil => intro k _ _ hk; simpa [partsCount] using hk
        | cons p l ih =>
          intro k hl hk hex
          cases p with
          | alt as =>
            have ha := hl as (by simp)
            have hr : ∃ k', resolvecounts k as.length = .ok k' ∧ k' = max k as.length := by
              clear hex
              unfold resolvecounts
              rw [if_neg (by omega), if_neg (by omega)]
              split
              · exact ⟨_, rfl, by omega⟩
              · exact ⟨_, rfl, by omega⟩
            obtain ⟨k', hr, hk'⟩ := hr
            simp only [partsCount, hr, Res.bind_ok]
            apply ih k' (fun cs h => hl cs (by simp [h])) (by clear hex; omega)
            rcases hex with hex | ⟨cs, h1, h2⟩
            · left; omega
            · simp only [List.mem_cons, OpPart.alt.injEq] at h1
              rcases h1 with rfl | h1
              · left; omega
              · exact .inr ⟨cs, h1, h2⟩
          | opcode s =>
            exact ih k (fun cs h => hl cs (by simp [h])) hk (by simpa using hex)
          | nil =>
            exact ih k (fun cs h => hl cs (by simp [h])) hk (by simpa using hex)
      rw [hcount ps 1 hall (.inl rfl) (.inr ⟨cs, hcs, hlen⟩), Res.bind_ok, if_neg (by omega)]
      obtain ⟨k, rfl⟩ : ∃ k, n = k + 2 := ⟨n - 2, by omega⟩
      rw [List.range_succ_eq_map, List.range_succ_eq_map]
      simp only [List.map_cons, forRes]
      have hb0 : ∃ s, buildAlt 0 [] ps = .ok s := ⟨_, buildAlt_ok.2 ⟨⟨hnil, fun cs h => by
        have := hall cs h; omega⟩, rfl⟩⟩
      obtain ⟨s, hs⟩ := hb0
      have hb1 : buildAlt 1 [] ps = .panic := by
        cases hb : buildAlt 1 [] ps with
        | panic => rfl
        | ok s => have := (buildAlt_ok.1 hb).1.2 _ hc; simp at this
        | err e => exact absurd (buildAlt_err hb).1 hnil
      rw [hs, Res.bind_ok, show Nat.succ 0 = 1 from rfl, hb1]
      rfl

theorem resolvecounts_ne_panic (m n : Nat) : resolvecounts m n ≠ .panic := by
  unfold resolvecounts
  repeat' split
  all_goals simp

mutual
theorem expandvalue_panic (v : Value) (h : expandvalue v = .panic) : ∃ o ∈ opsOf v, expandop o = .panic := by
  cases v with
  | nil => simp [expandvalue] at h
  | expr e => simp [expandvalue] at h
  | var x => simp [expandvalue] at h
  | sexpr hd args =>
    have h0 := h
    simp only [expandvalue, Res.bind_eq_panic] at h
    rcases h with h | ⟨ops, h1, h | ⟨⟨n, ex⟩, h2, h3⟩⟩
    · exact ⟨hd.op, by simp [opsOf], h⟩
    · obtain ⟨o, ho, hp⟩ := expandargs_panic args _ h
      exact ⟨o, by simp [opsOf, ho], hp⟩
    · have hm : Meaningful (.sexpr hd args) :=
        meaningful_sexpr.2 ⟨expandop_ok_meaningful h1, expandargs_ok_meaningful _ _ _ h2⟩
      rcases expandvalue_meaningful _ hm with ⟨_, e⟩ | ⟨_, _, _, _, _, e⟩ <;> (rw [e] at h0; simp at h0)
theorem expandargs_panic (args : List Value) (n : Nat) (h : expandargs n args = .panic) :
    ∃ o ∈ opsOfs args, expandop o = .panic := by
  cases args with
  | nil => simp [expandargs] at h
  | cons a as =>
    simp only [expandargs, Res.bind_eq_panic] at h
    rcases h with h | ⟨ex, h1, h | ⟨n', h2, h | ⟨_, _, h3⟩⟩⟩
    · obtain ⟨o, ho, hp⟩ := expandvalue_panic a h
      exact ⟨o, by simp [opsOfs, ho], hp⟩
    · exact absurd h (resolvecounts_ne_panic _ _)
    · obtain ⟨o, ho, hp⟩ := expandargs_panic as _ h
      exact ⟨o, by simp [opsOfs, ho], hp⟩
    · simp at h3
end

theorem expandrule_panic {r : Rule} (h : expandrule r = .panic) :
    ∃ o ∈ opsOf r.match ++ opsOf r.result, expandop o = .panic := by
  have h0 := h
  simp only [expandrule, Res.bind_eq_panic] at h
  rcases h with h | ⟨ms, h1, h | ⟨rs, h2, h3⟩⟩
  · obtain ⟨o, ho, hp⟩ := expandvalue_panic _ h
    exact ⟨o, by simp [ho], hp⟩
  · obtain ⟨o, ho, hp⟩ := expandvalue_panic _ h
    exact ⟨o, by simp [ho], hp⟩
  · have hm : RuleMeaningful r := ⟨expandvalue_ok_meaningful _ _ h1, expandvalue_ok_meaningful _ _ h2⟩
    rcases expandrule_meaningful r hm with ⟨_, e⟩ | ⟨_, _, _, _, _, e⟩ <;> (rw [e] at h0; simp at h0)

theorem expandAlternates_panic {f : File} (h : expandAlternates f = .panic) :
    ∃ r ∈ f.rules, ∃ o ∈ opsOf r.match ++ opsOf r.result, expandop o = .panic := by
  simp only [expandAlternates, expandrules, Res.bind_eq_panic] at h
  rcases h with (h | ⟨_, _, h⟩) | ⟨_, _, h⟩
  · obtain ⟨r, hr, hp⟩ := forRes_panic h
    exact ⟨r, hr, expandrule_panic hp⟩
  · simp at h
  · simp at h

/-! ### What picking preserves -/

mutual
theorem opsOf_mapOps (f : Op → Op) (v : Value) : opsOf (mapOps f v) = (opsOf v).map f := by
  cases v with
  | sexpr h args => simp [opsOf, mapOps, opsOfs_mapOpss f args]
  | _ => rfl
theorem opsOfs_mapOpss (f : Op → Op) (vs : List Value) : opsOfs (mapOpss f vs) = (opsOfs vs).map f := by
  cases vs with
  | nil => rfl
  | cons v vs => simp [opsOfs, mapOpss, opsOf_mapOps f v, opsOfs_mapOpss f vs]
end

mutual
theorem mapOps_mapOps (f g : Op → Op) (v : Value) : mapOps f (mapOps g v) = mapOps (fun o => f (g o)) v := by
  cases v with
  | sexpr h args => simp [mapOps, mapOpss_mapOpss f g args]
  | _ => rfl
theorem mapOpss_mapOpss (f g : Op → Op) (vs : List Value) : mapOpss f (mapOpss g vs) = mapOpss (fun o => f (g o)) vs := by
  cases vs with
  | nil => rfl
  | cons v vs => simp [mapOpss, mapOps_mapOps f g v, mapOpss_mapOpss f g vs]
end

mutual
theorem nil_mem_valuesOf_mapOps (f : Op → Op) (v : Value) : .nil ∈ valuesOf (mapOps f v) ↔ .nil ∈ valuesOf v := by
  cases v with
  | sexpr h args => simp [valuesOf, mapOps, nil_mem_valuesOfs_mapOpss f args]
  | _ => rfl
theorem nil_mem_valuesOfs_mapOpss (f : Op → Op) (vs : List Value) : .nil ∈ valuesOfs (mapOpss f vs) ↔ .nil ∈ valuesOfs vs := by
  cases vs with
  | nil => rfl
  | cons v vs => simp [valuesOfs, mapOpss, nil_mem_valuesOf_mapOps f v, nil_mem_valuesOfs_mapOpss f vs]
end

theorem plain_meaningful {o : Op} (h : Plain o) : OpMeaningful o ∧ opSizes o = [] := by
  cases o <;> simp_all [Plain, OpMeaningful, opSizes]

theorem pick_meaningful {v : Value} (h : Meaningful v) (i : Nat) :
    Meaningful (mapOps (pickOp i) v) ∧ (∀ o ∈ opsOf (mapOps (pickOp i) v), Plain o) ∧ sizes (mapOps (pickOp i) v) = [] := by
  have hp : ∀ o ∈ opsOf (mapOps (pickOp i) v), Plain o := by
    intro o ho
    rw [opsOf_mapOps, List.mem_map] at ho
    obtain ⟨o', ho', rfl⟩ := ho
    rw [pickOp_eq (h.2 o' ho')]
    trivial
  refine ⟨⟨by rw [nil_mem_valuesOf_mapOps]; exact h.1, fun o ho => (plain_meaningful (hp o ho)).1⟩, hp, ?_⟩
  simp only [sizes, List.flatMap_eq_nil_iff]
  exact fun o ho => (plain_meaningful (hp o ho)).2

/-- A rule all of whose opcodes are plain is its own expansion. -/
theorem expansion_plain {r : Rule} (h : RuleMeaningful r) (hs : ruleSizes r = []) : expansion r = [r] := by
  have h' := expandrule_ok_iff.2 ⟨h, by simp [hs, Agree], rfl⟩
  simp only [ruleSizes, List.append_eq_nil_iff] at hs
  simp [expansion, ruleSizes, hs.1, hs.2, count, pickRule, mapRuleOps, pick_of_no_sizes h.1 hs.1, pick_of_no_sizes h.2 hs.2]

theorem pickRule_plain {r : Rule} (h : RuleMeaningful r) (i : Nat) :
    RuleMeaningful (pickRule i r) ∧ RulePlain (pickRule i r) ∧ ruleSizes (pickRule i r) = [] := by
  obtain ⟨a1, a2, a3⟩ := pick_meaningful h.1 i
  obtain ⟨b1, b2, b3⟩ := pick_meaningful h.2 i
  refine ⟨⟨a1, b1⟩, ?_, by simp [ruleSizes, pickRule, mapRuleOps, a3, b3]⟩
  intro o ho
  rw [List.mem_append] at ho
  rcases ho with ho | ho
  · exact a2 o ho
  · exact b2 o ho

mutual
theorem subValue_mapOps (f : Op → Op) (v : Value) (h : Hdr) (args : List Value) (hs : SubValue v (.sexpr h args)) :
    SubValue (mapOps f v) (mapOps f (.sexpr h args)) := by
  cases hs with
  | self => exact .self _
  | @arg h' as a _ ha hs' =>
    have := subValues_mapOpss f as a ha h args hs'
    rw [mapOps]
    exact .arg this.1 this.2
theorem subValues_mapOpss (f : Op → Op) (vs : List Value) (a : Value) (ha : a ∈ vs) (h : Hdr) (args : List Value)
    (hs : SubValue a (.sexpr h args)) :
    mapOps f a ∈ mapOpss f vs ∧ SubValue (mapOps f a) (mapOps f (.sexpr h args)) := by
  cases vs with
  | nil => simp at ha
  | cons v vs =>
    by_cases hav : a = v
    · subst hav
      exact ⟨by simp [mapOpss], subValue_mapOps f a h args hs⟩
    · have ha' : a ∈ vs := by
        rw [List.mem_cons] at ha; rcases ha with ha | ha
        · exact absurd ha hav
        · exact ha
      have := subValues_mapOpss f vs a ha' h args hs
      exact ⟨by simp [mapOpss, this.1], this.2⟩
end

theorem subValue_of_mapOps (f : Op → Op) (v w : Value) (hs : SubValue (mapOps f v) w) :
    ∃ w', w = mapOps f w' ∧ SubValue v w' := by
  generalize hv : mapOps f v = v' at hs
  induction hs generalizing v with
  | self v' => exact ⟨v, hv.symm, .self _⟩
  | @arg h args a w ha _ ih =>
    cases v with
    | sexpr h0 args0 =>
      simp only [mapOps, Value.sexpr.injEq, mapOpss_map] at hv
      obtain ⟨_, rfl⟩ := hv
      obtain ⟨a0, ha0, rfl⟩ := List.mem_map.1 ha
      obtain ⟨w', h1, h2⟩ := ih a0 rfl
      exact ⟨w', h1, .arg ha0 h2⟩
    | _ => simp [mapOps] at hv

theorem ruleHas_mapRuleOps (P : Hdr → Prop) (hP : ∀ h o, P { h with op := o } ↔ P h) (f : Op → Op) (r : Rule) :
    RuleHas P (mapRuleOps f r) ↔ RuleHas P r := by
  constructor
  · rintro ⟨h, args, hp, hs | hs⟩ <;>
    · obtain ⟨w', e, hs'⟩ := subValue_of_mapOps f _ _ hs
      cases w' with
      | sexpr h' args' =>
        simp only [mapOps, Value.sexpr.injEq] at e
        refine ⟨h', args', ?_, ?_⟩
        · rw [e.1, hP] at hp; exact hp
        · first | exact .inl hs' | exact .inr hs'
      | _ => simp [mapOps] at e
  · rintro ⟨h, args, hp, hs | hs⟩
    · exact ⟨_, _, (hP h (f h.op)).2 hp, .inl (subValue_mapOps f _ _ _ hs)⟩
    · exact ⟨_, _, (hP h (f h.op)).2 hp, .inr (subValue_mapOps f _ _ _ hs)⟩

/-! ### Meaningful trees have no nil -/

mutual
theorem meaningful_flatValue (v : Value) (h : Meaningful v) : .nil ∉ flatValue v := by
  cases v with
  | nil => simp [Meaningful, valuesOf] at h
  | expr e => simp [flatValue]
  | var x => simp [flatValue]
  | sexpr hd args =>
    obtain ⟨h1, h2⟩ := meaningful_sexpr.1 h
    have ho : .nil ∉ flatOp hd.op := by
      cases hop : hd.op with
      | nil => rw [hop] at h1; simp [OpMeaningful] at h1
      | opcode s => simp [flatOp, Op.toNode]
      | parts ps =>
        rw [hop] at h1
        simp only [flatOp, List.mem_cons, reduceCtorEq, List.mem_map, false_or, not_exists, not_and]
        intro p hp
        cases p with
        | nil => exact absurd hp h1.1
        | _ => simp [OpPart.toNode]
    simp [flatValue, ho, meaningful_flatValues args h2]
theorem meaningful_flatValues (vs : List Value) (h : ∀ v ∈ vs, Meaningful v) : .nil ∉ flatValues vs := by
  cases vs with
  | nil => simp [flatValues]
  | cons v vs =>
    simp only [List.forall_mem_cons] at h
    simp [flatValues, meaningful_flatValue v h.1, meaningful_flatValues vs h.2]
end

theorem meaningful_noNil {r : Rule} (h : RuleMeaningful r) : NoNil (.rule r) := by
  rw [NoNil, ← mem_flat_iff]
  simp [flat, meaningful_flatValue _ h.1, meaningful_flatValue _ h.2]

end Verif

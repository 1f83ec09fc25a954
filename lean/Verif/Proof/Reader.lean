import Verif.Spec.Reader
/-!
# Reading the input: lemmas for C63
-/
namespace Verif.Proof

open Verif Verif.Spec

variable {σ : Type} {grow : Nat → Nat} {rd : Reader σ}

theorem moreRoom_take {arr : List UInt8} {len : Nat} (h : len ≤ arr.length) : (moreRoom grow arr len).take len = arr.take len := by
  unfold moreRoom
  split
  · exact List.take_append_of_le_length h
  · rfl

theorem moreRoom_length (hg : ∀ c, c < grow c) {arr : List UInt8} {len : Nat} (h : len ≤ arr.length) : len < (moreRoom grow arr len).length := by
  unfold moreRoom
  have := hg arr.length
  split
  · simp only [List.length_append, List.length_replicate]; omega
  · omega

theorem stored_length (p w : List UInt8) : (stored p w).length = p.length := by
  unfold stored
  simp only [List.length_append, List.length_take, List.length_drop]
  omega

theorem stored_take {p w : List UInt8} {n : Nat} (h1 : n ≤ p.length) (h2 : n ≤ w.length) : (stored p w).take n = w.take n := by
  unfold stored
  rw [List.take_append_of_le_length (by rw [List.length_take]; omega), List.take_take, Nat.min_eq_left h1]

/-- One round of the loop with a fair call. -/
theorem readLoop_fair {arr : List UInt8} {len : Nat} {s : σ} {c : ReadCall σ} {p : List UInt8} (hl : len ≤ arr.length)
    (hp : (moreRoom grow arr len).drop len = p) (hc : rd s p = some c) (hf : Fair p c) :
    ∃ arr', len + c.n.toNat ≤ arr'.length ∧ arr'.take (len + c.n.toNat) = arr.take len ++ delivered c ∧
      ∀ k, readLoop grow rd (k + 1) arr len s =
        match c.err with
        | none => readLoop grow rd k arr' (len + c.n.toNat) c.next
        | some .eof => some (.ok (arr.take len ++ delivered c))
        | some (.err e) => some (.err e) := by
  obtain ⟨h0, h1, h2⟩ := hf
  have ht := moreRoom_take (grow := grow) hl
  have hlt : ((moreRoom grow arr len).take len).length = len := by rw [ht, List.length_take, Nat.min_eq_left hl]
  have hsl := stored_length p c.stored
  have htk : ((moreRoom grow arr len).take len ++ stored p c.stored).take (len + c.n.toNat) = arr.take len ++ delivered c := by
    rw [List.take_append, List.take_of_length_le (by omega), hlt, Nat.add_sub_cancel_left, stored_take (by omega) (by omega), ht]
    rfl
  refine ⟨(moreRoom grow arr len).take len ++ stored p c.stored, by rw [List.length_append, hlt, hsl]; omega, htk, fun k => ?_⟩
  have hm : ((len : Int) + c.n).toNat = len + c.n.toNat := by omega
  have hno : ¬ ((len : Int) + c.n < 0 ∨ (((moreRoom grow arr len).take len ++ stored p c.stored).length : Int) < len + c.n) := by
    rw [List.length_append, hlt, hsl]; omega
  rw [readLoop]
  simp only [hp, hc]
  rw [if_neg hno, hm, htk]
  cases c.err with
  | none => rfl
  | some x => cases x <;> rfl

theorem room_ne {arr : List UInt8} {len : Nat} (hg : ∀ c, c < grow c) (hl : len ≤ arr.length) : (moreRoom grow arr len).drop len ≠ [] := by
  intro h
  have := moreRoom_length hg hl
  have h2 := congrArg List.length h
  simp only [List.length_drop, List.length_nil] at h2
  omega

/-- What the loop returns for what the reader holds. -/
def endResult (e : ReadEnd) (bs : List UInt8) : Res (List UInt8) :=
  match e with
  | .eof => .ok bs
  | .err e => .err e

theorem delivered_length {c : ReadCall σ} {p : List UInt8} (hf : Fair p c) : (delivered c).length = c.n.toNat := by
  obtain ⟨h0, h1, h2⟩ := hf
  unfold delivered
  rw [List.length_take]
  omega

theorem readLoop_holds (hg : ∀ c, c < grow c) {s : σ} {bs : List UInt8} {e : ReadEnd} (h : Holds rd s bs e) :
    ∀ (arr : List UInt8) (len : Nat), len ≤ arr.length → Returns (fun k => readLoop grow rd k arr len s) (endResult e (arr.take len ++ bs)) := by
  induction h with
  | @intro s bs e works fair next goesOn ends ih =>
    intro arr len hl
    have hne := room_ne hg hl
    obtain ⟨c, hc⟩ := works _ hne
    have hf := fair _ c hne hc
    have hd := delivered_length hf
    cases he : c.err with
    | some x =>
      obtain ⟨rfl, hx⟩ := ends _ c x hne hc he
      obtain ⟨arr', _, _, h3⟩ := readLoop_fair (grow := grow) hl rfl hc hf
      have hr : ∀ k, readLoop grow rd (k + 1) arr len s = some (endResult x (arr.take len ++ bs)) := by
        intro k
        rw [h3, he, hx]
        cases x <;> rfl
      refine ⟨⟨1, hr 0⟩, fun k r' hk => ?_⟩
      cases k with
      | zero => cases hk
      | succ k => exact Option.some.inj (hk.symm.trans (hr k))
    | none =>
      obtain ⟨arr', ha, h2, h3⟩ := readLoop_fair (grow := grow) hl rfl hc hf
      have hb : arr'.take (len + c.n.toNat) ++ bs.drop (delivered c).length = arr.take len ++ bs := by
        rw [h2, List.append_assoc]
        obtain ⟨t, ht⟩ := next _ c hne hc
        rw [← ht, List.drop_left]
      have hk : ∀ k, readLoop grow rd (k + 1) arr len s = readLoop grow rd k arr' (len + c.n.toNat) c.next := by
        intro k
        rw [h3, he]
      have hi := ih _ c hne hc he arr' _ ha
      rw [hb] at hi
      refine ⟨?_, fun k r' hr => ?_⟩
      · obtain ⟨k, hk'⟩ := hi.1
        exact ⟨k + 1, (hk k).trans hk'⟩
      · cases k with
        | zero => cases hr
        | succ k => exact hi.2 k r' ((hk k).symm.trans hr)

theorem readAllBytes_holds (hg : ∀ c, c < grow c) {s : σ} {bs : List UInt8} {e : ReadEnd} (h : Holds rd s bs e) :
    Returns (fun k => readAllBytes grow rd k s) (endResult e bs) :=
  readLoop_holds hg h _ 0 (Nat.zero_le _)

theorem Returns.map {α β : Type} {f : Nat → Option α} {r : α} (h : Returns f r) (g : α → β) : Returns (fun k => (f k).map g) (g r) := by
  refine ⟨?_, fun k r' hk => ?_⟩
  · obtain ⟨k, hk⟩ := h.1
    exact ⟨k, by show (f k).map g = _; rw [hk]; rfl⟩
  · have hk : (f k).map g = some r' := hk
    cases hf : f k with
    | none => rw [hf] at hk; cases hk
    | some x =>
      rw [hf] at hk
      cases hk
      rw [h.2 k x hf]

/-- A conversation, from what the loop returns. -/
theorem readLoop_conversation (hg : ∀ c, c < grow c) (hf : ∀ s p c, p ≠ [] → rd s p = some c → Fair p c) (hw : ∀ s p, p ≠ [] → ∃ c, rd s p = some c) :
    ∀ (k : Nat) (s : σ) (arr : List UInt8) (len : Nat) (r : Res (List UInt8)), len ≤ arr.length → readLoop grow rd k arr len s = some r →
      ∃ bs e, Conversation rd s bs e ∧ r = endResult e (arr.take len ++ bs) := by
  intro k
  induction k with
  | zero => intro s arr len r _ h; cases h
  | succ k ih =>
    intro s arr len r hl h
    have hne := room_ne hg hl
    obtain ⟨c, hc⟩ := hw s _ hne
    obtain ⟨arr', h1, h2, h3⟩ := readLoop_fair (grow := grow) hl rfl hc (hf s _ c hne hc)
    rw [h3] at h
    cases he : c.err with
    | some x =>
      refine ⟨delivered c, x, .last hne hc he, ?_⟩
      rw [he] at h
      cases x <;> cases h <;> rfl
    | none =>
      rw [he] at h
      obtain ⟨bs, e, hcv, hr⟩ := ih c.next arr' _ r h1 h
      exact ⟨delivered c ++ bs, e, .more hne hc he hcv, by rw [hr, h2, List.append_assoc]⟩

/-- The loop does not notice that the reader is strict. -/
theorem readLoop_strict (hg : ∀ c, c < grow c) :
    ∀ (k : Nat) (s : σ) (arr : List UInt8) (len : Nat), len ≤ arr.length → readLoop grow (strict rd) k arr len (s, false) = readLoop grow rd k arr len s := by
  intro k
  induction k with
  | zero => intro s arr len _; rfl
  | succ k ih =>
    intro s arr len hl
    have hne := room_ne hg hl
    have hst : strict rd (s, false) ((moreRoom grow arr len).drop len) =
        (rd s ((moreRoom grow arr len).drop len)).map fun c => ⟨c.stored, c.n, c.err, (c.next, c.err.isSome)⟩ := by
      unfold strict
      rw [if_neg (by simp [hne])]
    rw [readLoop, readLoop]
    simp only [hst]
    cases hc : rd s ((moreRoom grow arr len).drop len) with
    | none => rfl
    | some c =>
      simp only [Option.map_some]
      by_cases hm : (len : Int) + c.n < 0 ∨ (((moreRoom grow arr len).take len ++ stored ((moreRoom grow arr len).drop len) c.stored).length : Int) < len + c.n
      · rw [if_pos hm, if_pos hm]
      · rw [if_neg hm, if_neg hm]
        cases he : c.err with
        | some x => cases x <;> rfl
        | none => exact ih _ _ _ (by omega)

/-- A string reader holds the rest of its string. -/
theorem stringReader_holds (bs : List UInt8) : ∀ (i : Nat), i ≤ bs.length → Holds stringReader (bs, i) (bs.drop i) .eof := by
  intro i
  induction hn : bs.length - i using Nat.strongRecOn generalizing i with
  | ind n ih =>
    intro hi
    by_cases hle : bs.length ≤ i
    · have hr : ∀ p, stringReader (bs, i) p = some ⟨[], 0, some .eof, (bs, i)⟩ := fun p => if_pos hle
      have hnil : bs.drop i = [] := List.drop_eq_nil_of_le hle
      rw [hnil]
      refine .intro (fun p _ => ⟨_, hr p⟩) ?_ ?_ ?_ ?_
      · intro p c _ hc; rw [hr] at hc; cases hc; exact ⟨by simp, by simp, by simp⟩
      · intro p c _ hc; rw [hr] at hc; cases hc; exact List.prefix_rfl
      · intro p c _ hc he; rw [hr] at hc; cases hc; cases he
      · intro p c e' _ hc he; rw [hr] at hc; cases hc; cases he; exact ⟨rfl, rfl⟩
    · have hr : ∀ p, stringReader (bs, i) p = some ⟨(bs.drop i).take p.length, ((bs.drop i).take p.length).length, none, (bs, i + ((bs.drop i).take p.length).length)⟩ :=
        fun p => if_neg hle
      have hdel : ∀ p : List UInt8, delivered (⟨(bs.drop i).take p.length, ((bs.drop i).take p.length).length, none, (bs, i + ((bs.drop i).take p.length).length)⟩ : ReadCall (List UInt8 × Nat)) =
          (bs.drop i).take p.length := by
        intro p
        unfold delivered
        simp only [Int.toNat_natCast, List.take_length]
      refine .intro (fun p _ => ⟨_, hr p⟩) ?_ ?_ ?_ ?_
      · intro p c _ hc; rw [hr] at hc; cases hc
        refine ⟨by simp, ?_, by simp⟩
        simp only [List.length_take]; omega
      · intro p c _ hc; rw [hr] at hc; cases hc; rw [hdel]; exact List.take_prefix _ _
      · intro p c hp hc he; rw [hr] at hc; cases hc
        rw [hdel, List.drop_drop]
        have hpl : 0 < p.length := List.length_pos_iff.2 hp
        have hll : ((bs.drop i).take p.length).length = min p.length (bs.length - i) := by rw [List.length_take, List.length_drop]
        exact ih (bs.length - (i + ((bs.drop i).take p.length).length)) (by omega) _ rfl (by omega)
      · intro p c e' _ hc he; rw [hr] at hc; cases hc; cases he

end Verif.Proof

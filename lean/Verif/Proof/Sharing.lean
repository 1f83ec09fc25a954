import Verif.Spec.Sharing
import Verif.Proof.ExpandHeap
/-!
# Sharing after an expansion: lemmas for C64
-/
namespace Verif

open Verif.Spec

/-! ## Inversion of computations on the heap that return -/

theorem HM.bind_ok {α β : Type} {x : HM α} {f : α → HM β} {h h' : Heap} {b : β} (e : (x >>= f) h = some (.ok b, h')) :
    ∃ a h1, x h = some (.ok a, h1) ∧ f a h1 = some (.ok b, h') := by
  change HM.bind x f h = _ at e
  unfold HM.bind at e
  split at e
  · exact ⟨_, _, by assumption, e⟩
  · cases e
  · cases e
  · cases e

theorem HM.lift_ok {α : Type} {r : Res α} {h h' : Heap} {a : α} (e : HM.lift r h = some (.ok a, h')) : r = .ok a ∧ h' = h := by
  cases e; exact ⟨rfl, rfl⟩

theorem HM.pure_ok {α : Type} {x : α} {h h' : Heap} {a : α} (e : HM.pure x h = some (.ok a, h')) : a = x ∧ h' = h := by
  cases e; exact ⟨rfl, rfl⟩

theorem HM.read_ok {a : Addr} {h h' : Heap} {c : Cell} (e : HM.read a h = some (.ok c, h')) : h[a]? = some c ∧ h' = h := by
  unfold HM.read at e
  split at e
  · cases e; exact ⟨by assumption, rfl⟩
  · cases e

theorem HM.write_ok {a : Addr} {c : Cell} {h h' : Heap} {u : Unit} (e : HM.write a c h = some (.ok u, h')) : a < h.length ∧ h' = h.set a c := by
  unfold HM.write at e
  split at e
  · cases e; exact ⟨by assumption, rfl⟩
  · cases e

theorem HM.alloc_ok {c : Cell} {h h' : Heap} {a : Addr} (e : HM.alloc c h = some (.ok a, h')) : a = h.length ∧ h' = h ++ [c] := by
  cases e; exact ⟨rfl, rfl⟩

/-- A loop whose body allocates `c` cells in each round. -/
theorem forH_alloc {α β : Type} {f : α → HM β} {c : Nat} {Post : Heap → Nat → α → β → Prop}
    (hmono : ∀ h h' a x b, h <+: h' → Post h a x b → Post h' a x b)
    (hf : ∀ h x b h', f x h = some (.ok b, h') → h <+: h' ∧ h'.length = h.length + c ∧ Post h' h.length x b) :
    ∀ (xs : List α) (h h' : Heap) (bs : List β), forH f xs h = some (.ok bs, h') →
      h <+: h' ∧ bs.length = xs.length ∧ h'.length = h.length + c * xs.length ∧
        ∀ (k : Nat) x b, xs[k]? = some x → bs[k]? = some b → Post h' (h.length + c * k) x b := by
  intro xs
  induction xs with
  | nil =>
    intro h h' bs e
    obtain ⟨rfl, rfl⟩ := HM.pure_ok e
    exact ⟨List.prefix_rfl, rfl, rfl, by simp⟩
  | cons x xs ih =>
    intro h h' bs e
    obtain ⟨b, h1, e1, e2⟩ := HM.bind_ok e
    obtain ⟨bs', h2, e3, e4⟩ := HM.bind_ok e2
    obtain ⟨rfl, rfl⟩ := HM.pure_ok e4
    obtain ⟨p1, l1, q1⟩ := hf _ _ _ _ e1
    obtain ⟨p2, l2, l3, q2⟩ := ih _ _ _ e3
    refine ⟨p1.trans p2, by simp [l2], by rw [l3, l1, List.length_cons, Nat.mul_succ]; omega, ?_⟩
    intro k y d hy hd
    cases k with
    | zero =>
      simp only [List.getElem?_cons_zero, Option.some.injEq] at hy hd
      subst hy; subst hd
      exact hmono _ _ _ _ _ p2 q1
    | succ k =>
      have := q2 k y d (by simpa using hy) (by simpa using hd)
      rw [l1] at this
      have e : h.length + c + c * k = h.length + c * (k + 1) := by rw [Nat.mul_succ]; omega
      rwa [e] at this

/-- What one round of the loop over S-expressions leaves. -/
def SPost (hd : Hdr) (expargs : List (List HVal)) (h' : Heap) (a i : Nat) (b : HVal) : Prop :=
  b = .sexpr a ∧ ∃ o args, h'[a]? = some (.sexpr { hd with op := .opcode o } (a + 1)) ∧ h'[a + 1]? = some (.values args) ∧
    forRes (fun alts => getIdx alts (idx i alts.length)) expargs = .ok args

theorem hbuildSExpr_post {hd : Hdr} {arr : Addr} {ops : List Str} {expargs : List (List HVal)} {i : Nat} {h h' : Heap} {b : HVal}
    (e : hbuildSExpr hd arr ops expargs i h = some (.ok b, h')) : h <+: h' ∧ h'.length = h.length + 2 ∧ SPost hd expargs h' h.length i b := by
  unfold hbuildSExpr at e
  obtain ⟨v, h1, e1, f1⟩ := HM.bind_ok e
  obtain ⟨rfl, rfl⟩ := HM.alloc_ok e1
  obtain ⟨o, h2, e2, f2⟩ := HM.bind_ok f1
  obtain ⟨_, rfl⟩ := HM.lift_ok e2
  obtain ⟨_, h3, e3, f3⟩ := HM.bind_ok f2
  obtain ⟨_, rfl⟩ := HM.write_ok e3
  obtain ⟨args, h4, e4, f4⟩ := HM.bind_ok f3
  obtain ⟨hargs, rfl⟩ := HM.lift_ok e4
  obtain ⟨arr', h5, e5, f5⟩ := HM.bind_ok f4
  obtain ⟨rfl, rfl⟩ := HM.alloc_ok e5
  obtain ⟨_, h6, e6, f6⟩ := HM.bind_ok f5
  obtain ⟨_, rfl⟩ := HM.write_ok e6
  obtain ⟨rfl, rfl⟩ := HM.pure_ok f6
  have hh : ((((h ++ [Cell.sexpr hd arr]).set h.length (.sexpr { hd with op := .opcode o } arr)) ++ [Cell.values args]).set h.length
      (.sexpr { hd with op := .opcode o } ((h ++ [Cell.sexpr hd arr]).set h.length (.sexpr { hd with op := .opcode o } arr)).length)) =
      h ++ [.sexpr { hd with op := .opcode o } (h.length + 1), .values args] := by simp
  rw [hh]
  refine ⟨List.prefix_append _ _, by simp, rfl, o, args, by simp, by simp, hargs⟩

/-! ## `Parts` -/

mutual
theorem Parts_mono {h h' h'' : Heap} (hp : h' <+: h'') {v : Value} {a b : HVal} {L : List Addr} (hr : Parts h h' v a b L) : Parts h h'' v a b L := by
  cases hr with
  | same h1 => exact .same h1
  | copy h1 h2 h3 h4 h5 h6 h7 h8 => exact .copy h1 h2 h3 h4 h5 (getElem?_of_prefix hp h6) (getElem?_of_prefix hp h7) (PartsL_mono hp h8)
theorem PartsL_mono {h h' h'' : Heap} (hp : h' <+: h'') {vs : List Value} {as bs : List HVal} {L : List Addr} (hr : PartsL h h' vs as bs L) : PartsL h h'' vs as bs L := by
  cases hr with
  | nil => exact .nil
  | cons h1 h2 => exact .cons (Parts_mono hp h1) (PartsL_mono hp h2)
end

/-- A family of lists of cells: all cells are from an interval, and no cell occurs twice. -/
structure Apart (lo hi : Nat) (L : Nat → List Nat) : Prop where
  nodup : ∀ i, (L i).Nodup
  disj : ∀ i j, i ≠ j → ∀ a ∈ L i, a ∉ L j
  range : ∀ i, ∀ a ∈ L i, lo ≤ a ∧ a < hi

theorem Apart.empty (lo hi : Nat) : Apart lo hi (fun _ => []) := ⟨by simp, by simp, by simp⟩

theorem Apart.append {lo mid hi : Nat} {L M : Nat → List Nat} (hL : Apart lo mid L) (hM : Apart mid hi M) (h1 : lo ≤ mid) (h2 : mid ≤ hi) : Apart lo hi (fun i => L i ++ M i) := by
  refine ⟨fun i => ?_, fun i j hij a ha hb => ?_, fun i a ha => ?_⟩
  · rw [List.nodup_append]
    refine ⟨hL.nodup i, hM.nodup i, ?_⟩
    intro a ha b hb hab
    have := hL.range i a ha
    have := hM.range i b hb
    omega
  · rw [List.mem_append] at ha hb
    rcases ha with ha | ha <;> rcases hb with hb | hb
    · exact hL.disj i j hij a ha hb
    · have := hL.range i a ha; have := hM.range j a hb; omega
    · have := hM.range i a ha; have := hL.range j a hb; omega
    · exact hM.disj i j hij a ha hb
  · rw [List.mem_append] at ha
    rcases ha with ha | ha
    · have := hL.range i a ha; omega
    · have := hM.range i a ha; omega

theorem Apart.weaken {lo hi lo' hi' : Nat} {L : Nat → List Nat} (hL : Apart lo hi L) (h1 : lo' ≤ lo) (h2 : hi ≤ hi') : Apart lo' hi' L :=
  ⟨hL.nodup, hL.disj, fun i a ha => by have := hL.range i a ha; omega⟩

/-- Consecutive blocks of `c` cells each, behind given cells. -/
theorem Apart.blocks {lo mid : Nat} {M : Nat → List Nat} (hM : Apart lo mid M) (h1 : lo ≤ mid) (c n : Nat) (B : Nat → List Nat)
    (hB : ∀ i, i < n → (B i).Nodup ∧ ∀ a ∈ B i, mid + c * i ≤ a ∧ a < mid + c * i + c) :
    Apart lo (mid + c * n) (fun i => if i < n then B i ++ M i else []) := by
  have hblock : ∀ i, i < n → c * i + c ≤ c * n := by
    intro i hi
    rw [← Nat.mul_succ]
    exact Nat.mul_le_mul_left c hi
  have hne : ∀ i j, i < j → c * i + c ≤ c * j := by
    intro i j hij
    rw [← Nat.mul_succ]
    exact Nat.mul_le_mul_left c hij
  refine ⟨fun i => ?_, fun i j hij a ha hb => ?_, fun i a ha => ?_⟩
  · split
    · rename_i hi
      rw [List.nodup_append]
      refine ⟨(hB i hi).1, hM.nodup i, ?_⟩
      intro a ha b hb hab
      have := (hB i hi).2 a ha
      have := hM.range i b hb
      omega
    · simp
  · split at ha
    · split at hb
      · rename_i hi hj
        rw [List.mem_append] at ha hb
        rcases ha with ha | ha <;> rcases hb with hb | hb
        · have := (hB i hi).2 a ha; have := (hB j hj).2 a hb
          rcases Nat.lt_or_gt_of_ne hij with h | h
          · have := hne i j h; omega
          · have := hne j i h; omega
        · have := (hB i hi).2 a ha; have := hM.range j a hb; omega
        · have := (hB j hj).2 a hb; have := hM.range i a ha; omega
        · exact hM.disj i j hij a ha hb
      · simp at hb
    · simp at ha
  · split at ha
    · rename_i hi
      rw [List.mem_append] at ha
      have := hblock i hi
      rcases ha with ha | ha
      · have := (hB i hi).2 a ha; omega
      · have := hM.range i a ha; omega
    · simp at ha

/-- What the expansion of a value gives: a list of values made from it. -/
def VOut (h0 h h' : Heap) (v : Value) (hv : HVal) (hvs : List HVal) : Prop :=
  h <+: h' ∧ ∃ L : Nat → List Nat, Apart h.length h'.length L ∧ ∀ i x, getIdx hvs (idx i hvs.length) = .ok x → Parts h0 h' v hv x (L i)

theorem getIdx_ok {α : Type} {xs : List α} {i : Nat} {x : α} (h : getIdx xs i = .ok x) : xs[i]? = some x := by
  unfold getIdx at h
  split at h
  · cases h; assumption
  · cases h

theorem prefix_len {h h' : Heap} (hp : h <+: h') : h.length ≤ h'.length := hp.length_le

/-- The arguments. -/
theorem hexpandargs_out {h0 : Heap} {ev : HVal → HM (List HVal)} : ∀ (as : List HVal) (vs : List Value),
    (∀ h h' a v hvs, v ∈ vs → h0 <+: h → RepV h0 a v → ev a h = some (.ok hvs, h') → VOut h0 h h' v a hvs) →
    ∀ n h h' m ex, h0 <+: h → RepVs h0 as vs → hexpandargs ev n as h = some (.ok (m, ex), h') →
      h <+: h' ∧ ∃ M : Nat → List Nat, Apart h.length h'.length M ∧
        ∀ i xs, forRes (fun alts : List HVal => getIdx alts (idx i alts.length)) ex = .ok xs → PartsL h0 h' vs as xs (M i) := by
  intro as
  induction as with
  | nil =>
    intro vs _ n h h' m ex _ hr e
    cases hr
    obtain ⟨hx, rfl⟩ := HM.pure_ok e
    cases hx
    refine ⟨List.prefix_rfl, fun _ => [], Apart.empty _ _, fun i xs hxs => ?_⟩
    cases hxs
    exact .nil
  | cons a as ih =>
    intro vs hev n h h' m ex h0p hr e
    cases hr with
    | @cons _ v _ vs h1 h2 =>
      unfold hexpandargs at e
      obtain ⟨exparg, ha, e1, f1⟩ := HM.bind_ok e
      obtain ⟨n', hb, e2, f2⟩ := HM.bind_ok f1
      obtain ⟨_, rfl⟩ := HM.lift_ok e2
      obtain ⟨r, hc, e3, f3⟩ := HM.bind_ok f2
      obtain ⟨hx, rfl⟩ := HM.pure_ok f3
      obtain ⟨p1, L, hL, hparts⟩ := hev h _ a v exparg (by simp) h0p h1 e1
      obtain ⟨r1, r2⟩ := r
      obtain ⟨p2, M, hM, hpartsL⟩ := ih vs (fun h h' a v hvs hv => hev h h' a v hvs (by simp [hv])) n' _ _ r1 r2 (h0p.trans p1) h2 e3
      cases hx
      refine ⟨p1.trans p2, fun i => L i ++ M i, hL.append hM (prefix_len p1) (prefix_len p2), fun i xs hxs => ?_⟩
      rw [forRes_eq_ok] at hxs
      cases xs with
      | nil => simp at hxs
      | cons x xs =>
        simp only [List.map_cons, List.cons.injEq] at hxs
        exact .cons (Parts_mono p2 (hparts i x hxs.1)) (hpartsL i xs (forRes_eq_ok.2 hxs.2))

/-- The length of a successful expansion. -/
theorem hexpandvalue_count {fuel : Nat} {v : Value} {h h' : Heap} {hv : HVal} {hvs : List HVal} (hd : depth v ≤ fuel) (hr : RepV h hv v)
    (e : hexpandvalue fuel hv h = some (.ok hvs, h')) : (hvs.length = 1 ↔ sizes v = []) ∧ (hvs.length = 1 → hvs = [hv]) := by
  obtain ⟨ra, h1, e1, _, hres⟩ := hexpandvalue_refines fuel v h hv hd hr
  rw [e] at e1
  cases e1
  cases hx : expandvalue v with
  | err x => rw [hx] at hres; cases hres
  | panic => rw [hx] at hres; cases hres
  | ok vs =>
    rw [hx] at hres
    obtain ⟨a, ha, hrv⟩ := hres
    cases ha
    refine ⟨?_, hrv.2⟩
    have hm := expandvalue_ok_meaningful v vs hx
    rcases expandvalue_meaningful v hm with ⟨_, e⟩ | ⟨_, _, _, _, _, e⟩
    · rw [e] at hx
      cases hx
      rw [(relList_repVs.2 hrv.1).length_eq, List.length_map, List.length_range]
      exact count_eq_one (sizes_ge hm)
    · rw [e] at hx; cases hx

/-- Nothing to expand: the value itself. -/
theorem VOut.same {h0 h h' : Heap} {v : Value} {hv : HVal} (hp : h <+: h') (hs : sizes v = []) : VOut h0 h h' v hv [hv] := by
  refine ⟨hp, fun _ => [], Apart.empty _ _, fun i x hx => ?_⟩
  have := getIdx_ok hx
  simp only [idx, List.length_cons, List.length_nil, Nat.zero_add, if_true] at this
  cases this
  exact .same hs

theorem hexpandvalue_out (fuel : Nat) : ∀ (v : Value) (h0 h h' : Heap) (hv : HVal) (hvs : List HVal), depth v ≤ fuel → h0 <+: h → RepV h0 hv v →
    hexpandvalue fuel hv h = some (.ok hvs, h') → VOut h0 h h' v hv hvs := by
  induction fuel with
  | zero => intro v _ _ _ _ _ hd; cases v <;> simp [depth] at hd
  | succ fuel ih =>
    intro v h0 h h' hv hvs hd hp hr e
    obtain ⟨hc1, hc2⟩ := hexpandvalue_count hd (RepV_mono hp hr) e
    by_cases hs : sizes v = []
    · have h1 := hc1.2 hs
      rw [hc2 h1]
      obtain ⟨ra, h2, e2, hpp, _⟩ := hexpandvalue_refines (fuel + 1) v h hv hd (RepV_mono hp hr)
      rw [e] at e2
      cases e2
      exact VOut.same hpp hs
    · cases hr with
      | nil => cases e
      | expr x => exact absurd rfl hs
      | var x => exact absurd rfl hs
      | @sexpr p hd' arr as vs h1 h2 h3 =>
        have hdep : ∀ v ∈ vs, depth v ≤ fuel := by
          intro v hv
          have := depth_le_depths hv
          simp only [depth] at hd
          omega
        unfold hexpandvalue at e
        obtain ⟨c1, ha, e1, f1⟩ := HM.bind_ok e
        obtain ⟨hc1', rfl⟩ := HM.read_ok e1
        rw [getElem?_of_prefix hp h1] at hc1'
        cases hc1'
        dsimp only at f1
        obtain ⟨ops, hb, e2, f2⟩ := HM.bind_ok f1
        obtain ⟨_, rfl⟩ := HM.lift_ok e2
        obtain ⟨c2, hcc, e3, f3⟩ := HM.bind_ok f2
        obtain ⟨hc2', rfl⟩ := HM.read_ok e3
        rw [getElem?_of_prefix hp h2] at hc2'
        cases hc2'
        dsimp only at f3
        obtain ⟨⟨n, ex⟩, hm, e4, f4⟩ := HM.bind_ok f3
        obtain ⟨p1, M, hM, hargs⟩ := hexpandargs_out (h0 := h0) (ev := hexpandvalue fuel) as vs
          (fun h h' a v hvs hv hp hr e => ih v h0 h h' a hvs (hdep v hv) hp hr e) _ _ _ _ _ hp h3 e4
        by_cases hn : n = 1
        · simp only [if_pos hn] at f4
          obtain ⟨rfl, rfl⟩ := HM.pure_ok f4
          exact absurd (hc1.1 rfl) hs
        · simp only [if_neg hn] at f4
          obtain ⟨p2, l1, l2, hpost⟩ := forH_alloc (c := 2) (Post := SPost hd' ex)
            (by
              rintro h h' a x b hp ⟨rfl, o, args, g1, g2, g3⟩
              exact ⟨rfl, o, args, getElem?_of_prefix hp g1, getElem?_of_prefix hp g2, g3⟩)
            (fun h x b h' e => hbuildSExpr_post e) _ _ _ _ f4
          rw [List.length_range] at l1 l2
          have hblocks := Apart.blocks hM (prefix_len p1) 2 n (fun i => [hm.length + 2 * i, hm.length + 2 * i + 1]) (by
            intro i _
            refine ⟨by simp, ?_⟩
            intro a ha
            simp only [List.mem_cons, List.not_mem_nil, or_false] at ha
            omega)
          rw [← l2] at hblocks
          refine ⟨p1.trans p2, _, hblocks, ?_⟩
          intro i x hx
          have hx := getIdx_ok hx
          have hi : idx i hvs.length = i := by unfold idx; rw [if_neg (fun h => hs (hc1.1 h))]
          rw [hi] at hx
          have hin : i < n := by
            have := (List.getElem?_eq_some_iff.1 hx).1
            omega
          obtain ⟨rfl, o, args, g1, g2, g3⟩ := hpost i i x (by simp [hin]) hx
          rw [if_pos hin]
          have hge : h0.length ≤ hm.length := prefix_len (hp.trans p1)
          exact .copy hs h1 h2 (by omega) (by omega) g1 g2 (PartsL_mono p2 (hargs i args g3))

/-! ## Rules -/

/-- What one round of the loop over rules leaves. -/
def RPost (cond : Option GoExpr) (block : Str) (ms rs : List HVal) (h' : Heap) (a i : Nat) (b : Addr) : Prop :=
  b = a ∧ ∃ m v, h'[a]? = some (.rule m cond block v) ∧ getIdx ms (idx i ms.length) = .ok m ∧ getIdx rs (idx i rs.length) = .ok v

theorem hbuildRule_post {cond : Option GoExpr} {block : Str} {ms rs : List HVal} {i : Nat} {h h' : Heap} {b : Addr}
    (e : hbuildRule cond block ms rs i h = some (.ok b, h')) : h <+: h' ∧ h'.length = h.length + 1 ∧ RPost cond block ms rs h' h.length i b := by
  unfold hbuildRule at e
  obtain ⟨m, h1, e1, f1⟩ := HM.bind_ok e
  obtain ⟨g1, rfl⟩ := HM.lift_ok e1
  obtain ⟨v, h2, e2, f2⟩ := HM.bind_ok f1
  obtain ⟨g2, rfl⟩ := HM.lift_ok e2
  obtain ⟨rfl, rfl⟩ := HM.alloc_ok f2
  exact ⟨List.prefix_append _ _, by simp, rfl, m, v, by simp, g1, g2⟩

/-- The outcome for one rule. -/
def ROut (h0 h' : Heap) (r : Rule) (q q' : Addr) (L : List Nat) : Prop :=
  (ruleSizes r = [] ∧ q' = q ∧ L = []) ∨ (ruleSizes r ≠ [] ∧ NewRule h0 h' r q q' L)

theorem NewRule_mono {h h' h'' : Heap} (hp : h' <+: h'') {r : Rule} {q q' : Addr} {L : List Addr} (hr : NewRule h h' r q q' L) : NewRule h h'' r q q' L := by
  obtain ⟨m, res, m', res', Lm, Lr, g1, g2, g3, g4, g5, g6⟩ := hr
  exact ⟨m, res, m', res', Lm, Lr, g1, g2, getElem?_of_prefix hp g3, Parts_mono hp g4, Parts_mono hp g5, g6⟩

theorem ROut_mono {h h' h'' : Heap} (hp : h' <+: h'') {r : Rule} {q q' : Addr} {L : List Nat} (hr : ROut h h' r q q' L) : ROut h h'' r q q' L := by
  rcases hr with hr | ⟨h1, h2⟩
  · exact .inl hr
  · exact .inr ⟨h1, NewRule_mono hp h2⟩

theorem hexpandrule_out (fuel : Nat) (r : Rule) (h0 h h' : Heap) (q : Addr) (grp : List Addr) (h1 : depth r.match ≤ fuel) (h2 : depth r.result ≤ fuel) (hp : h0 <+: h)
    (hr : RepRule h0 q r) (e : hexpandrule fuel q h = some (.ok grp, h')) :
    h <+: h' ∧ ∃ L : Nat → List Nat, Apart h.length h'.length L ∧ ∀ i q', grp[i]? = some q' → ROut h0 h' r q q' (L i) := by
  obtain ⟨m, res, hc, hm, hres⟩ := hr
  unfold hexpandrule at e
  obtain ⟨c, ha, e1, f1⟩ := HM.bind_ok e
  obtain ⟨hc', rfl⟩ := HM.read_ok e1
  rw [getElem?_of_prefix hp hc] at hc'
  cases hc'
  dsimp only at f1
  obtain ⟨ms, hb, e2, f2⟩ := HM.bind_ok f1
  obtain ⟨rs, hd, e3, f3⟩ := HM.bind_ok f2
  obtain ⟨n, hk, e4, f4⟩ := HM.bind_ok f3
  obtain ⟨hn, rfl⟩ := HM.lift_ok e4
  obtain ⟨p1, Lm, aM, hM⟩ := hexpandvalue_out fuel _ h0 _ _ _ _ h1 hp hm e2
  obtain ⟨p2, Lr, aR, hR⟩ := hexpandvalue_out fuel _ h0 _ _ _ _ h2 (hp.trans p1) hres e3
  have c1 := (hexpandvalue_count h1 (RepV_mono hp hm) e2).1
  have c2 := (hexpandvalue_count h2 (RepV_mono (hp.trans p1) hres) e3).1
  obtain ⟨n1, n2, n3, n4⟩ := resolvecounts_pos hn
  have hsz : n = 1 ↔ ruleSizes r = [] := by
    unfold ruleSizes
    rw [List.append_eq_nil_iff, ← c1, ← c2]
    omega
  by_cases hn1 : n = 1
  · rw [if_pos hn1] at f4
    obtain ⟨rfl, rfl⟩ := HM.pure_ok f4
    refine ⟨p1.trans p2, fun _ => [], Apart.empty _ _, fun i q' hq => .inl ⟨hsz.1 hn1, ?_, rfl⟩⟩
    cases i with
    | zero => exact (Option.some.inj hq).symm
    | succ i => simp at hq
  · rw [if_neg hn1] at f4
    obtain ⟨p3, l1, l2, hpost⟩ := forH_alloc (c := 1) (Post := RPost r.condition r.block ms rs)
      (by
        rintro h h' a x b hp ⟨rfl, m, v, g1, g2, g3⟩
        exact ⟨rfl, m, v, getElem?_of_prefix hp g1, g2, g3⟩)
      (fun h x b h' e => hbuildRule_post e) _ _ _ _ f4
    rw [List.length_range] at l1 l2
    have hblocks := Apart.blocks (aM.append aR (prefix_len p1) (prefix_len p2)) (prefix_len (p1.trans p2)) 1 n (fun i => [hk.length + 1 * i]) (by
      intro i _
      refine ⟨by simp, ?_⟩
      intro a ha
      simp only [List.mem_cons, List.not_mem_nil, or_false] at ha
      omega)
    rw [← l2] at hblocks
    refine ⟨(p1.trans p2).trans p3, _, hblocks, fun i q' hq => .inr ⟨fun hs => hn1 (hsz.2 hs), ?_⟩⟩
    have hin : i < n := by
      have := (List.getElem?_eq_some_iff.1 hq).1
      omega
    obtain ⟨rfl, m', v', g1, g2, g3⟩ := hpost i i q' (by simp [hin]) hq
    rw [if_pos hin]
    have hge := prefix_len (hp.trans (p1.trans p2))
    exact ⟨m, res, m', v', Lm i, Lr i, hc, Nat.le_trans hge (Nat.le_add_right _ _), g1, Parts_mono (p2.trans p3) (hM i m' g2), Parts_mono p3 (hR i v' g3), rfl⟩

/-- A family of families of lists of cells. -/
structure Apart2 (lo hi : Nat) (L : Nat → Nat → List Nat) : Prop where
  nodup : ∀ j i, (L j i).Nodup
  disj : ∀ j i j' i', (j ≠ j' ∨ i ≠ i') → ∀ a ∈ L j i, a ∉ L j' i'
  range : ∀ j i, ∀ a ∈ L j i, lo ≤ a ∧ a < hi

theorem Apart2.cons {lo mid hi : Nat} {L : Nat → List Nat} {M : Nat → Nat → List Nat} (hL : Apart lo mid L) (hM : Apart2 mid hi M) (h1 : lo ≤ mid) (h2 : mid ≤ hi) :
    Apart2 lo hi (fun j => match j with | 0 => L | j + 1 => M j) := by
  refine ⟨?_, ?_, ?_⟩
  · intro j i
    cases j with
    | zero => exact hL.nodup i
    | succ j => exact hM.nodup j i
  · intro j i j' i' hne a ha hb
    cases j with
    | zero =>
      cases j' with
      | zero => exact hL.disj i i' (by omega) a ha hb
      | succ j' =>
        have := hL.range i a ha
        have := hM.range j' i' a hb
        omega
    | succ j =>
      cases j' with
      | zero =>
        have := hL.range i' a hb
        have := hM.range j i a ha
        omega
      | succ j' => exact hM.disj j i j' i' (by omega) a ha hb
  · intro j i a ha
    cases j with
    | zero => have := hL.range i a ha; omega
    | succ j => have := hM.range j i a ha; omega

theorem hexpandrules_out (fuel : Nat) (h0 : Heap) : ∀ (ps : List Addr) (rs : List Rule) (h h' : Heap) (gs : List (List Addr)),
    (∀ r ∈ rs, depth r.match ≤ fuel ∧ depth r.result ≤ fuel) → h0 <+: h → RelList (RepRule h0) ps rs → forH (hexpandrule fuel) ps h = some (.ok gs, h') →
    h <+: h' ∧ ∃ own : Nat → Nat → List Nat, Apart2 h.length h'.length own ∧
      ∀ (j : Nat) r q g, rs[j]? = some r → ps[j]? = some q → gs[j]? = some g → ∀ (i : Nat) q', g[i]? = some q' → ROut h0 h' r q q' (own j i) := by
  intro ps
  induction ps with
  | nil =>
    intro rs h h' gs _ _ hr e
    obtain ⟨rfl, rfl⟩ := HM.pure_ok e
    exact ⟨List.prefix_rfl, fun _ _ => [], ⟨by simp, by simp, by simp⟩, by simp⟩
  | cons p ps ih =>
    intro rs h h' gs hd hp hr e
    cases hr with
    | @cons _ r _ rs h1 h2 =>
      simp only [List.forall_mem_cons] at hd
      obtain ⟨g, ha, e1, f1⟩ := HM.bind_ok e
      obtain ⟨gs', hb, e2, f2⟩ := HM.bind_ok f1
      obtain ⟨rfl, rfl⟩ := HM.pure_ok f2
      obtain ⟨p1, L, aL, hL⟩ := hexpandrule_out fuel r h0 h ha p g hd.1.1 hd.1.2 hp h1 e1
      obtain ⟨p2, M, aM, hM⟩ := ih rs ha _ gs' hd.2 (hp.trans p1) h2 e2
      refine ⟨p1.trans p2, _, Apart2.cons aL aM (prefix_len p1) (prefix_len p2), ?_⟩
      intro j r' q' g' hj1 hj2 hj3 i q'' hq
      cases j with
      | zero =>
        simp only [List.getElem?_cons_zero, Option.some.injEq] at hj1 hj2 hj3
        subst hj1; subst hj2; subst hj3
        exact ROut_mono p2 (hL i q'' hq)
      | succ j =>
        simp only [List.getElem?_cons_succ] at hj1 hj2 hj3
        exact hM j r' q' g' hj1 hj2 hj3 i q'' hq

/-! ## The write to the file -/

theorem getElem?_set_new {h h' : Heap} {p : Nat} {c d : Cell} {q : Nat} (hp : p < h.length) (hq : h.length ≤ q) (hc : h'[q]? = some c) : (h'.set p d)[q]? = some c := by
  rw [List.getElem?_set_ne (by omega)]
  exact hc

mutual
theorem Parts_set {h h' : Heap} {p : Nat} {d : Cell} (hp : p < h.length) {v : Value} {a b : HVal} {L : List Addr} (hr : Parts h h' v a b L) : Parts h (h'.set p d) v a b L := by
  cases hr with
  | same h1 => exact .same h1
  | copy h1 h2 h3 h4 h5 h6 h7 h8 => exact .copy h1 h2 h3 h4 h5 (getElem?_set_new hp h4 h6) (getElem?_set_new hp h5 h7) (PartsL_set hp h8)
theorem PartsL_set {h h' : Heap} {p : Nat} {d : Cell} (hp : p < h.length) {vs : List Value} {as bs : List HVal} {L : List Addr} (hr : PartsL h h' vs as bs L) :
    PartsL h (h'.set p d) vs as bs L := by
  cases hr with
  | nil => exact .nil
  | cons h1 h2 => exact .cons (Parts_set hp h1) (PartsL_set hp h2)
end

theorem NewRule_set {h h' : Heap} {p : Nat} {d : Cell} (hp : p < h.length) {r : Rule} {q q' : Addr} {L : List Addr} (hr : NewRule h h' r q q' L) : NewRule h (h'.set p d) r q q' L := by
  obtain ⟨m, res, m', res', Lm, Lr, g1, g2, g3, g4, g5, g6⟩ := hr
  exact ⟨m, res, m', res', Lm, Lr, g1, g2, getElem?_set_new hp g2 g3, Parts_set hp g4, Parts_set hp g5, g6⟩

/-! ## What can be reached -/

/-- The heap `h'` agrees with `h` on what was there, but for the file `p`. -/
def Grown (h h' : Heap) (p : Addr) : Prop := (∃ arr, h[p]? = some (.file arr)) ∧ ∀ a : Nat, a < h.length → a ≠ p → h'[a]? = h[a]?

theorem Grown.get {h h' : Heap} {p a : Addr} {c : Cell} (hg : Grown h h' p) (hc : h[a]? = some c) (hn : ∀ arr, c ≠ .file arr) : h'[a]? = some c := by
  obtain ⟨⟨arr, hp⟩, hall⟩ := hg
  rw [hall a (List.getElem?_eq_some_iff.1 hc).1 ?_]
  · exact hc
  · rintro rfl
    rw [hc] at hp
    cases hp
    exact hn arr rfl

mutual
theorem reach_old {h h' : Heap} {p : Addr} (hg : Grown h h' p) {hv : HVal} {v : Value} (hr : RepV h hv v) {a : Nat} (ha : ReachV h' hv a) : a < h.length := by
  cases hr with
  | nil => cases ha
  | expr e => cases ha
  | var x => cases ha
  | sexpr h1 h2 h3 =>
    cases ha with
    | here => exact (List.getElem?_eq_some_iff.1 h1).1
    | array g1 =>
      rw [hg.get h1 (by intro arr; simp)] at g1
      cases g1
      exact (List.getElem?_eq_some_iff.1 h2).1
    | arg g1 g2 g3 =>
      rw [hg.get h1 (by intro arr; simp)] at g1
      cases g1
      rw [hg.get h2 (by intro arr; simp)] at g2
      cases g2
      exact reachs_old hg h3 g3
theorem reachs_old {h h' : Heap} {p : Addr} (hg : Grown h h' p) {hvs : List HVal} {vs : List Value} (hr : RepVs h hvs vs) {a : Nat} (ha : ReachVs h' hvs a) : a < h.length := by
  cases hr with
  | nil => cases ha
  | cons h1 h2 =>
    cases ha with
    | head g => exact reach_old hg h1 g
    | tail g => exact reachs_old hg h2 g
end

mutual
theorem reach_parts {h h' : Heap} {p : Addr} (hg : Grown h h' p) {v : Value} {hv hv' : HVal} {L : List Nat} (hP : Parts h h' v hv hv' L) (hr : RepV h hv v) {a : Nat}
    (ha : ReachV h' hv' a) (hn : h.length ≤ a) : a ∈ L := by
  cases hP with
  | same _ => have := reach_old hg hr ha; omega
  | copy h1 h2 h3 h4 h5 h6 h7 h8 =>
    cases hr with
    | sexpr k1 k2 k3 =>
      rw [h2] at k1
      cases k1
      rw [h3] at k2
      cases k2
      cases ha with
      | here => simp
      | array g1 => rw [h6] at g1; cases g1; simp
      | arg g1 g2 g3 =>
        rw [h6] at g1
        cases g1
        rw [h7] at g2
        cases g2
        exact List.mem_cons_of_mem _ (List.mem_cons_of_mem _ (reach_partsL hg h8 k3 g3 hn))
theorem reach_partsL {h h' : Heap} {p : Addr} (hg : Grown h h' p) {vs : List Value} {hvs hvs' : List HVal} {L : List Nat} (hP : PartsL h h' vs hvs hvs' L) (hr : RepVs h hvs vs) {a : Nat}
    (ha : ReachVs h' hvs' a) (hn : h.length ≤ a) : a ∈ L := by
  cases hP with
  | nil => cases ha
  | cons h1 h2 =>
    cases hr with
    | cons k1 k2 =>
      cases ha with
      | head g => exact List.mem_append_left _ (reach_parts hg h1 k1 g hn)
      | tail g => exact List.mem_append_right _ (reach_partsL hg h2 k2 g hn)
end

theorem reach_rule {h h' : Heap} {p : Addr} (hg : Grown h h' p) {r : Rule} {q q' : Addr} {L : List Nat} (hR : RepRule h q r) (hO : ROut h h' r q q' L) {a : Nat} (ha : ReachRule h' q' a)
    (hn : h.length ≤ a) : a ∈ L := by
  obtain ⟨m, res, k1, k2, k3⟩ := hR
  rcases hO with ⟨_, rfl, rfl⟩ | ⟨_, m0, res0, m', res', Lm, Lr, g1, g2, g3, g4, g5, rfl⟩
  · exfalso
    cases ha with
    | here => have := (List.getElem?_eq_some_iff.1 k1).1; omega
    | «match» e1 e2 =>
      rw [hg.get k1 (by intro arr; simp)] at e1
      cases e1
      have := reach_old hg k2 e2; omega
    | res e1 e2 =>
      rw [hg.get k1 (by intro arr; simp)] at e1
      cases e1
      have := reach_old hg k3 e2; omega
  · rw [g1] at k1
    cases k1
    cases ha with
    | here => simp
    | «match» e1 e2 =>
      rw [g3] at e1
      cases e1
      exact List.mem_cons_of_mem _ (List.mem_append_left _ (reach_parts hg g4 k2 e2 hn))
    | res e1 e2 =>
      rw [g3] at e1
      cases e1
      exact List.mem_cons_of_mem _ (List.mem_append_right _ (reach_parts hg g5 k3 e2 hn))

mutual
theorem RepV_unreached {h : Heap} {a : Nat} {c : Cell} {hv : HVal} {v : Value} (hr : RepV h hv v) (hn : ¬ ReachV h hv a) : RepV (h.set a c) hv v := by
  cases hr with
  | nil => exact .nil
  | expr e => exact .expr e
  | var x => exact .var x
  | @sexpr p hd arr hvs vs h1 h2 h3 =>
    have e1 : a ≠ p := fun e => hn (e ▸ .here)
    have e2 : a ≠ arr := fun e => hn (e ▸ .array h1)
    refine .sexpr (by rw [List.getElem?_set_ne e1]; exact h1) (by rw [List.getElem?_set_ne e2]; exact h2) (RepVs_unreached h3 fun hr => hn (.arg h1 h2 hr))
theorem RepVs_unreached {h : Heap} {a : Nat} {c : Cell} {hvs : List HVal} {vs : List Value} (hr : RepVs h hvs vs) (hn : ¬ ReachVs h hvs a) : RepVs (h.set a c) hvs vs := by
  cases hr with
  | nil => exact .nil
  | cons h1 h2 => exact .cons (RepV_unreached h1 fun hr => hn (.head hr)) (RepVs_unreached h2 fun hr => hn (.tail hr))
end

theorem RepRule_unreached {h : Heap} {a : Nat} {c : Cell} {q : Addr} {r : Rule} (hr : RepRule h q r) (hn : ¬ ReachRule h q a) : RepRule (h.set a c) q r := by
  obtain ⟨m, res, h1, h2, h3⟩ := hr
  have e1 : a ≠ q := fun e => hn (e ▸ .here)
  exact ⟨m, res, by rw [List.getElem?_set_ne e1]; exact h1, RepV_unreached h2 fun hr => hn (.match h1 hr), RepV_unreached h3 fun hr => hn (.res h1 hr)⟩

end Verif

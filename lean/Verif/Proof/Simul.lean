import Verif.Spec.Simul
import Verif.Proof.Disk
/-!
# Lemmas about simultaneous runs (C69)
-/
namespace Verif.Proof
open Verif Verif.Spec

theorem putAt_length (c : List UInt8) (k : Nat) (b : UInt8) : (putAt c k b).length = max c.length (k + 1) := by
  unfold putAt
  split
  · rw [List.length_set]; omega
  · simp only [List.length_append, List.length_replicate, List.length_singleton]; omega

theorem putAt_get (c : List UInt8) (k : Nat) (b : UInt8) (i : Nat) :
    (putAt c k b)[i]? = if i = k then some b else if i < c.length then c[i]? else if i < k then some 0 else none := by
  unfold putAt
  by_cases hk : k < c.length
  · rw [if_pos hk, List.getElem?_set]
    by_cases h : i = k
    · subst h; simp [hk]
    · rw [if_neg (Ne.symm h), if_neg h]
      by_cases hi : i < c.length
      · rw [if_pos hi]
      · rw [if_neg hi, if_neg (by omega), List.getElem?_eq_none (by omega)]
  · rw [if_neg hk, List.append_assoc]
    by_cases hi : i < c.length
    · rw [List.getElem?_append_left hi, if_neg (by omega), if_pos hi]
    · rw [List.getElem?_append_right (by omega), if_neg hi]
      by_cases h2 : i < k
      · rw [List.getElem?_append_left (by simp; omega), List.getElem?_replicate, if_pos (by omega), if_neg (by omega), if_pos h2]
      · rw [List.getElem?_append_right (by simp; omega), List.length_replicate]
        by_cases h : i = k
        · subst h; simp
        · rw [if_neg h, if_neg h2, List.getElem?_eq_none (by simp; omega)]

theorem putAt_patchy {c D : List UInt8} {k : Nat} {b : UInt8} (h : Patchy c D) (hb : D[k]? = some b) : Patchy (putAt c k b) D := by
  have hk : k < D.length := (List.getElem?_eq_some_iff.1 hb).1
  refine ⟨by rw [putAt_length]; have := h.1; omega, fun i x hx => ?_⟩
  rw [putAt_get] at hx
  split at hx
  · rename_i e; subst e; right; rw [hb, hx]
  · split at hx
    · exact h.2 i x hx
    · split at hx
      · simp at hx; exact .inl hx.symm
      · simp at hx

theorem ops_append (d : Disk) (a b : List FileOp) : d.ops (a ++ b) = (d.ops a).ops b := by simp [Disk.ops]

/-- The operations on one place. -/
def atPlace (p : List Str) (l : List FileOp) : List FileOp := l.filter fun o => o.place = p

theorem op_other {d : Disk} {o : FileOp} {p : List Str} (h : o.place ≠ p) : d.op o p = d p := by
  cases o with
  | trunc q => simp only [Disk.op]; rw [if_neg]; intro e; exact h e.symm
  | put q pos b => simp only [Disk.op]; rw [if_neg]; intro e; exact h e.symm

theorem putsFrom_length (p : List Str) : ∀ (k : Nat) (D : List UInt8), (putsFrom p k D).length = D.length
  | _, [] => rfl
  | k, b :: D => by simp [putsFrom, putsFrom_length p (k + 1) D]

theorem putsFrom_drop {p : List Str} {k : Nat} {D : List UInt8} {a : FileOp} {l : List FileOp} (h : a :: l = putsFrom p k (D.drop k)) :
    ∃ b, D[k]? = some b ∧ a = .put p k b ∧ l = putsFrom p (k + 1) (D.drop (k + 1)) := by
  by_cases hk : k < D.length
  · rw [List.drop_eq_getElem_cons hk, putsFrom] at h
    simp only [List.cons.injEq] at h
    exact ⟨D[k], List.getElem?_eq_getElem hk, h.1, h.2⟩
  · rw [List.drop_eq_nil_of_le (by omega)] at h
    simp [putsFrom] at h

/-- A process that writes `D` to `p` once, or does not touch it. -/
def Once (p : List Str) (D : List UInt8) (l : List FileOp) : Prop := atPlace p l = [] ∨ atPlace p l = .trunc p :: putsFrom p 0 D

/-- What is left of it. -/
def Left (p : List Str) (D : List UInt8) (l : List FileOp) : Prop :=
  atPlace p l = .trunc p :: putsFrom p 0 D ∨ ∃ k, k ≤ D.length ∧ atPlace p l = putsFrom p k (D.drop k)

theorem Once.left {p D l} (h : Once p D l) : Left p D l := by
  rcases h with h | h
  · exact .inr ⟨D.length, Nat.le_refl _, by rw [h, List.drop_length]; rfl⟩
  · exact .inl h

theorem set_get {α : Type} {l : List α} {j : Nat} {x y : α} (h : l[j]? = some x) (i : Nat) :
    (l.set j y)[i]? = if i = j then some y else l[i]? := by
  rw [List.getElem?_set]
  have hj := (List.getElem?_eq_some_iff.1 h).1
  by_cases e : i = j
  · subst e; simp [hj]
  · rw [if_neg (Ne.symm e), if_neg e]

theorem simul_inv {p : List Str} {D : List UInt8} {progs : List (List FileOp)} {done : List FileOp} {rest : List (List FileOp)}
    (h : Exec progs done rest) (ho : ∀ l ∈ progs, Once p D l) (d : Disk) :
    (d.ops done p = d p ∧ ∀ (j : Nat), (rest[j]?).map (atPlace p) = (progs[j]?).map (atPlace p)) ∨
    ∃ c, d.ops done p = some c ∧ Patchy c D ∧ (∀ (j : Nat) l, rest[j]? = some l → Left p D l) ∧
      ∃ (j : Nat) (l : List FileOp) (k : Nat), rest[j]? = some l ∧ k ≤ D.length ∧ atPlace p l = putsFrom p k (D.drop k) ∧ ∀ i, i < k → c[i]? = D[i]? := by
  induction h with
  | start => exact .inl ⟨rfl, fun _ => rfl⟩
  | @step rest done l j a _ hj ih =>
    rw [ops_append]
    show ((d.ops done).op a p = d p ∧ _) ∨ ∃ c, (d.ops done).op a p = some c ∧ _
    generalize d.ops done = d1 at ih
    by_cases ha : a.place = p
    · -- an operation on `p`
      have hat : atPlace p (a :: l) = a :: atPlace p l := by simp [atPlace, ha]
      have trunced : ∀ (hl : ∀ (j : Nat) l, rest[j]? = some l → Left p D l), a :: atPlace p l = .trunc p :: putsFrom p 0 D →
          ∃ c, d1.op a p = some c ∧ Patchy c D ∧ (∀ (i : Nat) m, (rest.set j l)[i]? = some m → Left p D m) ∧
          ∃ (i : Nat) (m : List FileOp) (k : Nat), (rest.set j l)[i]? = some m ∧ k ≤ D.length ∧ atPlace p m = putsFrom p k (D.drop k) ∧ ∀ i, i < k → c[i]? = D[i]? := by
        intro hl e
        simp only [List.cons.injEq] at e
        obtain ⟨rfl, e⟩ := e
        refine ⟨[], by simp [Disk.op], ⟨by simp, by simp⟩, ?_, j, l, 0, ?_, by omega, by simpa using e, by omega⟩
        · intro i m hm
          rw [set_get hj] at hm
          split at hm
          · simp only [Option.some.injEq] at hm; subst hm; exact .inr ⟨0, by omega, by simpa using e⟩
          · exact hl i m hm
        · rw [set_get hj, if_pos rfl]
      rcases ih with ⟨e1, e2⟩ | ⟨c, e1, e2, e3, j0, l0, k0, f1, f2, f3, f4⟩
      · right
        have hpl := e2 j
        rw [hj, Option.map_some, hat] at hpl
        cases hp : progs[j]? with
        | none => rw [hp] at hpl; simp at hpl
        | some l' =>
          rw [hp, Option.map_some, Option.some.injEq] at hpl
          refine trunced ?_ ?_
          · intro i m hm
            have := e2 i
            rw [hm, Option.map_some] at this
            cases hp' : progs[i]? with
            | none => rw [hp'] at this; simp at this
            | some m' =>
              rw [hp', Option.map_some, Option.some.injEq] at this
              have h3 := (ho m' (List.mem_of_getElem? hp')).left
              unfold Left at h3 ⊢
              rw [this]; exact h3
          · rcases ho l' (List.mem_of_getElem? hp) with h0 | h0
            · rw [h0] at hpl; simp at hpl
            · rw [hpl, h0]
      · right
        have hlj := e3 j _ hj
        unfold Left at hlj
        rw [hat] at hlj
        rcases hlj with e | ⟨k, hk, e⟩
        · exact trunced e3 e
        · obtain ⟨b, hb, rfl, el⟩ := putsFrom_drop e
          have hk' := (List.getElem?_eq_some_iff.1 hb).1
          refine ⟨putAt c k b, by simp [Disk.op, e1], putAt_patchy e2 hb, ?_, ?_⟩
          · intro i m hm
            rw [set_get hj] at hm
            split at hm
            · simp only [Option.some.injEq] at hm; subst hm; exact .inr ⟨k + 1, hk', el⟩
            · exact e3 i m hm
          · by_cases hj0 : j0 = j
            · subst hj0
              rw [hj, Option.some.injEq] at f1
              subst f1
              rw [hat] at f3
              have hk0 : k0 = k := by
                have h1 := congrArg List.length f3
                have h2 := congrArg List.length e
                rw [putsFrom_length, List.length_drop] at h1 h2
                omega
              subst hk0
              refine ⟨j0, l, k0 + 1, by rw [set_get hj, if_pos rfl], hk', el, ?_⟩
              intro i hi
              rw [putAt_get]
              by_cases hik : i = k0
              · subst hik; rw [if_pos rfl, hb]
              · rw [if_neg hik]
                have h5 := f4 i (by omega)
                have h6 : i < c.length := by
                  apply Classical.byContradiction
                  intro hn
                  rw [List.getElem?_eq_none (by omega), List.getElem?_eq_getElem (by omega)] at h5
                  simp at h5
                rw [if_pos h6, h5]
            · refine ⟨j0, l0, k0, by rw [set_get hj, if_neg hj0, f1], f2, f3, ?_⟩
              intro i hi
              rw [putAt_get]
              by_cases hik : i = k
              · subst hik; rw [if_pos rfl, hb]
              · rw [if_neg hik]
                have h5 := f4 i hi
                have h6 : i < c.length := by
                  apply Classical.byContradiction
                  intro hn
                  rw [List.getElem?_eq_none (by omega), List.getElem?_eq_getElem (by omega)] at h5
                  simp at h5
                rw [if_pos h6, h5]
    · -- an operation elsewhere
      have hat : atPlace p (a :: l) = atPlace p l := by simp [atPlace, ha]
      have hop : d1.op a p = d1 p := op_other ha
      rw [hop]
      rcases ih with ⟨e1, e2⟩ | ⟨c, e1, e2, e3, j0, l0, k0, f1, f2, f3, f4⟩
      · refine .inl ⟨e1, fun i => ?_⟩
        rw [set_get hj]
        split
        · rename_i e; subst e
          rw [← e2, hj, Option.map_some, Option.map_some, hat]
        · exact e2 i
      · refine .inr ⟨c, e1, e2, ?_, ?_⟩
        · intro i m hm
          rw [set_get hj] at hm
          split at hm
          · simp only [Option.some.injEq] at hm; subst hm
            have := e3 j _ hj
            unfold Left at this ⊢
            rwa [hat] at this
          · exact e3 i m hm
        · by_cases hj0 : j0 = j
          · subst hj0
            rw [hj, Option.some.injEq] at f1
            subst f1
            rw [hat] at f3
            exact ⟨j0, l, k0, by rw [set_get hj, if_pos rfl], f2, f3, f4⟩
          · exact ⟨j0, l0, k0, by rw [set_get hj, if_neg hj0, f1], f2, f3, f4⟩

/-- All have finished, and one of them writes `D` to `p`. -/
theorem simul_final {p : List Str} {D : List UInt8} {progs : List (List FileOp)} {done : List FileOp} {rest : List (List FileOp)}
    (h : Exec progs done rest) (hr : ∀ l ∈ rest, l = []) (ho : ∀ l ∈ progs, Once p D l)
    (hw : ∃ l ∈ progs, atPlace p l = .trunc p :: putsFrom p 0 D) (d : Disk) : d.ops done p = some D := by
  rcases simul_inv h ho d with ⟨_, e2⟩ | ⟨c, e1, e2, _, j, l, k, f1, f2, f3, f4⟩
  · obtain ⟨l, hl, e⟩ := hw
    obtain ⟨j, hj, rfl⟩ := List.getElem_of_mem hl
    have := e2 j
    rw [List.getElem?_eq_getElem hj, Option.map_some, e] at this
    cases hp : rest[j]? with
    | none => rw [hp] at this; simp at this
    | some m =>
      rw [hp, hr m (List.mem_of_getElem? hp)] at this
      simp [atPlace] at this
  · rw [hr l (List.mem_of_getElem? f1)] at f3
    have h1 := congrArg List.length f3
    rw [putsFrom_length, List.length_drop] at h1
    simp [atPlace] at h1
    have hk : k = D.length := by omega
    subst hk
    rw [e1]
    congr 1
    apply List.ext_getElem?
    intro i
    by_cases hi : i < D.length
    · exact f4 i hi
    · rw [List.getElem?_eq_none (l := c) (by have := e2.1; omega), List.getElem?_eq_none (l := D) (by omega)]

/-- At every moment. -/
theorem simul_meanwhile {p : List Str} {D : List UInt8} {progs : List (List FileOp)} {done : List FileOp} {rest : List (List FileOp)}
    (h : Exec progs done rest) (ho : ∀ l ∈ progs, Once p D l) (d : Disk) : d.ops done p = d p ∨ ∃ c, d.ops done p = some c ∧ Patchy c D := by
  rcases simul_inv h ho d with ⟨e, _⟩ | ⟨c, e1, e2, _⟩
  · exact .inl e
  · exact .inr ⟨c, e1, e2⟩

theorem simul_untouched {p : List Str} {progs : List (List FileOp)} {done : List FileOp} {rest : List (List FileOp)}
    (h : Exec progs done rest) (ho : ∀ l ∈ progs, atPlace p l = []) (d : Disk) : d.ops done p = d p := by
  have key : d.ops done p = d p ∧ ∀ l ∈ rest, atPlace p l = [] := by
    induction h with
    | start => exact ⟨rfl, ho⟩
    | @step rest done l j a _ hj ih =>
      obtain ⟨e, hl⟩ := ih
      have h1 := hl _ (List.mem_of_getElem? hj)
      have ha : a.place ≠ p := by
        intro ha
        simp [atPlace, ha] at h1
      have hat : atPlace p l = [] := by simpa [atPlace, ha] using h1
      refine ⟨by rw [ops_append]; exact (op_other ha).trans e, fun m hm => ?_⟩
      rcases List.mem_or_eq_of_mem_set hm with hm | rfl
      · exact hl m hm
      · exact hat
  exact key.1

theorem atPlace_append (p : List Str) (a b : List FileOp) : atPlace p (a ++ b) = atPlace p a ++ atPlace p b := by simp [atPlace]

theorem atPlace_puts (p : List Str) : ∀ (k : Nat) (D : List UInt8), atPlace p (putsFrom p k D) = putsFrom p k D
  | _, [] => rfl
  | k, b :: D => by
    rw [putsFrom, atPlace, List.filter_cons, if_pos (by simp [FileOp.place])]
    exact congrArg _ (atPlace_puts p (k + 1) D)

theorem atPlace_puts_other {p q : List Str} (h : q ≠ p) : ∀ (k : Nat) (D : List UInt8), atPlace p (putsFrom q k D) = []
  | _, [] => rfl
  | k, b :: D => by
    rw [putsFrom, atPlace, List.filter_cons, if_neg (by simp [FileOp.place, h])]
    exact atPlace_puts_other h (k + 1) D

/-- Nothing is written to `p`. -/
theorem fileOps_none {cwd : List Str} {p : List Str} {tr : List Event} (h : ∀ w ∈ writesOf tr, locate cwd w.1 ≠ p) : atPlace p (fileOps cwd tr) = [] := by
  induction tr with
  | nil => rfl
  | cons x tr ih =>
    cases x with
    | write n s =>
      replace h : ∀ w ∈ (n, s) :: writesOf tr, locate cwd w.1 ≠ p := h
      have h1 : locate cwd n ≠ p := h (n, s) (by simp)
      rw [fileOps, List.cons_append, atPlace, List.filter_cons, FileOp.place, if_neg (by simpa using h1)]
      show atPlace p (_ ++ _) = []
      rw [atPlace_append, atPlace_puts_other h1, ih (fun w hw => h w (by simp [hw]))]; rfl
    | _ => exact ih h

/-- No place is written twice, and `s` is written to `p`. -/
theorem fileOps_one {cwd : List Str} {p : List Str} {tr : List Event} (hn : ((writesOf tr).map fun w => locate cwd w.1).Nodup) {n s : Str}
    (hw : (n, s) ∈ writesOf tr) (hp : locate cwd n = p) : atPlace p (fileOps cwd tr) = .trunc p :: putsFrom p 0 (utf8 s) := by
  induction tr with
  | nil => simp [writesOf] at hw
  | cons x tr ih =>
    cases x with
    | write m t =>
      replace hn : (((m, t) :: writesOf tr).map fun w => locate cwd w.1).Nodup := hn
      replace hw : (n, s) ∈ (m, t) :: writesOf tr := hw
      rw [List.map_cons, List.nodup_cons] at hn
      rw [List.mem_cons] at hw
      rcases hw with hw | hw
      · simp only [Prod.mk.injEq] at hw
        obtain ⟨rfl, rfl⟩ := hw
        subst hp
        rw [fileOps, List.cons_append, atPlace, List.filter_cons, FileOp.place, if_pos (by simp)]
        show _ :: atPlace _ (_ ++ _) = _
        rw [atPlace_append, atPlace_puts, fileOps_none, List.append_nil]
        intro w hw e
        exact hn.1 (List.mem_map.2 ⟨w, hw, e⟩)
      · have h1 : locate cwd m ≠ p := fun e => hn.1 (List.mem_map.2 ⟨(n, s), hw, hp.trans e.symm⟩)
        rw [fileOps, List.cons_append, atPlace, List.filter_cons, FileOp.place, if_neg (by simpa using h1)]
        show atPlace p (_ ++ _) = _
        rw [atPlace_append, atPlace_puts_other h1, ih hn.2 hw]; rfl
    | _ => exact ih hn hw

/-- The two descriptions of writing agree when nobody interferes. -/
theorem ops_puts (p : List Str) (bs : List UInt8) : ∀ (d : Disk) (c : List UInt8), Disk.ops (setAt d p c) (putsFrom p c.length bs) = setAt d p (c ++ bs) := by
  induction bs with
  | nil => intro d c; simp [Disk.ops, putsFrom]
  | cons b bs ih =>
    intro d c
    show Disk.ops (Disk.op (setAt d p c) (.put p c.length b)) (putsFrom p (c.length + 1) bs) = _
    have e : Disk.op (setAt d p c) (.put p c.length b) = setAt d p (c ++ [b]) := by
      funext q
      simp only [Disk.op, setAt]
      split
      · simp [putAt]
      · rfl
    have h := ih d (c ++ [b])
    rw [List.length_append, List.length_singleton] at h
    rw [e, h]; simp

theorem ops_alone (cwd : List Str) (tr : List Event) : ∀ d : Disk, d.ops (fileOps cwd tr) = d.run (diskSteps cwd tr) := by
  induction tr with
  | nil => intro d; rfl
  | cons x tr ih =>
    intro d
    cases x with
    | write n s =>
      rw [fileOps, diskSteps, run_append, run_write, ops_append, ih]
      congr 1
      show Disk.ops (d.op (.trunc (locate cwd n))) _ = _
      exact ops_puts (locate cwd n) (utf8 s) d []
    | _ => exact ih d

end Verif.Proof

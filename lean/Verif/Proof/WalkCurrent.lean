import Verif.Spec.LiveWalk
/-!
# What an arbitrary visitor gets to see: lemmas for C65
-/
namespace Verif.Spec

open Verif

variable {V σ : Type}

/-- The state at the end. -/
def finalState : Out σ → σ
  | .done s => s
  | .panic s => s

theorem Given.mono {log log' : List (Heap × HNode)} {n : HNode} (h : Given log n) (hs : ∀ x ∈ log, x ∈ log') : Given log' n := by
  obtain ⟨g, k⟩ := h
  exact ⟨g, hs _ k⟩

theorem Current.mono {log log' : List (Heap × HNode)} {h : Heap} {n : HNode} (c : Current log h n) (hs : ∀ x ∈ log, x ∈ log') : Current log' h n := by
  cases c with
  | «match» g e => exact .match (g.mono hs) e
  | «result» g e => exact .result (g.mono hs) e
  | opcode g e => exact .opcode (g.mono hs) e
  | part g e => exact .part (g.mono hs) e
  | firstArg g e1 e2 => exact .firstArg (g.mono hs) e1 e2
  | nextArg g e1 e2 e3 e4 => exact .nextArg (hs _ g) e1 e2 e3 e4
  | firstRule g e1 e2 => exact .firstRule (g.mono hs) e1 e2
  | nextRule g e1 e2 e3 e4 => exact .nextRule (hs _ g) e1 e2 e3 e4

/-- The entries `rest`, appended to `log`, are all current. -/
def AllCurrent (log rest : List (Heap × HNode)) : Prop := ∀ a h x b, rest = a ++ (h, x) :: b → Current (log ++ a) h x

theorem allCurrent_nil (log : List (Heap × HNode)) : AllCurrent log [] := by
  intro a h x b e
  simp at e

theorem allCurrent_cons {log rest : List (Heap × HNode)} {h : Heap} {x : HNode} (c : Current log h x) (r : AllCurrent (log ++ [(h, x)]) rest) :
    AllCurrent log ((h, x) :: rest) := by
  intro a h' x' b e
  cases a with
  | nil => cases e; simpa using c
  | cons y a =>
    cases e
    have := r a h' x' b rfl
    simpa using this

theorem allCurrent_append {log r1 r2 : List (Heap × HNode)} (h1 : AllCurrent log r1) (h2 : AllCurrent (log ++ r1) r2) : AllCurrent log (r1 ++ r2) := by
  induction r1 generalizing log with
  | nil => simpa using h2
  | cons y r1 ih =>
    obtain ⟨h, x⟩ := y
    refine allCurrent_cons (by simpa using h1 [] h x r1 rfl) (ih ?_ (by simpa using h2))
    intro a h' x' b e
    have := h1 ((h, x) :: a) h' x' b (by simp [e])
    simpa using this

/-- What a walk adds to the log: the root, and current nodes. -/
def Adds (hn : HNode) (st : Heap × (σ × List (Heap × HNode))) (out : Out (Heap × (σ × List (Heap × HNode)))) : Prop :=
  ∃ rest, (finalState out).2.2 = st.2.2 ++ (st.1, hn) :: rest ∧ AllCurrent (st.2.2 ++ [(st.1, hn)]) rest

/-- What a loop adds. -/
def AddsL (st : Heap × (σ × List (Heap × HNode))) (out : Out (Heap × (σ × List (Heap × HNode)))) : Prop :=
  ∃ rest, (finalState out).2.2 = st.2.2 ++ rest ∧ AllCurrent st.2.2 rest

theorem adds_current {hn : HNode} {st : Heap × (σ × List (Heap × HNode))} {out} (a : Adds hn st out) (c : Current st.2.2 st.1 hn) : AddsL st out := by
  obtain ⟨rest, e, r⟩ := a
  exact ⟨_, e, allCurrent_cons c r⟩

theorem addsL_trans {st st1 : Heap × (σ × List (Heap × HNode))} {out} (a : AddsL st (.done st1)) (b : AddsL st1 out) : AddsL st out := by
  obtain ⟨r1, e1, c1⟩ := a
  obtain ⟨r2, e2, c2⟩ := b
  simp only [finalState] at e1
  refine ⟨r1 ++ r2, ?_, allCurrent_append c1 (by rw [← e1]; exact c2)⟩
  rw [e2, e1, List.append_assoc]

/-- A loop: `I i st` says that element `i`, if it is there, is current in state `st`. -/
theorem loop_adds {elem : Heap → Nat → Option HNode} {hf : HNode → Heap × (σ × List (Heap × HNode)) → Option (Out (Heap × (σ × List (Heap × HNode))))}
    (hstep : ∀ n st out, hf n st = some out → Adds n st out)
    (I : Nat → Heap × (σ × List (Heap × HNode)) → Prop)
    (hcur : ∀ i st x, I i st → elem st.1 i = some x → Current st.2.2 st.1 x)
    (hnext : ∀ i st x rest (st' : Heap × (σ × List (Heap × HNode))), I i st → elem st.1 i = some x → st'.2.2 = st.2.2 ++ (st.1, x) :: rest → I (i + 1) st') :
    ∀ k i st out, I i st → rangeLoop elem hf k i st = some out → AddsL st out := by
  intro k
  induction k with
  | zero =>
    intro i st out _ h
    cases h
    exact ⟨[], by simp [finalState], allCurrent_nil _⟩
  | succ k ih =>
    intro i st out hI h
    rw [rangeLoop] at h
    generalize hx : elem st.1 i = x at h
    cases x with
    | none => cases h
    | some x =>
      simp only at h
      generalize hr : hf x st = q at h
      match q with
      | none => cases h
      | some (.panic st') =>
        cases h
        exact adds_current (hstep _ _ _ hr) (hcur i st x hI hx)
      | some (.done st') =>
        simp only at h
        have a := hstep _ _ _ hr
        have a' := adds_current a (hcur i st x hI hx)
        obtain ⟨rest, e, -⟩ := a
        exact addsL_trans a' (ih (i + 1) st' out (hnext i st x rest st' hI hx e) h)

theorem hwalk_adds (vis : HVisiting V σ) : ∀ fuel v hn st out, hwalk (logged vis) fuel v hn st = some out → Adds hn st out := by
  intro fuel
  induction fuel with
  | zero => intro _ _ _ _ h; cases h
  | succ fuel ih =>
    intro v hn st out h
    rw [hwalk] at h
    have hlog : ((logged vis).visit v hn st).1.2.2 = st.2.2 ++ [(st.1, hn)] := rfl
    generalize (logged vis).visit v hn st = q at h hlog
    obtain ⟨st1, o⟩ := q
    simp only at hlog
    have close : AddsL st1 out → Adds hn st out := by
      rintro ⟨rest, e, c⟩
      rw [hlog] at e c
      exact ⟨rest, by rw [e]; simp, c⟩
    have hg : ∀ log', (∀ x ∈ st1.2.2, x ∈ log') → Given log' hn := fun log' hs => ⟨st.1, hs _ (by rw [hlog]; simp)⟩
    have triv : ∀ r : Out (Heap × (σ × List (Heap × HNode))), finalState r = st1 → AddsL st1 r := fun r e => ⟨[], by rw [e]; simp, allCurrent_nil _⟩
    cases o with
    | none => cases h; exact close (triv _ rfl)
    | some w =>
      have step := ih w
      cases hn with
      | nil => cases h; exact close (triv _ rfl)
      | expr e => cases h; exact close (triv _ rfl)
      | var e => cases h; exact close (triv _ rfl)
      | opcode e => cases h; exact close (triv _ rfl)
      | alt e => cases h; exact close (triv _ rfl)
      | parts ps =>
        refine close (loop_adds step (fun _ st => Given st.2.2 (.parts ps)) ?_ ?_ _ _ _ _ (hg _ fun _ k => k) h)
        · intro i st x g e
          simp only [Option.map_eq_some_iff] at e
          obtain ⟨o, e, rfl⟩ := e
          exact .part g (List.mem_of_getElem? e)
        · intro i st x rest st' g _ e
          exact g.mono fun y hy => by rw [e]; simp [hy]
      | file p =>
        simp only at h
        generalize hc : st1.1[p]? = c at h
        match c with
        | none => cases h
        | some (.sexpr _ _) => cases h
        | some (.values _) => cases h
        | some (.rule _ _ _ _) => cases h
        | some (.rules _) => cases h
        | some (.file arr) =>
          simp only at h
          generalize hl : sliceLen arr st1.1 = len at h
          cases len with
          | none => cases h
          | some len =>
            refine close (loop_adds step (fun i st => match i with
              | 0 => Given st.2.2 (.file p) ∧ st.1[p]? = some (.file arr)
              | i + 1 => ∃ h0 rs0 r0, (h0, HNode.rule r0) ∈ st.2.2 ∧ h0[arr]? = some (.rules rs0) ∧ rs0[i]? = some r0) ?_ ?_ _ 0 _ _ ⟨hg _ fun _ k => k, hc⟩ h)
            · intro i st x hI e
              rw [ruleElem] at e
              split at e
              · next rs hrs =>
                simp only [Option.map_eq_some_iff] at e
                obtain ⟨r, e, rfl⟩ := e
                cases i with
                | zero =>
                  cases rs with
                  | nil => cases e
                  | cons r0 rs => cases e; exact .firstRule hI.1 hI.2 hrs
                | succ i =>
                  obtain ⟨h0, rs0, r0, k1, k2, k3⟩ := hI
                  exact .nextRule k1 k2 k3 hrs e
              · cases e
            · intro i st x rest st' hI e hlog'
              rw [ruleElem] at e
              split at e
              · next rs hrs =>
                simp only [Option.map_eq_some_iff] at e
                obtain ⟨r, e, rfl⟩ := e
                exact ⟨st.1, rs, r, by rw [hlog']; simp, hrs, e⟩
              · cases e
      | rule p =>
        simp only at h
        generalize hc : st1.1[p]? = c at h
        match c with
        | none => cases h
        | some (.sexpr _ _) => cases h
        | some (.values _) => cases h
        | some (.file _) => cases h
        | some (.rules _) => cases h
        | some (.rule m cond block res) =>
          simp only at h
          have cm : Current st1.2.2 st1.1 m.toHNode := .match (hg _ fun _ k => k) hc
          generalize hq : hwalk (logged vis) fuel w m.toHNode st1 = q at h
          match q with
          | none => cases h
          | some (.panic st2) => cases h; exact close (adds_current (step _ _ _ hq) cm)
          | some (.done st2) =>
            have a := step _ _ _ hq
            have hl2 : ∀ x ∈ st1.2.2, x ∈ st2.2.2 := by
              obtain ⟨rest, e, -⟩ := a
              intro x hx
              simp only [finalState] at e
              rw [e]; simp [hx]
            have a' := adds_current a cm
            simp only at h
            generalize hc2 : st2.1[p]? = c2 at h
            match c2 with
            | none => cases h
            | some (.sexpr _ _) => cases h
            | some (.values _) => cases h
            | some (.file _) => cases h
            | some (.rules _) => cases h
            | some (.rule m2 cond2 block2 res2) => exact close (addsL_trans a' (adds_current (step _ _ _ h) (.result (hg _ hl2) hc2)))
      | sexpr p =>
        simp only at h
        generalize hc : st1.1[p]? = c at h
        match c with
        | none => cases h
        | some (.rule _ _ _ _) => cases h
        | some (.values _) => cases h
        | some (.file _) => cases h
        | some (.rules _) => cases h
        | some (.sexpr hd arr) =>
          simp only at h
          have cm : Current st1.2.2 st1.1 hd.op.toHNode := .opcode (hg _ fun _ k => k) hc
          generalize hq : hwalk (logged vis) fuel w hd.op.toHNode st1 = q at h
          match q with
          | none => cases h
          | some (.panic st2) => cases h; exact close (adds_current (step _ _ _ hq) cm)
          | some (.done st2) =>
            have a := step _ _ _ hq
            have hl2 : ∀ x ∈ st1.2.2, x ∈ st2.2.2 := by
              obtain ⟨rest, e, -⟩ := a
              intro x hx
              simp only [finalState] at e
              rw [e]; simp [hx]
            have a' := adds_current a cm
            simp only at h
            generalize hc2 : st2.1[p]? = c2 at h
            match c2 with
            | none => cases h
            | some (.rule _ _ _ _) => cases h
            | some (.values _) => cases h
            | some (.file _) => cases h
            | some (.rules _) => cases h
            | some (.sexpr hd2 arr2) =>
              simp only at h
              generalize hl : sliceLen arr2 st2.1 = len at h
              cases len with
              | none => cases h
              | some len =>
                refine close (addsL_trans a' (loop_adds step (fun i st => match i with
                  | 0 => Given st.2.2 (.sexpr p) ∧ st.1[p]? = some (.sexpr hd2 arr2)
                  | i + 1 => ∃ h0 vs0 v0, (h0, HVal.toHNode v0) ∈ st.2.2 ∧ h0[arr2]? = some (.values vs0) ∧ vs0[i]? = some v0) ?_ ?_ _ 0 _ _ ⟨hg _ hl2, hc2⟩ h))
                · intro i st x hI e
                  rw [valueElem] at e
                  split at e
                  · next rs hrs =>
                    simp only [Option.map_eq_some_iff] at e
                    obtain ⟨r, e, rfl⟩ := e
                    cases i with
                    | zero =>
                      cases rs with
                      | nil => cases e
                      | cons r0 rs => cases e; exact .firstArg hI.1 hI.2 hrs
                    | succ i =>
                      obtain ⟨h0, rs0, r0, k1, k2, k3⟩ := hI
                      exact .nextArg k1 k2 k3 hrs e
                  · cases e
                · intro i st x rest st' hI e hlog'
                  rw [valueElem] at e
                  split at e
                  · next rs hrs =>
                    simp only [Option.map_eq_some_iff] at e
                    obtain ⟨r, e, rfl⟩ := e
                    exact ⟨st.1, rs, r, by rw [hlog']; simp, hrs, e⟩
                  · cases e

/-! ## The log changes nothing -/

def dropLog (st : Heap × (σ × List (Heap × HNode))) : Heap × σ := (st.1, st.2.1)

def dropLogOut : Out (Heap × (σ × List (Heap × HNode))) → Out (Heap × σ)
  | .done st => .done (dropLog st)
  | .panic st => .panic (dropLog st)

theorem loop_logged {elem : Heap → Nat → Option HNode} {hf : HNode → Heap × σ → Option (Out (Heap × σ))}
    {hg : HNode → Heap × (σ × List (Heap × HNode)) → Option (Out (Heap × (σ × List (Heap × HNode))))}
    (hstep : ∀ n st, hf n (dropLog st) = (hg n st).map dropLogOut) :
    ∀ k i st, rangeLoop elem hf k i (dropLog st) = (rangeLoop elem hg k i st).map dropLogOut := by
  intro k
  induction k with
  | zero => intro i st; rfl
  | succ k ih =>
    intro i st
    rw [rangeLoop, rangeLoop]
    simp only [dropLog]
    cases elem st.1 i with
    | none => rfl
    | some x =>
      have := hstep x st
      simp only [dropLog] at this
      simp only [this]
      generalize hg x st = q
      match q with
      | none => rfl
      | some (.panic st') => rfl
      | some (.done st') => exact ih _ _

theorem hwalk_logged (vis : HVisiting V σ) : ∀ fuel v hn st, hwalk vis fuel v hn (dropLog st) = (hwalk (logged vis) fuel v hn st).map dropLogOut := by
  intro fuel
  induction fuel with
  | zero => intros; rfl
  | succ fuel ih =>
    intro v hn st
    rw [hwalk, hwalk]
    have h1 : (vis.visit v hn (dropLog st)).1 = dropLog ((logged vis).visit v hn st).1 := rfl
    have h2 : (vis.visit v hn (dropLog st)).2 = ((logged vis).visit v hn st).2 := rfl
    generalize vis.visit v hn (dropLog st) = a at h1 h2
    generalize (logged vis).visit v hn st = b at h1 h2
    obtain ⟨a1, a2⟩ := a
    obtain ⟨st1, o⟩ := b
    simp only at h1 h2
    subst h1; subst h2
    have e1 : (dropLog st1).1 = st1.1 := rfl
    cases a2 with
    | none => rfl
    | some w =>
      have step := ih w
      cases hn with
      | nil => rfl
      | expr e => rfl
      | var e => rfl
      | opcode e => rfl
      | alt e => rfl
      | parts ps => exact loop_logged step _ _ _
      | file p =>
        simp only [e1]
        split
        · split
          · exact loop_logged step _ _ _
          · rfl
        · rfl
      | rule p =>
        simp only [e1]
        split
        · rw [step]
          generalize hwalk (logged vis) fuel w _ st1 = q
          match q with
          | none => rfl
          | some (.panic st2) => rfl
          | some (.done st2) =>
            have e2 : (dropLog st2).1 = st2.1 := rfl
            simp only [Option.map_some, dropLogOut, e2]
            split
            · exact step _ _
            · rfl
        · rfl
      | sexpr p =>
        simp only [e1]
        split
        · rw [step]
          generalize hwalk (logged vis) fuel w _ st1 = q
          match q with
          | none => rfl
          | some (.panic st2) => rfl
          | some (.done st2) =>
            have e2 : (dropLog st2).1 = st2.1 := rfl
            simp only [Option.map_some, dropLogOut, e2]
            split
            · split
              · exact loop_logged step _ _ _
              · rfl
            · rfl
        · rfl

end Verif.Spec

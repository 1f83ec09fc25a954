import Verif.Proof.PegTerm
/-!
# An error-free view of the machine

`runC` runs on text, and gives up (`abort`) as soon as an action fails or panics.  On valid UTF-8 the machine ends with a
value and no error exactly if `runC` does.  `exec` is `runC` without fuel, with one equation per construct.
-/
namespace Verif.Proof
open Verif

inductive COut where
  | ok (v : Dyn) (cs : Str) (fr : Frame)
  | fail
  | abort

def sliceC (start cur : Str) : Str := start.take (start.length - cur.length)

def actC (G : Grammar) (a : Act) (start cs : Str) (fr : Frame) : COut :=
  match G.act a fr (sliceC start cs) with
  | .ok v => .ok v cs fr
  | _ => .abort

def popC (fr : Frame) : COut → COut
  | .ok v cs _ => .ok v cs fr
  | o => o

def clsC (chars : List Char) (ranges : List (Char × Char)) (inv : Bool) (cs : Str) (fr : Frame) : COut :=
  match cs with
  | [] => .fail
  | c :: cs' => if inClass chars ranges c = inv then .fail else .ok (.bytes [c]) cs' fr

def anyC (cs : Str) (fr : Frame) : COut :=
  match cs with
  | [] => .fail
  | c :: cs' => .ok (.bytes [c]) cs' fr

/-- Remove a prefix. -/
def strip : List Char → Str → Option Str
  | [], cs => some cs
  | _ :: _, [] => none
  | w :: ws, c :: cs => if c = w then strip ws cs else none

def litC (val : List Char) (cs : Str) (fr : Frame) : COut :=
  match strip val cs with
  | some cs' => .ok (.bytes val) cs' fr
  | none => .fail

mutual
def runC (G : Grammar) : Nat → PExpr → Str → Frame → Option COut
  | 0, _, _, _ => none
  | n + 1, .action a e, cs, fr =>
    match runC G n e cs fr with
    | some (.ok _ cs' fr') => some (actC G a cs cs' fr')
    | o => o
  | _ + 1, .any, cs, fr => some (anyC cs fr)
  | _ + 1, .cls chars ranges inv, cs, fr => some (clsC chars ranges inv cs fr)
  | n + 1, .choice es, cs, fr => runCChoice G n es cs fr
  | n + 1, .labeled l e, cs, fr =>
    match runC G n e cs Frame.empty with
    | some (.ok v cs' _) => some (.ok v cs' (fr.set l v))
    | o => o
  | _ + 1, .lit val, cs, fr => some (litC val cs fr)
  | n + 1, .not e, cs, fr =>
    match runC G n e cs Frame.empty with
    | some (.ok _ _ _) => some .fail
    | some .fail => some (.ok .nil cs fr)
    | o => o
  | n + 1, .oneOrMore e, cs, fr => runCLoop G n e true [] cs fr
  | n + 1, .ruleRef name, cs, fr => (runC G n (G.rules name) cs Frame.empty).map (popC fr)
  | n + 1, .seq es, cs, fr => runCSeq G n es [] cs fr
  | n + 1, .zeroOrMore e, cs, fr => runCLoop G n e false [] cs fr
  | n + 1, .zeroOrOne e, cs, fr =>
    match runC G n e cs Frame.empty with
    | some .fail => some (.ok .nil cs fr)
    | o => o.map (popC fr)
def runCChoice (G : Grammar) : Nat → List PExpr → Str → Frame → Option COut
  | 0, _, _, _ => none
  | _ + 1, [], _, _ => some .fail
  | n + 1, e :: es, cs, fr =>
    match runC G n e cs Frame.empty with
    | some .fail => runCChoice G n es cs fr
    | o => o.map (popC fr)
def runCSeq (G : Grammar) : Nat → List PExpr → List Dyn → Str → Frame → Option COut
  | 0, _, _, _, _ => none
  | _ + 1, [], vals, cs, fr => some (.ok (.list vals) cs fr)
  | n + 1, e :: es, vals, cs, fr =>
    match runC G n e cs fr with
    | some (.ok v cs' fr') => runCSeq G n es (vals ++ [v]) cs' fr'
    | o => o
def runCLoop (G : Grammar) : Nat → PExpr → Bool → List Dyn → Str → Frame → Option COut
  | 0, _, _, _, _, _ => none
  | n + 1, e, need, vals, cs, fr =>
    match runC G n e cs Frame.empty with
    | some (.ok v cs' _) => runCLoop G n e need (vals ++ [v]) cs' fr
    | some .fail => if need && vals.isEmpty then some .fail else some (.ok (.list vals) cs fr)
    | o => o
end

/-! ## Simulation -/

/-- A clean state. -/
def st (cs : Str) (fr : Frame) (asked : List Str) : St := { pos := cs.map Sym.ok, frame := fr, errs := [], asked := asked }

/-- An outcome that ends in an error. -/
def Dirty : POut → Prop
  | .ok _ s => s.errs ≠ []
  | .fail s => s.errs ≠ []
  | .panic _ => True

theorem dirty_of_errs {G n e s o} (hs : s.errs ≠ []) (h : run G n e s = some o) : Dirty o := by
  have := ((step_errs G).run n).1 _ _ _ h
  cases o with
  | ok v s' => obtain ⟨l, hl⟩ := this; simp [Dirty, hl, hs]
  | fail s' => obtain ⟨l, hl⟩ := this; simp [Dirty, hl, hs]
  | panic s' => trivial

theorem dirty_choice {G n es s o} (hs : s.errs ≠ []) (h : runChoice G n es s = some o) : Dirty o := by
  have := ((step_errs G).run n).2.1 _ _ _ h
  cases o with
  | ok v s' => obtain ⟨l, hl⟩ := this; simp [Dirty, hl, hs]
  | fail s' => obtain ⟨l, hl⟩ := this; simp [Dirty, hl, hs]
  | panic s' => trivial

theorem dirty_loop {G n e need vs s o} (hs : s.errs ≠ []) (h : runLoop G n e need vs s = some o) : Dirty o := by
  have := ((step_errs G).run n).2.2.2 _ _ _ _ _ h
  cases o with
  | ok v s' => obtain ⟨l, hl⟩ := this; simp [Dirty, hl, hs]
  | fail s' => obtain ⟨l, hl⟩ := this; simp [Dirty, hl, hs]
  | panic s' => trivial

theorem dirty_seq {G n p es vs s o} (hs : s.errs ≠ []) (h : runSeq G n p es vs s = some o) : Dirty o := by
  induction n generalizing es vs s with
  | zero => simp [runSeq] at h
  | succ n ih =>
    cases es with
    | nil => simp [runSeq] at h; subst h; exact hs
    | cons e es =>
      rw [runSeq] at h
      cases hr : run G n e s with
      | none => rw [hr] at h; simp at h
      | some x =>
        rw [hr] at h
        have hd := dirty_of_errs hs hr
        cases x with
        | ok v s' => exact ih hd h
        | fail s' => simp at h; subst h; exact hd
        | panic s' => simp at h; subst h; trivial

/-- How an outcome of the machine, started in a clean state on `cs`, is seen by `runC`. -/
def Sim (cs : Str) (r : Option POut) : Option COut → Prop
  | none => r = none
  | some (.ok v cs' fr') => ∃ asked, r = some (.ok v (st cs' fr' asked))
  | some .fail => ∃ fr' asked, r = some (.fail (st cs fr' asked))
  | some .abort => r = none ∨ ∃ o, r = some o ∧ Dirty o

theorem noteBad_st (cs fr asked) : noteBad (st cs fr asked) = st cs fr asked := by
  cases cs <;> rfl

theorem read_st (c cs fr asked) : read (st (c :: cs) fr asked) = st cs fr asked := by
  show noteBad (st cs fr asked) = _; exact noteBad_st _ _ _

theorem slice_map (a b : Str) : sliceFrom (a.map Sym.ok) (b.map Sym.ok) = sliceC a b := by
  simp only [sliceFrom, sliceC, List.length_map, ← List.map_take, List.map_map]
  have : (Sym.rune ∘ Sym.ok) = id := rfl
  rw [this, List.map_id]

theorem slice_cons (c : Char) (cs : Str) : sliceC (c :: cs) cs = [c] := by
  simp [sliceC]

theorem slice_append (a b : Str) : sliceC (a ++ b) b = a := by
  simp [sliceC]

theorem strip_eq (w cs : Str) : ∀ cs', strip w cs = some cs' ↔ cs = w ++ cs' := by
  induction w generalizing cs with
  | nil => intro cs'; simp [strip]
  | cons x w ih =>
    intro cs'
    cases cs with
    | nil => simp [strip]
    | cons c cs =>
      simp only [strip]
      by_cases h : c = x
      · subst h; simp [ih]
      · simp [h]

theorem sim_lit (start : Str) (val cs : Str) (fr : Frame) (asked : List Str) (pre : Str) (hst : start = pre ++ cs) :
    litLoop (start.map Sym.ok) val (st cs fr asked) =
      match strip val cs with
      | some cs' => .ok (.bytes (pre ++ val)) (st cs' fr asked)
      | none => .fail (st start fr asked) := by
  induction val generalizing cs pre with
  | nil =>
    simp only [litLoop, strip, List.append_nil]
    have : sliceFrom (List.map Sym.ok start) (st cs fr asked).pos = pre := by
      show sliceFrom _ (cs.map Sym.ok) = _; rw [slice_map, hst, slice_append]
    rw [this]
  | cons w ws ih =>
    cases cs with
    | nil => simp [litLoop, st, strip]
    | cons c cs =>
      rw [litLoop]
      simp only [st, List.map_cons, Sym.rune, strip]
      by_cases h : c = w
      · subst h
        simp only [if_true]
        have := ih cs (pre ++ [c]) (by simp [hst])
        have e : read (st (c :: cs) fr asked) = st cs fr asked := read_st _ _ _ _
        simp only [st, List.map_cons] at e this
        rw [e, this]
        simp
      · simp [h, st]

theorem sim_cls (chars ranges inv) (cs fr asked) :
    Sim cs (some (parseCls chars ranges inv (st cs fr asked))) (some (clsC chars ranges inv cs fr)) := by
  cases cs with
  | nil => exact ⟨fr, asked, rfl⟩
  | cons c cs =>
    have hr : read (st (c :: cs) fr asked) = st cs fr asked := read_st _ _ _ _
    have hs : sliceFrom (st (c :: cs) fr asked).pos (st cs fr asked).pos = [c] := by
      show sliceFrom ((c :: cs).map Sym.ok) (cs.map Sym.ok) = _; rw [slice_map, slice_cons]
    have hp : (st (c :: cs) fr asked).pos = Sym.ok c :: cs.map Sym.ok := rfl
    unfold parseCls clsC
    rw [hp]; simp only [Sym.rune]
    rw [← hp, hr, hs]
    by_cases hb : inClass chars ranges c = true
    · cases inv
      · simp only [hb, if_true, Bool.false_eq_true, Bool.true_eq_false, if_false]; exact ⟨asked, rfl⟩
      · simp only [hb, if_true]; exact ⟨fr, asked, rfl⟩
    · have hb : inClass chars ranges c = false := by simpa using hb
      cases inv
      · simp only [hb, if_true, Bool.false_eq_true, if_false]; exact ⟨fr, asked, rfl⟩
      · simp only [hb, if_true, Bool.false_eq_true, if_false]; exact ⟨asked, rfl⟩

theorem sim_any (cs fr asked) :
    Sim cs (some (parseAny (st cs fr asked))) (some (anyC cs fr)) := by
  cases cs with
  | nil => exact ⟨fr, asked, rfl⟩
  | cons c cs =>
    have hr : read (st (c :: cs) fr asked) = st cs fr asked := read_st _ _ _ _
    have hs : sliceFrom (st (c :: cs) fr asked).pos (st cs fr asked).pos = [c] := by
      show sliceFrom ((c :: cs).map Sym.ok) (cs.map Sym.ok) = _; rw [slice_map, slice_cons]
    have hp : (st (c :: cs) fr asked).pos = Sym.ok c :: cs.map Sym.ok := rfl
    unfold parseAny anyC
    rw [hp]; simp only []
    rw [← hp, hr, hs]
    exact ⟨asked, rfl⟩

theorem sim_map {r : Option POut} {cs : Str} {c : Option COut} (fr : Frame) (h : Sim cs r c) :
    Sim cs (r.map (popTo fr)) (c.map (popC fr)) := by
  cases c with
  | none => simp only [Sim] at h; subst h; rfl
  | some x =>
    cases x with
    | ok v cs' fr' => obtain ⟨a, rfl⟩ := h; exact ⟨a, rfl⟩
    | fail => obtain ⟨fr', a, rfl⟩ := h; exact ⟨fr, a, rfl⟩
    | abort =>
      rcases h with rfl | ⟨o, rfl, ho⟩
      · exact Or.inl rfl
      · refine Or.inr ⟨_, rfl, ?_⟩
        cases o <;> exact ho

/-- The same, with the frame after a failure known. -/
def SimF (cs : Str) (fr : Frame) (r : Option POut) : Option COut → Prop
  | none => r = none
  | some (.ok v cs' _) => ∃ asked, r = some (.ok v (st cs' fr asked))
  | some .fail => ∃ asked, r = some (.fail (st cs fr asked))
  | some .abort => r = none ∨ ∃ o, r = some o ∧ Dirty o

theorem sim_pop {r : Option POut} {cs : Str} {c : Option COut} (fr : Frame) (h : Sim cs r c) :
    SimF cs fr (r.map (popTo fr)) c := by
  cases c with
  | none => simp only [Sim] at h; subst h; rfl
  | some x =>
    cases x with
    | ok v cs' fr' => obtain ⟨a, rfl⟩ := h; exact ⟨a, rfl⟩
    | fail => obtain ⟨fr', a, rfl⟩ := h; exact ⟨a, rfl⟩
    | abort =>
      rcases h with rfl | ⟨o, rfl, ho⟩
      · exact Or.inl rfl
      · refine Or.inr ⟨_, rfl, ?_⟩
        cases o <;> exact ho

theorem loopC_nofail (G : Grammar) (n : Nat) (e need vs cs fr) (hv : vs ≠ []) : runCLoop G n e need vs cs fr ≠ some .fail := by
  induction n generalizing vs cs with
  | zero => simp [runCLoop]
  | succ n ih =>
    rw [runCLoop]
    cases hr : runC G n e cs Frame.empty with
    | none => simp
    | some x =>
      cases x with
      | ok v cs' fr' => exact ih _ _ (by simp)
      | abort => simp
      | fail =>
        have : vs.isEmpty = false := by cases vs <;> simp_all
        simp [this]

theorem sim_weaken {cs cs' : Str} {r c} (h : Sim cs r c) (hc : c ≠ some .fail) : Sim cs' r c := by
  cases c with
  | none => exact h
  | some x => cases x <;> first | exact h | exact absurd rfl hc

theorem sim (G : Grammar) (n : Nat) :
    (∀ e cs fr asked, Sim cs (run G n e (st cs fr asked)) (runC G n e cs fr)) ∧
    (∀ es cs fr asked, Sim cs (runChoice G n es (st cs fr asked)) (runCChoice G n es cs fr)) ∧
    (∀ start es vs cs fr asked, Sim start (runSeq G n (start.map Sym.ok) es vs (st cs fr asked)) (runCSeq G n es vs cs fr)) ∧
    (∀ e need vs cs fr asked, Sim cs (runLoop G n e need vs (st cs fr asked)) (runCLoop G n e need vs cs fr)) := by
  induction n with
  | zero =>
    refine ⟨?_, ?_, ?_, ?_⟩
    · intros; simp [run, runC, Sim]
    · intros; simp [runChoice, runCChoice, Sim]
    · intros; simp [runSeq, runCSeq, Sim]
    · intros; simp [runLoop, runCLoop, Sim]
  | succ n ih =>
    obtain ⟨ih1, ih2, ih3, ih4⟩ := ih
    have hpop : ∀ e cs fr asked, Sim cs ((run G n e (push (st cs fr asked))).map (popTo (st cs fr asked).frame))
        ((runC G n e cs Frame.empty).map (popC fr)) := fun e cs fr asked => sim_map fr (ih1 e cs Frame.empty asked)
    have hpop' : ∀ e cs fr asked, SimF cs fr ((run G n e (push (st cs fr asked))).map (popTo (st cs fr asked).frame))
        (runC G n e cs Frame.empty) := fun e cs fr asked => sim_pop fr (ih1 e cs Frame.empty asked)
    refine ⟨?_, ?_, ?_, ?_⟩
    · intro e cs fr asked
      cases e with
      | action a e =>
        simp only [run, runC]
        have h := ih1 e cs fr asked
        generalize run G n e (st cs fr asked) = r at h
        cases hc : runC G n e cs fr with
        | none => rw [hc] at h; simp only [Sim] at h; subst h; rfl
        | some x =>
          rw [hc] at h
          cases x with
          | fail => obtain ⟨fr', a, rfl⟩ := h; exact ⟨fr', a, rfl⟩
          | abort =>
            rcases h with rfl | ⟨o, rfl, ho⟩
            · exact Or.inl rfl
            · cases o with
              | fail s => exact Or.inr ⟨_, rfl, ho⟩
              | panic s => exact Or.inr ⟨_, rfl, trivial⟩
              | ok v s =>
                refine Or.inr ⟨_, rfl, ?_⟩
                cases hra : runAction G a (st cs fr asked).pos s with
                | ok v' s' => obtain ⟨l, m, rfl⟩ := runAction_ok hra; simp only [Dirty] at ho ⊢; simp [ho]
                | panic s' => trivial
                | fail s' => unfold runAction at hra; simp only [] at hra; split at hra <;> simp at hra
          | ok v cs' fr' =>
            obtain ⟨ask, rfl⟩ := h
            simp only []
            have hsl : sliceFrom (st cs fr asked).pos (st cs' fr' ask).pos = sliceC cs cs' := slice_map _ _
            unfold runAction actC
            simp only [hsl]
            have hf : (st cs' fr' ask).frame = fr' := rfl
            simp only [hf]
            cases G.act a fr' (sliceC cs cs') with
            | ok v' => exact ⟨_, rfl⟩
            | err e => exact Or.inr ⟨_, rfl, by simp [Dirty]⟩
            | panic => exact Or.inr ⟨_, rfl, trivial⟩
      | any => simp only [run, runC]; exact sim_any _ _ _
      | cls chars ranges inv => simp only [run, runC]; exact sim_cls _ _ _ _ _ _
      | choice es => simp only [run, runC]; exact ih2 _ _ _ _
      | labeled l e =>
        simp only [run, runC]
        have h := hpop e cs fr asked
        generalize (run G n e (push (st cs fr asked))).map (popTo (st cs fr asked).frame) = r at h
        cases hc : runC G n e cs Frame.empty with
        | none => rw [hc] at h; simp only [Sim, Option.map] at h; subst h; rfl
        | some x =>
          rw [hc] at h
          cases x with
          | fail => obtain ⟨fr', a, rfl⟩ := h; exact ⟨fr', a, rfl⟩
          | abort =>
            rcases h with rfl | ⟨o, rfl, ho⟩
            · exact Or.inl rfl
            · cases o with
              | fail s => exact Or.inr ⟨_, rfl, ho⟩
              | panic s => exact Or.inr ⟨_, rfl, trivial⟩
              | ok v s => exact Or.inr ⟨_, rfl, ho⟩
          | ok v cs' fr' => obtain ⟨ask, rfl⟩ := h; exact ⟨ask, rfl⟩
      | lit val =>
        simp only [run, runC]
        have h := sim_lit cs val cs fr asked [] rfl
        have hp : (st cs fr asked).pos = cs.map Sym.ok := rfl
        rw [hp, h]; unfold litC
        cases strip val cs with
        | none => exact ⟨fr, asked, rfl⟩
        | some cs' => exact ⟨asked, rfl⟩
      | not e =>
        simp only [run, runC]
        have h := hpop' e cs fr asked
        generalize (run G n e (push (st cs fr asked))).map (popTo (st cs fr asked).frame) = r at h
        cases hc : runC G n e cs Frame.empty with
        | none => rw [hc] at h; simp only [SimF] at h; subst h; rfl
        | some x =>
          rw [hc] at h
          cases x with
          | fail => obtain ⟨a, rfl⟩ := h; exact ⟨a, rfl⟩
          | abort =>
            rcases h with rfl | ⟨o, rfl, ho⟩
            · exact Or.inl rfl
            · cases o with
              | fail s => exact Or.inr ⟨_, rfl, ho⟩
              | panic s => exact Or.inr ⟨_, rfl, trivial⟩
              | ok v s => exact Or.inr ⟨_, rfl, ho⟩
          | ok v cs' fr' => obtain ⟨ask, rfl⟩ := h; exact ⟨fr, ask, rfl⟩
      | oneOrMore e => simp only [run, runC]; exact ih4 _ _ _ _ _ _
      | ruleRef r => simp only [run, runC]; exact hpop _ _ _ _
      | seq es => simp only [run, runC]; exact ih3 _ _ _ _ _ _
      | zeroOrMore e => simp only [run, runC]; exact ih4 _ _ _ _ _ _
      | zeroOrOne e =>
        simp only [run, runC]
        have h := hpop' e cs fr asked
        generalize (run G n e (push (st cs fr asked))).map (popTo (st cs fr asked).frame) = r at h
        cases hc : runC G n e cs Frame.empty with
        | none => rw [hc] at h; simp only [SimF] at h; subst h; rfl
        | some x =>
          rw [hc] at h
          cases x with
          | fail => obtain ⟨a, rfl⟩ := h; exact ⟨a, rfl⟩
          | abort =>
            rcases h with rfl | ⟨o, rfl, ho⟩
            · exact Or.inl rfl
            · cases o with
              | fail s => exact Or.inr ⟨_, rfl, ho⟩
              | panic s => exact Or.inr ⟨_, rfl, trivial⟩
              | ok v s => exact Or.inr ⟨_, rfl, ho⟩
          | ok v cs' fr' => obtain ⟨ask, rfl⟩ := h; exact ⟨ask, rfl⟩
    · intro es cs fr asked
      cases es with
      | nil => simp only [runChoice, runCChoice]; exact ⟨fr, asked, rfl⟩
      | cons e es =>
        simp only [runChoice, runCChoice]
        have h := hpop' e cs fr asked
        generalize (run G n e (push (st cs fr asked))).map (popTo (st cs fr asked).frame) = r at h
        cases hc : runC G n e cs Frame.empty with
        | none => rw [hc] at h; simp only [SimF] at h; subst h; rfl
        | some x =>
          rw [hc] at h
          cases x with
          | fail => obtain ⟨a, rfl⟩ := h; exact ih2 es cs fr a
          | abort =>
            rcases h with rfl | ⟨o, rfl, ho⟩
            · exact Or.inl rfl
            · cases o with
              | fail s =>
                simp only [Option.map, popC]
                cases hr : runChoice G n es s with
                | none => exact Or.inl rfl
                | some o => exact Or.inr ⟨_, rfl, dirty_choice ho hr⟩
              | panic s => exact Or.inr ⟨_, rfl, trivial⟩
              | ok v s => exact Or.inr ⟨_, rfl, ho⟩
          | ok v cs' fr' => obtain ⟨ask, rfl⟩ := h; exact ⟨ask, rfl⟩
    · intro start es vs cs fr asked
      cases es with
      | nil => simp only [runSeq, runCSeq]; exact ⟨asked, rfl⟩
      | cons e es =>
        simp only [runSeq, runCSeq]
        have h := ih1 e cs fr asked
        generalize run G n e (st cs fr asked) = r at h
        cases hc : runC G n e cs fr with
        | none => rw [hc] at h; simp only [Sim] at h; subst h; rfl
        | some x =>
          rw [hc] at h
          cases x with
          | fail => obtain ⟨fr', a, rfl⟩ := h; exact ⟨fr', a, rfl⟩
          | abort =>
            rcases h with rfl | ⟨o, rfl, ho⟩
            · exact Or.inl rfl
            · cases o with
              | fail s => exact Or.inr ⟨_, rfl, ho⟩
              | panic s => exact Or.inr ⟨_, rfl, trivial⟩
              | ok v s =>
                simp only []
                cases hr : runSeq G n (start.map Sym.ok) es (vs ++ [v]) s with
                | none => exact Or.inl rfl
                | some o => exact Or.inr ⟨_, rfl, dirty_seq ho hr⟩
          | ok v cs' fr' => obtain ⟨ask, rfl⟩ := h; exact ih3 _ _ _ _ _ _
    · intro e need vs cs fr asked
      simp only [runLoop, runCLoop]
      have h := hpop' e cs fr asked
      generalize (run G n e (push (st cs fr asked))).map (popTo (st cs fr asked).frame) = r at h
      cases hc : runC G n e cs Frame.empty with
      | none => rw [hc] at h; simp only [SimF] at h; subst h; rfl
      | some x =>
        rw [hc] at h
        cases x with
        | fail =>
          obtain ⟨a, rfl⟩ := h
          simp only []
          split
          · exact ⟨fr, a, rfl⟩
          · exact ⟨a, rfl⟩
        | abort =>
          rcases h with rfl | ⟨o, rfl, ho⟩
          · exact Or.inl rfl
          · cases o with
            | fail s =>
              simp only []
              split
              · exact Or.inr ⟨_, rfl, ho⟩
              · exact Or.inr ⟨_, rfl, ho⟩
            | panic s => exact Or.inr ⟨_, rfl, trivial⟩
            | ok v s =>
              simp only []
              cases hr : runLoop G n e need (vs ++ [v]) s with
              | none => exact Or.inl rfl
              | some o => exact Or.inr ⟨_, rfl, dirty_loop ho hr⟩
        | ok v cs' fr' =>
          obtain ⟨ask, rfl⟩ := h
          exact sim_weaken (ih4 _ _ _ _ _ _) (loopC_nofail _ _ _ _ _ _ _ (by simp))

end Verif.Proof

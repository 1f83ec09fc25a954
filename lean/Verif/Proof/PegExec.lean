import Verif.Proof.PegClean
/-!
# The machine without fuel

`exec G e cs fr` is what `runC` yields with enough fuel (`abort` if there is no such fuel), with one equation per construct.
-/
namespace Verif.Proof
open Verif

/-- An outcome that depends on the fuel. -/
abbrev Fam := Nat → Option COut

def Mono (f : Fam) : Prop := ∀ n o, f n = some o → f (n + 1) = some o

theorem Mono.le {f : Fam} (h : Mono f) {n m o} (hn : n ≤ m) (hf : f n = some o) : f m = some o := by
  induction hn with
  | refl => exact hf
  | step _ ih => exact h _ _ ih

open Classical in
noncomputable def lim (f : Fam) : COut := if h : ∃ o n, f n = some o then Classical.choose h else .abort

theorem lim_eq {f : Fam} (h : Mono f) {n o} (hf : f n = some o) : lim f = o := by
  have hex : ∃ o n, f n = some o := ⟨o, n, hf⟩
  rw [lim, dif_pos hex]
  obtain ⟨m, hm⟩ := Classical.choose_spec hex
  have h1 := h.le (Nat.le_max_left n m) hf
  have h2 := h.le (Nat.le_max_right n m) hm
  rw [h1] at h2
  exact (Option.some.inj h2).symm

theorem lim_none {f : Fam} (hf : ∀ n, f n = none) : lim f = .abort := by
  rw [lim, dif_neg]
  rintro ⟨o, n, h⟩
  simp [hf n] at h

theorem lim_spec {f : Fam} {o} (h : lim f = o) (ho : o ≠ .abort) : ∃ n, f n = some o := by
  rw [lim] at h
  split at h
  · rename_i hex
    have := Classical.choose_spec hex
    rw [h] at this; exact this
  · exact absurd h.symm ho

theorem lim_succ {f : Fam} (h : Mono f) (h0 : f 0 = none) : lim (fun n => f (n + 1)) = lim f := by
  have hm : Mono (fun n => f (n + 1)) := fun n o hn => h _ _ hn
  by_cases hex : ∃ o n, f n = some o
  · obtain ⟨o, n, hn⟩ := hex
    cases n with
    | zero => simp [h0] at hn
    | succ n =>
      rw [lim_eq h hn]
      exact lim_eq hm hn
  · have : ∀ n, f n = none := by
      intro n
      cases hn : f n with
      | none => rfl
      | some o => exact absurd ⟨o, n, hn⟩ hex
    rw [lim_none this, lim_none (fun n => this _)]

def bindF (f : Fam) (g : Dyn → Str → Frame → Fam) (h : Fam) : Fam := fun n =>
  match f n with
  | none => none
  | some (.ok v c r) => g v c r n
  | some .fail => h n
  | some .abort => some .abort

theorem bindF_mono {f g h} (hf : Mono f) (hg : ∀ v c r, Mono (g v c r)) (hh : Mono h) : Mono (bindF f g h) := by
  intro n o hn
  unfold bindF at hn ⊢
  cases hfn : f n with
  | none => rw [hfn] at hn; simp at hn
  | some x =>
    rw [hfn] at hn
    rw [hf _ _ hfn]
    cases x with
    | ok v c r => exact hg _ _ _ _ _ hn
    | fail => exact hh _ _ hn
    | abort => exact hn

theorem lim_bind {f g h} (hf : Mono f) (hg : ∀ v c r, Mono (g v c r)) (hh : Mono h) :
    lim (bindF f g h) = match lim f with
      | .ok v c r => lim (g v c r)
      | .fail => lim h
      | .abort => .abort := by
  have aux : ∀ (k : Fam) o, Mono k → (∃ n, f n = some o) → (∀ n, f n = some o → bindF f g h n = k n) →
      lim (bindF f g h) = lim k := by
    intro k o hk ⟨n, hn⟩ he
    by_cases hex : ∃ o n, k n = some o
    · obtain ⟨o', m, hm⟩ := hex
      rw [lim_eq hk hm]
      apply lim_eq (bindF_mono hf hg hh) (n := max n m)
      rw [he _ (hf.le (Nat.le_max_left _ _) hn)]
      exact hk.le (Nat.le_max_right _ _) hm
    · have hkn : ∀ n, k n = none := by
        intro n
        cases hn : k n with
        | none => rfl
        | some o => exact absurd ⟨o, n, hn⟩ hex
      rw [lim_none hkn, lim_none]
      intro m
      cases hb : bindF f g h m with
      | none => rfl
      | some o' =>
        have h1 := (bindF_mono hf hg hh).le (Nat.le_max_right n m) hb
        rw [he _ (hf.le (Nat.le_max_left _ _) hn), hkn] at h1
        exact absurd h1 (by simp)
  by_cases hex : ∃ o n, f n = some o
  · obtain ⟨o, n, hn⟩ := hex
    rw [lim_eq hf hn]
    cases o with
    | ok v c r => exact aux _ _ (hg v c r) ⟨n, hn⟩ (fun m hm => by simp [bindF, hm])
    | fail => exact aux _ _ hh ⟨n, hn⟩ (fun m hm => by simp [bindF, hm])
    | abort =>
      exact lim_eq (bindF_mono hf hg hh) (n := n) (by simp [bindF, hn])
  · have hfn : ∀ n, f n = none := by
      intro n
      cases hn : f n with
      | none => rfl
      | some o => exact absurd ⟨o, n, hn⟩ hex
    rw [lim_none hfn, lim_none]
    intro m; simp [bindF, hfn]

def constF (o : COut) : Fam := fun _ => some o
theorem constF_mono (o) : Mono (constF o) := fun _ _ h => h
theorem lim_const (o) : lim (constF o) = o := lim_eq (constF_mono o) (n := 0) rfl

/-! ## `runC` in terms of `bindF` -/

section
variable (G : Grammar)

def stepC (f : PExpr → Str → Frame → Fam) (fc : List PExpr → Str → Frame → Fam)
    (fs : List PExpr → List Dyn → Str → Frame → Fam) (fl : PExpr → Bool → List Dyn → Str → Frame → Fam) :
    PExpr → Str → Frame → Fam
  | .action a e, cs, fr => bindF (f e cs fr) (fun _ cs' fr' => constF (actC G a cs cs' fr')) (constF .fail)
  | .any, cs, fr => constF (anyC cs fr)
  | .cls chars ranges inv, cs, fr => constF (clsC chars ranges inv cs fr)
  | .choice es, cs, fr => fc es cs fr
  | .labeled l e, cs, fr => bindF (f e cs Frame.empty) (fun v cs' _ => constF (.ok v cs' (fr.set l v))) (constF .fail)
  | .lit val, cs, fr => constF (litC val cs fr)
  | .not e, cs, fr => bindF (f e cs Frame.empty) (fun _ _ _ => constF .fail) (constF (.ok .nil cs fr))
  | .oneOrMore e, cs, fr => fl e true [] cs fr
  | .ruleRef name, cs, fr => bindF (f (G.rules name) cs Frame.empty) (fun v cs' _ => constF (.ok v cs' fr)) (constF .fail)
  | .seq es, cs, fr => fs es [] cs fr
  | .zeroOrMore e, cs, fr => fl e false [] cs fr
  | .zeroOrOne e, cs, fr => bindF (f e cs Frame.empty) (fun v cs' _ => constF (.ok v cs' fr)) (constF (.ok .nil cs fr))

abbrev runF (e : PExpr) (cs : Str) (fr : Frame) : Fam := fun n => runC G n e cs fr
abbrev choiceF (es : List PExpr) (cs : Str) (fr : Frame) : Fam := fun n => runCChoice G n es cs fr
abbrev seqF (es : List PExpr) (vs : List Dyn) (cs : Str) (fr : Frame) : Fam := fun n => runCSeq G n es vs cs fr
abbrev loopF (e : PExpr) (need : Bool) (vs : List Dyn) (cs : Str) (fr : Frame) : Fam := fun n => runCLoop G n e need vs cs fr

theorem runC_step (e cs fr n) :
    runF G e cs fr (n + 1) = stepC G (runF G) (choiceF G) (seqF G) (loopF G) e cs fr n := by
  cases e <;> simp only [runF, runC, stepC, bindF, constF]
  case action a e => generalize runC G n e cs fr = r; rcases r with _ | (_ | _ | _) <;> rfl
  case labeled l e => generalize runC G n e cs Frame.empty = r; rcases r with _ | (_ | _ | _) <;> rfl
  case not e => generalize runC G n e cs Frame.empty = r; rcases r with _ | (_ | _ | _) <;> rfl
  case ruleRef r => generalize runC G n _ cs Frame.empty = r; rcases r with _ | (_ | _ | _) <;> rfl
  case zeroOrOne e => generalize runC G n e cs Frame.empty = r; rcases r with _ | (_ | _ | _) <;> rfl

theorem choice_nil (cs fr n) : choiceF G [] cs fr (n + 1) = some .fail := by simp [choiceF, runCChoice]
theorem choice_cons (e es cs fr n) : choiceF G (e :: es) cs fr (n + 1) =
    bindF (runF G e cs Frame.empty) (fun v cs' _ => constF (.ok v cs' fr)) (choiceF G es cs fr) n := by
  simp only [choiceF, runCChoice, bindF, runF]
  generalize runC G n e cs Frame.empty = r; rcases r with _ | (_ | _ | _) <;> rfl
theorem seq_nil (vs cs fr n) : seqF G [] vs cs fr (n + 1) = some (.ok (.list vs) cs fr) := by simp [seqF, runCSeq]
theorem seq_cons (e es vs cs fr n) : seqF G (e :: es) vs cs fr (n + 1) =
    bindF (runF G e cs fr) (fun v cs' fr' => seqF G es (vs ++ [v]) cs' fr') (constF .fail) n := by
  simp only [seqF, runCSeq, bindF, runF]
  generalize runC G n e cs fr = r; rcases r with _ | (_ | _ | _) <;> rfl
theorem loop_step (e need vs cs fr n) : loopF G e need vs cs fr (n + 1) =
    bindF (runF G e cs Frame.empty) (fun v cs' _ => loopF G e need (vs ++ [v]) cs' fr)
      (constF (if need && vs.isEmpty then .fail else .ok (.list vs) cs fr)) n := by
  simp only [loopF, runCLoop, bindF, runF]
  generalize runC G n e cs Frame.empty = r
  rcases r with _ | (_ | _ | _) <;> simp only [constF]
  split <;> rfl

theorem mono_all (n : Nat) :
    (∀ e cs fr o, runF G e cs fr n = some o → runF G e cs fr (n + 1) = some o) ∧
    (∀ es cs fr o, choiceF G es cs fr n = some o → choiceF G es cs fr (n + 1) = some o) ∧
    (∀ es vs cs fr o, seqF G es vs cs fr n = some o → seqF G es vs cs fr (n + 1) = some o) ∧
    (∀ e need vs cs fr o, loopF G e need vs cs fr n = some o → loopF G e need vs cs fr (n + 1) = some o) := by
  induction n with
  | zero => refine ⟨?_, ?_, ?_, ?_⟩ <;> intros <;> simp_all [runF, choiceF, seqF, loopF, runC, runCChoice, runCSeq, runCLoop]
  | succ n ih =>
    obtain ⟨i1, i2, i3, i4⟩ := ih
    have hb : ∀ (f : Fam) (g : Dyn → Str → Frame → Fam) (h : Fam) o,
        (∀ o, f n = some o → f (n + 1) = some o) → (∀ v c r o, g v c r n = some o → g v c r (n + 1) = some o) →
        (∀ o, h n = some o → h (n + 1) = some o) → bindF f g h n = some o → bindF f g h (n + 1) = some o := by
      intro f g h o hf hg hh hn
      unfold bindF at hn ⊢
      cases hfn : f n with
      | none => rw [hfn] at hn; simp at hn
      | some x =>
        rw [hfn] at hn
        rw [hf _ hfn]
        cases x with
        | ok v c r => exact hg _ _ _ _ hn
        | fail => exact hh _ hn
        | abort => exact hn
    refine ⟨?_, ?_, ?_, ?_⟩
    · intro e cs fr o h
      rw [runC_step] at h ⊢
      cases e <;> simp only [stepC] at h ⊢
      case any => exact h
      case cls => exact h
      case lit => exact h
      case choice => exact i2 _ _ _ _ h
      case oneOrMore => exact i4 _ _ _ _ _ _ h
      case zeroOrMore => exact i4 _ _ _ _ _ _ h
      case seq => exact i3 _ _ _ _ _ h
      all_goals exact hb _ _ _ _ (fun o => i1 _ _ _ o) (fun _ _ _ _ h => h) (fun _ h => h) h
    · intro es cs fr o h
      cases es with
      | nil => rw [choice_nil] at h ⊢; exact h
      | cons e es =>
        rw [choice_cons] at h ⊢
        exact hb _ _ _ _ (fun o => i1 _ _ _ o) (fun _ _ _ _ h => h) (fun _ h => i2 _ _ _ _ h) h
    · intro es vs cs fr o h
      cases es with
      | nil => rw [seq_nil] at h ⊢; exact h
      | cons e es =>
        rw [seq_cons] at h ⊢
        exact hb _ _ _ _ (fun o => i1 _ _ _ o) (fun _ _ _ _ h => i3 _ _ _ _ _ h) (fun _ h => h) h
    · intro e need vs cs fr o h
      rw [loop_step] at h ⊢
      exact hb _ _ _ _ (fun o => i1 _ _ _ o) (fun _ _ _ _ h => i4 _ _ _ _ _ _ h) (fun _ h => h) h

theorem runF_mono (e cs fr) : Mono (runF G e cs fr) := fun n o => (mono_all G n).1 _ _ _ o
theorem choiceF_mono (es cs fr) : Mono (choiceF G es cs fr) := fun n o => (mono_all G n).2.1 _ _ _ o
theorem seqF_mono (es vs cs fr) : Mono (seqF G es vs cs fr) := fun n o => (mono_all G n).2.2.1 _ _ _ _ o
theorem loopF_mono (e need vs cs fr) : Mono (loopF G e need vs cs fr) := fun n o => (mono_all G n).2.2.2 _ _ _ _ _ o

noncomputable def exec (e : PExpr) (cs : Str) (fr : Frame) : COut := lim (runF G e cs fr)
noncomputable def execChoice (es : List PExpr) (cs : Str) (fr : Frame) : COut := lim (choiceF G es cs fr)
noncomputable def execSeq (es : List PExpr) (vs : List Dyn) (cs : Str) (fr : Frame) : COut := lim (seqF G es vs cs fr)
noncomputable def execLoop (e : PExpr) (need : Bool) (vs : List Dyn) (cs : Str) (fr : Frame) : COut := lim (loopF G e need vs cs fr)

theorem exec_step (e cs fr) : exec G e cs fr = lim (stepC G (runF G) (choiceF G) (seqF G) (loopF G) e cs fr) := by
  rw [exec, ← lim_succ (runF_mono G e cs fr) (by simp [runF, runC])]
  congr 1; funext n; exact runC_step G e cs fr n

variable {G}

theorem exec_action (a e cs fr) : exec G (.action a e) cs fr =
    match exec G e cs fr with
    | .ok _ cs' fr' => actC G a cs cs' fr'
    | .fail => .fail
    | .abort => .abort := by
  rw [exec_step]; simp only [stepC]
  rw [lim_bind (runF_mono _ _ _ _) (fun _ _ _ => constF_mono _) (constF_mono _)]
  simp only [lim_const]; rfl

theorem exec_any (cs fr) : exec G .any cs fr = anyC cs fr := by
  rw [exec_step]; simp only [stepC, lim_const]

theorem exec_cls (a b c cs fr) : exec G (.cls a b c) cs fr = clsC a b c cs fr := by
  rw [exec_step]; simp only [stepC, lim_const]

theorem exec_lit (a cs fr) : exec G (.lit a) cs fr = litC a cs fr := by
  rw [exec_step]; simp only [stepC, lim_const]

theorem exec_choice (es cs fr) : exec G (.choice es) cs fr = execChoice G es cs fr := by
  rw [exec_step]; rfl

theorem exec_seq (es cs fr) : exec G (.seq es) cs fr = execSeq G es [] cs fr := by
  rw [exec_step]; rfl

theorem exec_zeroOrMore (e cs fr) : exec G (.zeroOrMore e) cs fr = execLoop G e false [] cs fr := by
  rw [exec_step]; rfl

theorem exec_oneOrMore (e cs fr) : exec G (.oneOrMore e) cs fr = execLoop G e true [] cs fr := by
  rw [exec_step]; rfl

theorem exec_labeled (l e cs fr) : exec G (.labeled l e) cs fr =
    match exec G e cs Frame.empty with
    | .ok v cs' _ => .ok v cs' (fr.set l v)
    | .fail => .fail
    | .abort => .abort := by
  rw [exec_step]; simp only [stepC]
  rw [lim_bind (runF_mono _ _ _ _) (fun _ _ _ => constF_mono _) (constF_mono _)]
  simp only [lim_const]; rfl

theorem exec_not (e cs fr) : exec G (.not e) cs fr =
    match exec G e cs Frame.empty with
    | .ok _ _ _ => .fail
    | .fail => .ok .nil cs fr
    | .abort => .abort := by
  rw [exec_step]; simp only [stepC]
  rw [lim_bind (runF_mono _ _ _ _) (fun _ _ _ => constF_mono _) (constF_mono _)]
  simp only [lim_const]; rfl

theorem exec_ruleRef (r cs fr) : exec G (.ruleRef r) cs fr = popC fr (exec G (G.rules r) cs Frame.empty) := by
  rw [exec_step]; simp only [stepC]
  rw [lim_bind (runF_mono _ _ _ _) (fun _ _ _ => constF_mono _) (constF_mono _)]
  simp only [lim_const]
  show (match exec G (G.rules r) cs Frame.empty with | .ok v c _ => _ | .fail => _ | .abort => _) = _
  cases exec G (G.rules r) cs Frame.empty <;> rfl

theorem exec_zeroOrOne (e cs fr) : exec G (.zeroOrOne e) cs fr =
    match exec G e cs Frame.empty with
    | .ok v cs' _ => .ok v cs' fr
    | .fail => .ok .nil cs fr
    | .abort => .abort := by
  rw [exec_step]; simp only [stepC]
  rw [lim_bind (runF_mono _ _ _ _) (fun _ _ _ => constF_mono _) (constF_mono _)]
  simp only [lim_const]; rfl

theorem execChoice_nil (cs fr) : execChoice G [] cs fr = .fail :=
  lim_eq (choiceF_mono _ _ _ _) (n := 1) (choice_nil _ _ _ _)

theorem execChoice_cons (e es cs fr) : execChoice G (e :: es) cs fr =
    match exec G e cs Frame.empty with
    | .ok v cs' _ => .ok v cs' fr
    | .fail => execChoice G es cs fr
    | .abort => .abort := by
  rw [execChoice, ← lim_succ (choiceF_mono _ _ _ _) (by simp [choiceF, runCChoice])]
  have : (fun n => choiceF G (e :: es) cs fr (n + 1)) =
    bindF (runF G e cs Frame.empty) (fun v cs' _ => constF (.ok v cs' fr)) (choiceF G es cs fr) := by
      funext n; exact choice_cons G e es cs fr n
  rw [this, lim_bind (runF_mono _ _ _ _) (fun _ _ _ => constF_mono _) (choiceF_mono _ _ _ _)]
  simp only [lim_const]; rfl

theorem execSeq_nil (vs cs fr) : execSeq G [] vs cs fr = .ok (.list vs) cs fr :=
  lim_eq (seqF_mono _ _ _ _ _) (n := 1) (seq_nil _ _ _ _ _)

theorem execSeq_cons (e es vs cs fr) : execSeq G (e :: es) vs cs fr =
    match exec G e cs fr with
    | .ok v cs' fr' => execSeq G es (vs ++ [v]) cs' fr'
    | .fail => .fail
    | .abort => .abort := by
  rw [execSeq, ← lim_succ (seqF_mono _ _ _ _ _) (by simp [seqF, runCSeq])]
  have : (fun n => seqF G (e :: es) vs cs fr (n + 1)) =
    bindF (runF G e cs fr) (fun v cs' fr' => seqF G es (vs ++ [v]) cs' fr') (constF .fail) := by
      funext n; exact seq_cons G e es vs cs fr n
  rw [this, lim_bind (runF_mono _ _ _ _) (fun _ _ _ => seqF_mono _ _ _ _ _) (constF_mono _)]
  simp only [lim_const]; rfl

theorem execLoop_eq (e need vs cs fr) : execLoop G e need vs cs fr =
    match exec G e cs Frame.empty with
    | .ok v cs' _ => execLoop G e need (vs ++ [v]) cs' fr
    | .fail => if need && vs.isEmpty then .fail else .ok (.list vs) cs fr
    | .abort => .abort := by
  rw [execLoop, ← lim_succ (loopF_mono _ _ _ _ _ _) (by simp [loopF, runCLoop])]
  have : (fun n => loopF G e need vs cs fr (n + 1)) =
    bindF (runF G e cs Frame.empty) (fun v cs' _ => loopF G e need (vs ++ [v]) cs' fr)
      (constF (if need && vs.isEmpty then .fail else .ok (.list vs) cs fr)) := by
      funext n; exact loop_step G e need vs cs fr n
  rw [this, lim_bind (runF_mono _ _ _ _) (fun _ _ _ => loopF_mono _ _ _ _ _ _) (constF_mono _)]
  simp only [lim_const]; rfl

/-! ## Loops -/

/-- `e` matched repeatedly from `cs` with values `vs`, and failed at `cs'`. -/
inductive Items (G : Grammar) (e : PExpr) : Str → List Dyn → Str → Prop where
  | nil {cs} : exec G e cs Frame.empty = .fail → Items G e cs [] cs
  | cons {cs v cs1 fr vs cs2} : exec G e cs Frame.empty = .ok v cs1 fr → Items G e cs1 vs cs2 → Items G e cs (v :: vs) cs2

theorem loop_of_items {e need vs vs' cs cs' fr} (h : Items G e cs vs' cs') (hn : need = true → vs ++ vs' ≠ []) :
    execLoop G e need vs cs fr = .ok (.list (vs ++ vs')) cs' fr := by
  induction h generalizing vs with
  | nil h =>
    rw [execLoop_eq, h]
    simp only []
    rw [if_neg]
    · simp
    · intro hc
      simp only [Bool.and_eq_true, List.isEmpty_iff] at hc
      exact hn hc.1 (by simp [hc.2])
  | cons h1 _ ih =>
    rw [execLoop_eq, h1]
    simp only []
    rw [ih (by simp)]
    simp

theorem items_of_loop {e need vs cs v cs' fr fr'} (h : execLoop G e need vs cs fr = .ok v cs' fr') :
    ∃ vs', Items G e cs vs' cs' ∧ v = .list (vs ++ vs') ∧ fr' = fr ∧ (need = true → vs ++ vs' ≠ []) := by
  obtain ⟨n, hn⟩ := lim_spec h (by simp)
  induction n generalizing vs cs with
  | zero => simp [loopF, runCLoop] at hn
  | succ n ih =>
    have h' := h
    rw [execLoop_eq] at h'
    rw [loop_step] at hn
    unfold bindF at hn
    cases hr : runF G e cs Frame.empty n with
    | none => rw [hr] at hn; simp at hn
    | some x =>
      rw [hr] at hn
      have he : exec G e cs Frame.empty = x := lim_eq (runF_mono _ _ _ _) hr
      rw [he] at h'
      cases x with
      | abort => simp at h'
      | ok v1 cs1 fr1 =>
        obtain ⟨vs', i1, i2, i3, i4⟩ := ih h' hn
        exact ⟨v1 :: vs', .cons he i1, by simp [i2], i3, fun hh => by simp⟩
      | fail =>
        simp only [] at h'
        split at h'
        · simp at h'
        · rename_i hne
          simp only [COut.ok.injEq] at h'
          obtain ⟨rfl, rfl, rfl⟩ := h'
          refine ⟨[], .nil he, by simp, rfl, ?_⟩
          intro hh hc
          apply hne
          simp only [List.append_nil] at hc
          simp [hh, hc]

/-! ## Progress -/

theorem exec_suffix {e cs fr v cs' fr'} (h : exec G e cs fr = .ok v cs' fr') : ∃ t, cs = t ++ cs' := by
  obtain ⟨n, hn⟩ := lim_spec h (by simp)
  have hs := (sim G n).1 e cs fr []
  simp only [runF] at hn
  rw [hn] at hs
  obtain ⟨a, ha⟩ := hs
  have := run_suffix ha
  obtain ⟨t, ht⟩ := this
  have ht : cs.map Sym.ok = t ++ cs'.map Sym.ok := ht.symm
  have hlen : t.length ≤ cs.length := by
    have := congrArg List.length ht; simp at this; omega
  refine ⟨cs.take t.length, ?_⟩
  have h1 := congrArg (List.drop t.length) ht
  rw [List.drop_left, ← List.map_drop] at h1
  have h2 : cs.drop t.length = cs' := (List.map_inj_right (fun a b h => by simpa using h)).1 h1
  rw [← h2, List.take_append_drop]

end
end Verif.Proof

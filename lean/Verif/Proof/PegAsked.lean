import Verif.Proof.Peg
import Verif.Spec.Submitted
import Verif.Proof.ParseMain
import Verif.Proof.GoTree
/-!
# What the machine matches, and which Go texts it submits, does not depend on what the actions return
-/
namespace Verif.Proof
open Verif Verif.Spec

/-- Same position and same submitted texts. -/
def SameSt (s s0 : St) : Prop := s.pos = s0.pos ∧ s.asked = s0.asked

/-- The second outcome is like the first, unless the first one is a panic. -/
def Like : POut → Option POut → Prop
  | .ok _ s, o0 => ∃ v0 s0, o0 = some (.ok v0 s0) ∧ SameSt s s0
  | .fail s, o0 => ∃ s0, o0 = some (.fail s0) ∧ SameSt s s0
  | .panic _, _ => True

theorem same_push {s s0 : St} (h : SameSt s s0) : SameSt (push s) (push s0) := h
theorem same_noteBad {s s0 : St} (h : SameSt s s0) : SameSt (noteBad s) (noteBad s0) := by
  obtain ⟨h1, h2⟩ := h
  unfold noteBad
  rw [← h1]
  split <;> exact ⟨by first | assumption | simp_all, h2⟩
theorem same_read {s s0 : St} (h : SameSt s s0) : SameSt (Verif.read s) (Verif.read s0) :=
  same_noteBad ⟨by simp [h.1], h.2⟩

theorem like_pop {o : POut} {o0 : Option POut} {fr fr0} (h : Like o o0) : Like (popTo fr o) (o0.map (popTo fr0)) := by
  cases o with
  | ok v s => obtain ⟨v0, s0, rfl, hs⟩ := h; exact ⟨v0, _, rfl, hs⟩
  | fail s => obtain ⟨s0, rfl, hs⟩ := h; exact ⟨_, rfl, hs⟩
  | panic s => trivial

theorem like_lit (start : List Sym) (val : List Char) : ∀ {s s0}, SameSt s s0 → Like (litLoop start val s) (some (litLoop start val s0)) := by
  induction val with
  | nil => intro s s0 h; simp only [litLoop]; exact ⟨_, _, rfl, h⟩
  | cons w val ih =>
    intro s s0 h
    simp only [litLoop]
    rw [← h.1]
    cases hp : s.pos with
    | nil => exact ⟨_, rfl, rfl, h.2⟩
    | cons x r =>
      simp only []
      split
      · exact ih (same_read h)
      · exact ⟨_, rfl, rfl, h.2⟩

theorem like_cls (a b c) {s s0} (h : SameSt s s0) : Like (parseCls a b c s) (some (parseCls a b c s0)) := by
  unfold parseCls
  rw [← h.1]
  cases hp : s.pos with
  | nil => exact ⟨_, rfl, h⟩
  | cons x r =>
    simp only []
    split <;> split
    · exact ⟨_, rfl, h⟩
    · exact ⟨_, _, rfl, same_read h⟩
    · exact ⟨_, _, rfl, same_read h⟩
    · exact ⟨_, rfl, h⟩

theorem like_any {s s0} (h : SameSt s s0) : Like (parseAny s) (some (parseAny s0)) := by
  unfold parseAny
  rw [← h.1]
  cases hp : s.pos with
  | nil => exact ⟨_, rfl, h⟩
  | cons x r => exact ⟨_, _, rfl, same_read h⟩

section
variable {G G0 : Grammar} (hr : G0.rules = G.rules) (ha : G0.asks = G.asks) (hp : ∀ a fr t, G0.act a fr t ≠ .panic)
include ha hp

theorem like_action (a) {start s s0} (h : SameSt s s0) : Like (runAction G a start s) (some (runAction G0 a start s0)) := by
  obtain ⟨h1, h2⟩ := h
  unfold runAction
  simp only [← h1, ha]
  generalize htx : sliceFrom start s.pos = tx
  cases G.act a s.frame tx with
  | panic => trivial
  | ok v =>
    cases hact : G0.act a s0.frame tx with
    | ok v => exact ⟨_, _, rfl, rfl, by simp [h2]⟩
    | err e => exact ⟨_, _, rfl, rfl, by simp [h2]⟩
    | panic => exact absurd hact (hp _ _ _)
  | err e =>
    cases hact : G0.act a s0.frame tx with
    | ok v => exact ⟨_, _, rfl, rfl, by simp [h2]⟩
    | err e => exact ⟨_, _, rfl, rfl, by simp [h2]⟩
    | panic => exact absurd hact (hp _ _ _)

include hr
theorem like_all (n : Nat) :
    (∀ e s s0 o, SameSt s s0 → run G n e s = some o → Like o (run G0 n e s0)) ∧
    (∀ es s s0 o, SameSt s s0 → runChoice G n es s = some o → Like o (runChoice G0 n es s0)) ∧
    (∀ start es vs vs0 s s0 o, SameSt s s0 → runSeq G n start es vs s = some o → Like o (runSeq G0 n start es vs0 s0)) ∧
    (∀ e need vs vs0 s s0 o, vs.isEmpty = vs0.isEmpty → SameSt s s0 → runLoop G n e need vs s = some o →
      Like o (runLoop G0 n e need vs0 s0)) := by
  induction n with
  | zero => simp [run, runChoice, runSeq, runLoop]
  | succ n ih =>
    obtain ⟨ih1, ih2, ih3, ih4⟩ := ih
    have map1 : ∀ e s s0 o, SameSt s s0 → (run G n e (push s)).map (popTo s.frame) = some o →
        Like o ((run G0 n e (push s0)).map (popTo s0.frame)) := by
      intro e s s0 o hs h
      rw [Option.map_eq_some_iff] at h
      obtain ⟨a, ha, rfl⟩ := h
      exact like_pop (ih1 _ _ _ _ (same_push hs) ha)
    refine ⟨?_, ?_, ?_, ?_⟩
    · intro e s s0 o hs h
      cases e with
      | action a e =>
        simp only [run] at h ⊢
        cases hx : run G n e s with
        | none => rw [hx] at h; simp at h
        | some x =>
          have hl := ih1 _ _ _ _ hs hx
          rw [hx] at h
          cases x with
          | ok v s' =>
            obtain ⟨v0, s0', e0, hs'⟩ := hl
            simp at h; subst h
            rw [e0, hs.1]
            exact like_action ha hp a hs'
          | fail s' => obtain ⟨s0', e0, hs'⟩ := hl; simp at h; subst h; rw [e0]; exact ⟨_, rfl, hs'⟩
          | panic s' => simp at h; subst h; trivial
      | any => simp only [run, Option.some.injEq] at h ⊢; subst h; exact like_any hs
      | cls => simp only [run, Option.some.injEq] at h ⊢; subst h; exact like_cls _ _ _ hs
      | choice es => simp only [run] at h ⊢; exact ih2 _ _ _ _ hs h
      | labeled l e =>
        simp only [run] at h ⊢
        cases hx : (run G n e (push s)).map (popTo s.frame) with
        | none => rw [hx] at h; simp at h
        | some x =>
          have hl := map1 _ _ _ _ hs hx
          rw [hx] at h
          cases x with
          | ok v s' =>
            obtain ⟨v0, s0', e0, hs'⟩ := hl
            simp at h; subst h
            rw [e0]
            exact ⟨_, _, rfl, hs'⟩
          | fail s' => obtain ⟨s0', e0, hs'⟩ := hl; simp at h; subst h; rw [e0]; exact ⟨_, rfl, hs'⟩
          | panic s' => simp at h; subst h; trivial
      | lit v => simp only [run, Option.some.injEq] at h ⊢; subst h; rw [hs.1]; exact like_lit _ _ hs
      | not e =>
        simp only [run] at h ⊢
        cases hx : (run G n e (push s)).map (popTo s.frame) with
        | none => rw [hx] at h; simp at h
        | some x =>
          have hl := map1 _ _ _ _ hs hx
          rw [hx] at h
          cases x with
          | ok v s' =>
            obtain ⟨v0, s0', e0, hs'⟩ := hl
            simp at h; subst h
            rw [e0]
            exact ⟨_, rfl, hs.1, hs'.2⟩
          | fail s' => obtain ⟨s0', e0, hs'⟩ := hl; simp at h; subst h; rw [e0]; exact ⟨_, _, rfl, hs.1, hs'.2⟩
          | panic s' => simp at h; subst h; trivial
      | oneOrMore e => simp only [run] at h ⊢; exact ih4 _ _ _ _ _ _ _ rfl hs h
      | ruleRef r => simp only [run] at h ⊢; rw [hr]; exact map1 _ _ _ _ hs h
      | seq es => simp only [run] at h ⊢; rw [← hs.1]; exact ih3 _ _ _ _ _ _ _ hs h
      | zeroOrMore e => simp only [run] at h ⊢; exact ih4 _ _ _ _ _ _ _ rfl hs h
      | zeroOrOne e =>
        simp only [run] at h ⊢
        cases hx : (run G n e (push s)).map (popTo s.frame) with
        | none => rw [hx] at h; simp at h
        | some x =>
          have hl := map1 _ _ _ _ hs hx
          rw [hx] at h
          cases x with
          | ok v s' =>
            obtain ⟨v0, s0', e0, hs'⟩ := hl
            simp at h; subst h
            rw [e0]
            exact ⟨_, _, rfl, hs'⟩
          | fail s' => obtain ⟨s0', e0, hs'⟩ := hl; simp at h; subst h; rw [e0]; exact ⟨_, _, rfl, hs'⟩
          | panic s' => simp at h; subst h; trivial
    · intro es s s0 o hs h
      cases es with
      | nil => simp only [runChoice, Option.some.injEq] at h ⊢; subst h; exact ⟨_, rfl, hs⟩
      | cons e es =>
        rw [runChoice] at h ⊢
        cases hx : (run G n e (push s)).map (popTo s.frame) with
        | none => rw [hx] at h; simp at h
        | some x =>
          have hl := map1 _ _ _ _ hs hx
          rw [hx] at h
          cases x with
          | ok v s' =>
            obtain ⟨v0, s0', e0, hs'⟩ := hl
            simp at h; subst h
            rw [e0]
            exact ⟨_, _, rfl, hs'⟩
          | fail s' => obtain ⟨s0', e0, hs'⟩ := hl; rw [e0]; exact ih2 _ _ _ _ hs' h
          | panic s' => simp at h; subst h; trivial
    · intro start es vs vs0 s s0 o hs h
      cases es with
      | nil => simp only [runSeq, Option.some.injEq] at h ⊢; subst h; exact ⟨_, _, rfl, hs⟩
      | cons e es =>
        rw [runSeq] at h ⊢
        cases hx : run G n e s with
        | none => rw [hx] at h; simp at h
        | some x =>
          have hl := ih1 _ _ _ _ hs hx
          rw [hx] at h
          cases x with
          | ok v s' => obtain ⟨v0, s0', e0, hs'⟩ := hl; rw [e0]; exact ih3 _ _ _ _ _ _ _ hs' h
          | fail s' => obtain ⟨s0', e0, hs'⟩ := hl; simp at h; subst h; rw [e0]; exact ⟨_, rfl, rfl, hs'.2⟩
          | panic s' => simp at h; subst h; trivial
    · intro e need vs vs0 s s0 o hv hs h
      rw [runLoop] at h ⊢
      cases hx : (run G n e (push s)).map (popTo s.frame) with
      | none => rw [hx] at h; simp at h
      | some x =>
        have hl := map1 _ _ _ _ hs hx
        rw [hx] at h
        cases x with
        | ok v s' =>
          obtain ⟨v0, s0', e0, hs'⟩ := hl
          rw [e0]
          exact ih4 _ _ _ _ _ _ _ (by cases vs <;> cases vs0 <;> rfl) hs' h
        | fail s' =>
          obtain ⟨s0', e0, hs'⟩ := hl
          rw [e0]
          simp only [← hv]
          have h : (if (need && vs.isEmpty) = true then some (POut.fail s') else some (.ok (.list vs) s')) = some o := h
          split at h
          · rename_i hc; rw [if_pos hc]; simp at h; subst h; exact ⟨_, rfl, hs'⟩
          · rename_i hc; rw [if_neg hc]; simp at h; subst h; exact ⟨_, _, rfl, hs'⟩
        | panic s' => simp at h; subst h; trivial
end

/-! ## The rules grammar -/

theorem like_rule (lib : GoLib) {n s o} (h : run (ruleGrammar lib) n (.ruleRef .File) s = some o) :
    Like o (run matchOnly n (.ruleRef .File) s) :=
  (like_all (G := ruleGrammar lib) (G0 := matchOnly) rfl rfl (by intro a fr t h; simp [matchOnly] at h) n).1 _ _ _ _ ⟨rfl, rfl⟩ h

theorem asked_of_like (n : Nat) {d : List Sym} {v s} (h : Like (.ok v s) (run matchOnly n (.ruleRef .File) (initSt d))) :
    ∃ x y, parseSyms matchOnly n d = some (x, y, s.asked) := by
  obtain ⟨v0, s0, e0, hs⟩ := h
  rw [parseSyms, e0, hs.2]
  exact ⟨_, _, rfl⟩

theorem submitted_eq {bs x y z} (h : parseSyms matchOnly (depthBound bs.length) (decode bs) = some (x, y, z)) : submitted bs = z := by
  unfold submitted
  rw [h]

/-- Whenever the machine matches, the texts it submitted are those of `submitted`. -/
theorem asked_submitted {lib bs v s} (h : run (ruleGrammar lib) (depthBound bs.length) (.ruleRef .File) (initSt (decode bs)) = some (.ok v s)) :
    s.asked = submitted bs := by
  obtain ⟨x, y, hx⟩ := asked_of_like _ (like_rule lib h)
  exact (submitted_eq hx).symm

/-- An accepting action got an accepting answer from `goexpr.Parse`. -/
theorem act_accepts {lib a fr t v u} (h : gAct lib a fr t = .ok v) (hu : u ∈ (gAsks a t).toList) : ∃ e, GoText lib u e := by
  have key : ∀ {x w}, viaGo lib x w = .ok v → ∃ e, GoText lib x e := by
    intro x w h
    unfold viaGo at h
    cases hg : goexprParse lib x with
    | ok e => exact ⟨e, goexprParse_ok_iff.1 hg⟩
    | err e => rw [hg] at h; simp at h
    | panic => rw [hg] at h; simp at h
  cases a <;> simp only [gAsks, Option.toList, List.mem_singleton, List.not_mem_nil] at hu
  all_goals (subst hu; exact key h)

/-- If there is no error then everything submitted was accepted. -/
theorem step_accepts (lib : GoLib) : Step (ruleGrammar lib) (fun s s' => (∃ l, s'.errs = s.errs ++ l) ∧
    ((∀ t ∈ s.asked, ∃ e, GoText lib t e) → s'.errs = [] → ∀ t ∈ s'.asked, ∃ e, GoText lib t e)) where
  refl s := ⟨⟨[], by simp⟩, fun h _ => h⟩
  trans a b c := by
    rintro ⟨⟨l, hl⟩, h⟩ ⟨⟨m, hm⟩, h'⟩
    refine ⟨⟨l ++ m, by rw [hm, hl]; simp⟩, fun ha hc => h' (h ha ?_) hc⟩
    rw [hc] at hm
    exact (List.append_eq_nil_iff.1 hm.symm).1
  frameL s s' fr h := h
  frameR s s' fr h := h
  read s x l hp := by
    obtain ⟨l, hl⟩ := read_eq s
    refine ⟨⟨l, by rw [hl]⟩, fun h _ => ?_⟩
    rw [hl]; exact h
  restore s s' h := h
  action a st s v s' h := by
    refine ⟨by obtain ⟨l, m, rfl⟩ := runAction_ok h; exact ⟨l, rfl⟩, fun ha he => ?_⟩
    unfold runAction at h
    simp only [] at h
    split at h
    · rename_i v' hact
      simp at h; obtain ⟨_, rfl⟩ := h
      intro t ht
      rcases List.mem_append.1 ht with ht | ht
      · exact ha t ht
      · exact act_accepts hact ht
    · simp at h; obtain ⟨_, rfl⟩ := h; simp at he
    · simp at h

theorem initSt_asked (d : List Sym) : (initSt d).asked = [] := by
  unfold initSt; obtain ⟨l, hl⟩ := noteBad_eq { pos := d, frame := Frame.empty, errs := [], asked := [] }; rw [hl]

/-- Acceptance requires that every submitted text is a Go expression. -/
theorem accepted_submitted {lib bs f} (h : parseBytes lib bs = .ok f) : ∀ t ∈ submitted bs, ∃ e, GoText lib t e := by
  obtain ⟨s, hr, he⟩ := parse_ok_iff.1 h
  rw [← asked_submitted hr]
  exact (((step_accepts lib).run _).1 _ _ _ hr).2 (by rw [initSt_asked]; simp) he

/-! ## Two Go parsers that agree on the submitted texts -/

/-- The texts submitted so far are among `S`, and there are no errors. -/
def QuietIn (S : List Str) (s : St) : Prop := (∀ t ∈ s.asked, t ∈ S) ∧ s.errs = []

/-- … in a (non-panic) outcome. -/
def AskedIn (S : List Str) : POut → Prop
  | .ok _ s => QuietIn S s
  | .fail s => QuietIn S s
  | .panic _ => False

/-- Submitted texts and errors are not forgotten. -/
def Grows (s s' : St) : Prop := (∀ t ∈ s.asked, t ∈ s'.asked) ∧ (s'.errs = [] → s.errs = [])

theorem step_asked (G : Grammar) : Step G Grows where
  refl s := ⟨fun _ h => h, id⟩
  trans a b c h h' := ⟨fun t ht => h'.1 t (h.1 t ht), fun e => h.2 (h'.2 e)⟩
  frameL s s' fr h := h
  frameR s s' fr h := h
  read s x l hp := by
    obtain ⟨l, hl⟩ := read_eq s; rw [hl]
    exact ⟨fun _ h => h, fun e => (List.append_eq_nil_iff.1 e).1⟩
  restore s s' h := h
  action a st s v s' h := by
    obtain ⟨l, m, rfl⟩ := runAction_ok h
    exact ⟨fun t ht => List.mem_append_left _ ht, fun e => (List.append_eq_nil_iff.1 e).1⟩

section
variable {G G' : Grammar} {S : List Str} (hr : G'.rules = G.rules) (ha : G'.asks = G.asks)
  (hact : ∀ a fr t, (∀ u ∈ (G.asks a t).toList, u ∈ S) → ∀ v, G.act a fr t = .ok v → G'.act a fr t = .ok v)

theorem askedIn_mono {s o} (h : After Grows s o) (ho : AskedIn S o) : QuietIn S s := by
  cases o with
  | ok v s' => exact ⟨fun t ht => ho.1 t (h.1 t ht), h.2 ho.2⟩
  | fail s' => exact ⟨fun t ht => ho.1 t (h.1 t ht), h.2 ho.2⟩
  | panic s' => exact absurd ho (by simp [AskedIn])

theorem askedIn_pop {fr o} : AskedIn S (popTo fr o) ↔ AskedIn S o := by cases o <;> rfl

theorem seq_asked (n : Nat) : ∀ start es vs s o, runSeq G n start es vs s = some o →
    After Grows s o := by
  induction n with
  | zero => intro start es vs s o h; simp [runSeq] at h
  | succ n ih =>
    intro start es vs s o h
    cases es with
    | nil => simp [runSeq] at h; subst h; exact ⟨fun _ h => h, id⟩
    | cons e es =>
      rw [runSeq] at h
      cases hx : run G n e s with
      | none => rw [hx] at h; simp at h
      | some x =>
        have := ((step_asked G).run n).1 _ _ _ hx
        rw [hx] at h
        cases x with
        | ok v s' => exact (step_asked G).trans' _ _ _ this (ih _ _ _ _ _ h)
        | fail s' => simp at h; subst h; exact this
        | panic s' => simp at h; subst h; trivial

include hr ha hact
theorem agree_all (n : Nat) :
    (∀ e s o, run G n e s = some o → AskedIn S o → run G' n e s = some o) ∧
    (∀ es s o, runChoice G n es s = some o → AskedIn S o → runChoice G' n es s = some o) ∧
    (∀ start es vs s o, runSeq G n start es vs s = some o → AskedIn S o → runSeq G' n start es vs s = some o) ∧
    (∀ e need vs s o, runLoop G n e need vs s = some o → AskedIn S o → runLoop G' n e need vs s = some o) := by
  induction n with
  | zero => simp [run, runChoice, runSeq, runLoop]
  | succ n ih =>
    obtain ⟨ih1, ih2, ih3, ih4⟩ := ih
    have map1 : ∀ e s fr o, (run G n e s).map (popTo fr) = some o → AskedIn S o → (run G' n e s).map (popTo fr) = some o := by
      intro e s fr o h ho
      rw [Option.map_eq_some_iff] at h ⊢
      obtain ⟨a, ha, rfl⟩ := h
      exact ⟨a, ih1 _ _ _ ha (askedIn_pop.1 ho), rfl⟩
    refine ⟨?_, ?_, ?_, ?_⟩
    · intro e s o h ho
      cases e with
      | action a e =>
        simp only [run] at h ⊢
        cases hx : run G n e s with
        | none => rw [hx] at h; simp at h
        | some x =>
          rw [hx] at h
          cases x with
          | fail s' => simp at h; subst h; rw [ih1 _ _ _ hx ho]
          | panic s' => simp at h; subst h; exact absurd ho (by simp [AskedIn])
          | ok v s' =>
            simp only [Option.some.injEq] at h
            cases hact' : G.act a s'.frame (sliceFrom s.pos s'.pos) with
            | ok v' =>
              subst h
              simp only [runAction, hact'] at ho ⊢
              have hin : ∀ t ∈ s'.asked ++ (G.asks a (sliceFrom s.pos s'.pos)).toList, t ∈ S := ho.1
              rw [ih1 _ _ _ hx ⟨fun t ht => hin t (by simp [ht]), ho.2⟩]
              simp only [Option.some.injEq, ha]
              rw [hact _ _ _ (fun u hu => hin u (List.mem_append_right _ hu)) _ hact']
            | err e' =>
              subst h
              simp only [runAction, hact'] at ho
              exact absurd ho.2 (by simp)
            | panic =>
              subst h
              simp only [runAction, hact'] at ho
              exact absurd ho (by simp [AskedIn])
      | any => simpa [run] using h
      | cls => simpa [run] using h
      | choice es => simp only [run] at h ⊢; exact ih2 _ _ _ h ho
      | labeled l e =>
        simp only [run] at h ⊢
        cases hx : (run G n e (push s)).map (popTo s.frame) with
        | none => rw [hx] at h; simp at h
        | some x =>
          rw [hx] at h
          cases x with
          | ok v s' => simp at h; subst h; rw [map1 _ _ _ _ hx ho]
          | fail s' => simp at h; subst h; rw [map1 _ _ _ _ hx ho]
          | panic s' => simp at h; subst h; exact absurd ho (by simp [AskedIn])
      | lit v => simpa [run] using h
      | not e =>
        simp only [run] at h ⊢
        cases hx : (run G n e (push s)).map (popTo s.frame) with
        | none => rw [hx] at h; simp at h
        | some x =>
          rw [hx] at h
          cases x with
          | ok v s' => simp at h; subst h; rw [map1 _ _ _ _ hx ho]
          | fail s' => simp at h; subst h; rw [map1 _ _ _ _ hx ho]
          | panic s' => simp at h; subst h; exact absurd ho (by simp [AskedIn])
      | oneOrMore e => simp only [run] at h ⊢; exact ih4 _ _ _ _ _ h ho
      | ruleRef r => simp only [run] at h ⊢; rw [hr]; exact map1 _ _ _ _ h ho
      | seq es => simp only [run] at h ⊢; exact ih3 _ _ _ _ _ h ho
      | zeroOrMore e => simp only [run] at h ⊢; exact ih4 _ _ _ _ _ h ho
      | zeroOrOne e =>
        simp only [run] at h ⊢
        cases hx : (run G n e (push s)).map (popTo s.frame) with
        | none => rw [hx] at h; simp at h
        | some x =>
          rw [hx] at h
          cases x with
          | ok v s' => simp at h; subst h; rw [map1 _ _ _ _ hx ho]
          | fail s' => simp at h; subst h; rw [map1 _ _ _ _ hx ho]
          | panic s' => simp at h; subst h; exact absurd ho (by simp [AskedIn])
    · intro es s o h ho
      cases es with
      | nil => simpa [runChoice] using h
      | cons e es =>
        rw [runChoice] at h ⊢
        cases hx : (run G n e (push s)).map (popTo s.frame) with
        | none => rw [hx] at h; simp at h
        | some x =>
          rw [hx] at h
          cases x with
          | ok v s' => simp at h; subst h; rw [map1 _ _ _ _ hx ho]
          | panic s' => simp at h; subst h; exact absurd ho (by simp [AskedIn])
          | fail s' =>
            have h : runChoice G n es s' = some o := h
            rw [map1 _ _ _ _ hx (show QuietIn S s' from askedIn_mono (((step_asked G).run n).2.1 _ _ _ h) ho)]
            exact ih2 _ _ _ h ho
    · intro start es vs s o h ho
      cases es with
      | nil => simpa [runSeq] using h
      | cons e es =>
        rw [runSeq] at h ⊢
        cases hx : run G n e s with
        | none => rw [hx] at h; simp at h
        | some x =>
          rw [hx] at h
          cases x with
          | fail s' => simp at h; subst h; rw [ih1 _ _ _ hx ho]
          | panic s' => simp at h; subst h; exact absurd ho (by simp [AskedIn])
          | ok v s' =>
            have h : runSeq G n start es (vs ++ [v]) s' = some o := h
            rw [ih1 _ _ _ hx (show QuietIn S s' from askedIn_mono (seq_asked n _ _ _ _ _ h) ho)]
            exact ih3 _ _ _ _ _ h ho
    · intro e need vs s o h ho
      rw [runLoop] at h ⊢
      cases hx : (run G n e (push s)).map (popTo s.frame) with
      | none => rw [hx] at h; simp at h
      | some x =>
        rw [hx] at h
        cases x with
        | fail s' =>
          have h2 : AskedIn S (.fail s') := by
            simp only [] at h
            split at h <;> (simp at h; subst h; exact ho)
          rw [map1 _ _ _ _ hx h2]; exact h
        | panic s' => simp at h; subst h; exact absurd ho (by simp [AskedIn])
        | ok v s' =>
          have h : runLoop G n e need (vs ++ [v]) s' = some o := h
          rw [map1 _ _ _ _ hx (show QuietIn S s' from askedIn_mono (((step_asked G).run n).2.2.2 _ _ _ _ _ h) ho)]
          exact ih4 _ _ _ _ _ h ho
end

/-- The outcome depends on the Go parser's answers for the submitted texts only. -/
theorem parse_agree {lib lib' : GoLib} {bs f} (hl : ∀ t ∈ submitted bs, lib'.parseExpr t = lib.parseExpr t)
    (h : parseBytes lib bs = .ok f) : parseBytes lib' bs = .ok f := by
  obtain ⟨s, hr, he⟩ := parse_ok_iff.1 h
  have hin : AskedIn (submitted bs) (.ok (.file f) s) := by exact ⟨by rw [asked_submitted hr]; exact fun _ h => h, he⟩
  have hag : ∀ a fr t, (∀ u ∈ ((ruleGrammar lib).asks a t).toList, u ∈ submitted bs) →
      ∀ v, (ruleGrammar lib).act a fr t = .ok v → (ruleGrammar lib').act a fr t = .ok v := by
    have key : ∀ x w, lib'.parseExpr x = lib.parseExpr x → ∀ v, viaGo lib x w = .ok v → viaGo lib' x w = .ok v := by
      intro x w h v
      unfold viaGo goexprParse
      rw [h]
      cases lib.parseExpr x with
      | none => simp
      | some e => exact id
    intro a fr t hu
    cases a <;> simp only [ruleGrammar, gAsks, Option.toList, List.mem_singleton, forall_eq, List.not_mem_nil] at hu <;>
      simp only [ruleGrammar, gAct]
    all_goals first | exact key _ _ (hl _ hu) | exact fun _ h => h
  refine parse_ok_iff.2 ⟨s, ?_, he⟩
  generalize depthBound bs.length = n at hr ⊢
  exact (agree_all (G := ruleGrammar lib) (G' := ruleGrammar lib') (S := submitted bs) rfl rfl hag n).1 _ _ _ hr hin

end Verif.Proof

import Verif.Model.Options
import Verif.Model.PegCount
import Verif.Proof.Peg
/-!
# The machine with a limit on the number of calls, against the machine that counts them
-/
namespace Verif.Proof.Opts
open Verif

/-- The state in an outcome. -/
def outSt : POut → St
  | .ok _ s => s
  | .fail s => s
  | .panic s => s

theorem outSt_popTo (fr o) : (outSt (popTo fr o)).errs = (outSt o).errs := by cases o <;> rfl

theorem over_mono {lim a b} (h : over lim a = true) (hab : a ≤ b) : over lim b = true := by
  cases lim with
  | none => simp [over] at h
  | some m => simp only [over, decide_eq_true_eq] at h ⊢; omega

/-- `y`, run with the limit from the counter `c` on, is `x` if that does not exceed the limit, and stops on the way otherwise; `E` are the errors before. -/
def Lim (E : List PErr) (lim : Option Nat) (c : Nat) (x : Option (POut × Nat)) (y : Option LOut) : Prop :=
  ∀ o k, x = some (o, k) → E <+: (outSt o).errs ∧ (over lim (c + k) = false → y = some (.done o (c + k))) ∧
    (over lim (c + k) = true → ∃ s', y = some (.limit s') ∧ E <+: s'.errs ∧ s'.errs <+: (outSt o).errs)

theorem read_errs (s : St) : s.errs <+: (read s).errs := by
  obtain ⟨l, h⟩ := read_eq s; rw [h]; exact List.prefix_append _ _

theorem any_errs (s : St) : s.errs <+: (outSt (parseAny s)).errs := by
  unfold parseAny; split
  · exact List.prefix_refl _
  · exact read_errs s

theorem cls_errs (a b c) (s : St) : s.errs <+: (outSt (parseCls a b c s)).errs := by
  unfold parseCls; split
  · exact List.prefix_refl _
  · split <;> split <;> first | exact List.prefix_refl _ | exact read_errs s

theorem lit_errs (start val) (s : St) : s.errs <+: (outSt (litLoop start val s)).errs := by
  induction val generalizing s with
  | nil => exact List.prefix_refl _
  | cons c cs ih =>
    unfold litLoop; split
    · exact List.prefix_refl _
    · split
      · exact (read_errs s).trans (ih _)
      · exact List.prefix_refl _

theorem action_errs (G a start) (s : St) : s.errs <+: (outSt (runAction G a start s)).errs := by
  unfold runAction; simp only []
  split
  · exact List.prefix_refl _
  · exact List.prefix_append _ _
  · exact List.prefix_refl _

theorem Lim.leaf {E lim c} {o : POut} (h : E <+: (outSt o).errs) (hc : over lim (c + 1) = false) : Lim E lim c (some (o, 1)) (some (.done o (c + 1))) := by
  intro o' k e; simp only [Option.some.injEq, Prod.mk.injEq] at e; obtain ⟨rfl, rfl⟩ := e
  exact ⟨h, fun _ => rfl, fun h' => by rw [hc] at h'; exact absurd h' (by simp)⟩

theorem Lim.pop {E lim c x y} (fr) (h : Lim E lim c x y) : Lim E lim c (popToN fr x) (y.map (popToL fr)) := by
  intro o k e
  rcases x with _ | ⟨o', k'⟩
  · simp [popToN] at e
  · simp only [popToN, Option.some.injEq, Prod.mk.injEq] at e
    obtain ⟨rfl, rfl⟩ := e
    obtain ⟨h1, h2, h3⟩ := h o' k' rfl
    refine ⟨by rw [outSt_popTo]; exact h1, fun ho => by rw [h2 ho]; rfl, fun ho => ?_⟩
    obtain ⟨s', h4, h5, h6⟩ := h3 ho
    exact ⟨s', by rw [h4]; rfl, h5, by rw [outSt_popTo]; exact h6⟩

theorem Lim.add {E lim c x y} (h : Lim E lim (c + 1) x y) : Lim E lim c (addCalls 1 x) y := by
  intro o k e
  rcases x with _ | ⟨o', k'⟩
  · simp [addCalls] at e
  · simp only [addCalls, Option.some.injEq, Prod.mk.injEq] at e
    obtain ⟨rfl, rfl⟩ := e
    have := h o' k' rfl
    rwa [show c + 1 + k' = c + (1 + k') by omega] at this

/-- An outcome changed afterwards by `f`, without counting or losing errors. -/
theorem Lim.map {E lim c x y} (f : POut → POut) (x' : Option (POut × Nat)) (y' : Option LOut) (h : Lim E lim c x y)
    (hx : ∀ o k, x = some (o, k) → x' = some (f o, k)) (hn : x = none → x' = none) (hf : ∀ o, (outSt o).errs <+: (outSt (f o)).errs)
    (hy : ∀ o k, y = some (.done o k) → y' = some (.done (f o) k)) (hl : ∀ s, y = some (.limit s) → y' = some (.limit s)) : Lim E lim c x' y' := by
  intro o k e
  rcases x with _ | ⟨o', k'⟩
  · rw [hn rfl] at e; simp at e
  · rw [hx _ _ rfl] at e
    simp only [Option.some.injEq, Prod.mk.injEq] at e
    obtain ⟨rfl, rfl⟩ := e
    obtain ⟨h1, h2, h3⟩ := h o' k' rfl
    refine ⟨h1.trans (hf _), fun ho => hy _ _ (h2 ho), fun ho => ?_⟩
    obtain ⟨s', h4, h5, h6⟩ := h3 ho
    exact ⟨s', hl _ h4, h5, h6.trans (hf _)⟩

/-- One run after another. -/
theorem Lim.andThen {E lim c x y} {o1 : POut} {k1 : Nat} {x2 : Option (POut × Nat)} {y2 : Option LOut} {y' : Option LOut} (h : Lim E lim c x y)
    (hx : x = some (o1, k1)) (h2 : over lim (c + k1) = false → Lim (outSt o1).errs lim (c + k1) x2 y2) (hm : ∀ o k, x2 = some (o, k) → (outSt o1).errs <+: (outSt o).errs)
    (hy : y = some (.done o1 (c + k1)) → y' = y2) (hl : ∀ s, y = some (.limit s) → y' = some (.limit s)) : Lim E lim c (addCalls k1 x2) y' := by
  intro o k e
  obtain ⟨h1, h3, h4⟩ := h _ _ hx
  rcases x2 with _ | ⟨o2, k2⟩
  · simp [addCalls] at e
  · simp only [addCalls, Option.some.injEq, Prod.mk.injEq] at e
    obtain ⟨rfl, rfl⟩ := e
    have hm := hm _ _ rfl
    refine ⟨h1.trans hm, ?_⟩
    cases hov : over lim (c + k1) with
    | true =>
      obtain ⟨s', h5, h6, h7⟩ := h4 hov
      exact ⟨fun ho => by rw [over_mono hov (by omega)] at ho; simp at ho, fun _ => ⟨s', hl _ h5, h6, h7.trans hm⟩⟩
    | false =>
      obtain ⟨a1, a2, a3⟩ := h2 hov o2 k2 rfl
      rw [show c + k1 + k2 = c + (k1 + k2) by omega] at a2 a3
      refine ⟨fun ho => by rw [hy (h3 hov)]; exact a2 ho, fun ho => ?_⟩
      obtain ⟨s', h5, h6, h7⟩ := a3 ho
      exact ⟨s', by rw [hy (h3 hov)]; exact h5, h1.trans h6, h7⟩

/-- Every call counts. -/
theorem runN_pos {G : Grammar} {n e s o k} (h : runN G n e s = some (o, k)) : 1 ≤ k := by
  cases n with
  | zero => simp [runN] at h
  | succ n =>
    have add : ∀ x : Option (POut × Nat), addCalls 1 x = some (o, k) → 1 ≤ k := by
      intro x hx; rcases x with _ | ⟨o', k'⟩
      · simp [addCalls] at hx
      · simp only [addCalls, Option.some.injEq, Prod.mk.injEq] at hx; omega
    cases e <;> rw [runN] at h
    case any => simp at h; omega
    case cls => simp at h; omega
    case lit => simp at h; omega
    case choice => exact add _ h
    case oneOrMore => exact add _ h
    case ruleRef => exact add _ h
    case seq => exact add _ h
    case zeroOrMore => exact add _ h
    case action a e =>
      generalize runN G n e s = x at h
      rcases x with _ | ⟨_ | _ | _, k'⟩
      · exact add none h
      · simp at h; omega
      · exact add (some _) h
      · exact add (some _) h
    case labeled a e =>
      generalize popToN s.frame (runN G n e (push s)) = x at h
      rcases x with _ | ⟨_ | _ | _, k'⟩
      · exact add none h
      · simp at h; omega
      · exact add (some _) h
      · exact add (some _) h
    case «not» e =>
      generalize popToN s.frame (runN G n e (push s)) = x at h
      rcases x with _ | ⟨_ | _ | _, k'⟩
      · exact add none h
      · simp at h; omega
      · simp at h; omega
      · exact add (some _) h
    case zeroOrOne e =>
      generalize popToN s.frame (runN G n e (push s)) = x at h
      rcases x with _ | ⟨_ | _ | _, k'⟩
      · exact add none h
      · exact add (some _) h
      · simp at h; omega
      · exact add (some _) h

theorem Lim.first {E lim c x y} (h : Lim E lim c x y) : ∀ o k, x = some (o, k) → E <+: (outSt o).errs := fun o k e => (h o k e).1

theorem Lim.weaken {E E' lim c x y} (h : Lim E lim c x y) (e : E = E') : Lim E' lim c x y := e ▸ h

/-- The end of a call: nothing is counted. -/
theorem Lim.none_more {E lim c} {o : POut} (h : E <+: (outSt o).errs) (hc : over lim c = false) : Lim E lim c (some (o, 0)) (some (.done o c)) := by
  intro o' k e; simp only [Option.some.injEq, Prod.mk.injEq] at e; obtain ⟨rfl, rfl⟩ := e
  exact ⟨h, fun _ => rfl, fun h' => by rw [Nat.add_zero, hc] at h'; exact absurd h' (by simp)⟩

/-- With a limit the machine does the same until the limit is exceeded. -/
theorem runL_all (G : Grammar) (n : Nat) :
    (∀ lim e s c, over lim c = false → Lim s.errs lim c (runN G n e s) (runL lim G n e s c)) ∧
    (∀ lim es s c, over lim c = false → Lim s.errs lim c (runNChoice G n es s) (runLChoice lim G n es s c)) ∧
    (∀ lim st es vs s c, over lim c = false → Lim s.errs lim c (runNSeq G n st es vs s) (runLSeq lim G n st es vs s c)) ∧
    (∀ lim e need vs s c, over lim c = false → Lim s.errs lim c (runNLoop G n e need vs s) (runLLoop lim G n e need vs s c)) := by
  induction n with
  | zero =>
    exact ⟨fun _ _ _ _ _ o k h => by simp [runN] at h, fun _ _ _ _ _ o k h => by simp [runNChoice] at h,
      fun _ _ _ _ _ _ _ o k h => by simp [runNSeq] at h, fun _ _ _ _ _ _ _ o k h => by simp [runNLoop] at h⟩
  | succ n ih =>
    obtain ⟨i1, i2, i3, i4⟩ := ih
    have popped : ∀ lim e s c, over lim c = false → Lim s.errs lim c (popToN s.frame (runN G n e (push s))) ((runL lim G n e (push s) c).map (popToL s.frame)) :=
      fun lim e s c h => (i1 lim e (push s) c h).pop _
    refine ⟨?_, ?_, ?_, ?_⟩
    · -- one expression, within the limit
      have body : ∀ lim e s c, over lim (c + 1) = false → Lim s.errs lim c (runN G (n + 1) e s) (runL lim G (n + 1) e s c) := by
        intro lim e s c hc
        have hc' : ¬ (over lim (c + 1) = true) := by rw [hc]; simp
        cases e with
        | any => rw [runN, runL, if_neg hc']; exact .leaf (any_errs s) hc
        | cls => rw [runN, runL, if_neg hc']; exact .leaf (cls_errs _ _ _ s) hc
        | lit => rw [runN, runL, if_neg hc']; exact .leaf (lit_errs _ _ s) hc
        | choice es => rw [runN, runL, if_neg hc']; exact (i2 lim es s (c + 1) hc).add
        | oneOrMore e => rw [runN, runL, if_neg hc']; exact (i4 lim e true [] s (c + 1) hc).add
        | zeroOrMore e => rw [runN, runL, if_neg hc']; exact (i4 lim e false [] s (c + 1) hc).add
        | seq es => rw [runN, runL, if_neg hc']; exact (i3 lim s.pos es [] s (c + 1) hc).add
        | ruleRef r => rw [runN, runL, if_neg hc']; exact (popped lim (G.rules r) s (c + 1) hc).add
        | action a e =>
          rw [runN, runL, if_neg hc']
          have h := i1 lim e s (c + 1) hc
          generalize runN G n e s = x at h ⊢
          generalize runL lim G n e s (c + 1) = y at h ⊢
          refine h.add.map (fun o => match o with | .ok _ s' => runAction G a s.pos s' | o => o) _ _ ?_ ?_ ?_ ?_ ?_
          · intro o k e
            rcases x with _ | ⟨o', k'⟩
            · simp [addCalls] at e
            · simp only [addCalls, Option.some.injEq, Prod.mk.injEq] at e
              obtain ⟨rfl, rfl⟩ := e
              cases o' <;> simp [addCalls, Nat.add_comm]
          · intro e; rcases x with _ | ⟨o', k'⟩
            · rfl
            · simp [addCalls] at e
          · intro o; cases o with
            | ok v s' => exact action_errs G a _ s'
            | fail _ => exact List.prefix_refl _
            | panic _ => exact List.prefix_refl _
          · rintro o k rfl; cases o <;> rfl
          · rintro s' rfl; rfl
        | labeled l e =>
          rw [runN, runL, if_neg hc']
          have h := popped lim e s (c + 1) hc
          generalize popToN s.frame (runN G n e (push s)) = x at h ⊢
          generalize (runL lim G n e (push s) (c + 1)).map (popToL s.frame) = y at h ⊢
          refine h.add.map (fun o => match o with | .ok v s' => .ok v { s' with frame := s'.frame.set l v } | o => o) _ _ ?_ ?_ ?_ ?_ ?_
          · intro o k e
            rcases x with _ | ⟨o', k'⟩
            · simp [addCalls] at e
            · simp only [addCalls, Option.some.injEq, Prod.mk.injEq] at e
              obtain ⟨rfl, rfl⟩ := e
              cases o' <;> simp [addCalls, Nat.add_comm]
          · intro e; rcases x with _ | ⟨o', k'⟩
            · rfl
            · simp [addCalls] at e
          · intro o; cases o <;> exact List.prefix_refl _
          · rintro o k rfl; cases o <;> rfl
          · rintro s' rfl; rfl
        | «not» e =>
          rw [runN, runL, if_neg hc']
          have h := popped lim e s (c + 1) hc
          generalize popToN s.frame (runN G n e (push s)) = x at h ⊢
          generalize (runL lim G n e (push s) (c + 1)).map (popToL s.frame) = y at h ⊢
          refine h.add.map (fun o => match o with | .ok _ s' => .fail { s' with pos := s.pos } | .fail s' => .ok .nil { s' with pos := s.pos } | o => o) _ _ ?_ ?_ ?_ ?_ ?_
          · intro o k e
            rcases x with _ | ⟨o', k'⟩
            · simp [addCalls] at e
            · simp only [addCalls, Option.some.injEq, Prod.mk.injEq] at e
              obtain ⟨rfl, rfl⟩ := e
              cases o' <;> simp [addCalls, Nat.add_comm]
          · intro e; rcases x with _ | ⟨o', k'⟩
            · rfl
            · simp [addCalls] at e
          · intro o; cases o <;> exact List.prefix_refl _
          · rintro o k rfl; cases o <;> rfl
          · rintro s' rfl; rfl
        | zeroOrOne e =>
          rw [runN, runL, if_neg hc']
          have h := popped lim e s (c + 1) hc
          generalize popToN s.frame (runN G n e (push s)) = x at h ⊢
          generalize (runL lim G n e (push s) (c + 1)).map (popToL s.frame) = y at h ⊢
          refine h.add.map (fun o => match o with | .fail s' => .ok .nil s' | o => o) _ _ ?_ ?_ ?_ ?_ ?_
          · intro o k e
            rcases x with _ | ⟨o', k'⟩
            · simp [addCalls] at e
            · simp only [addCalls, Option.some.injEq, Prod.mk.injEq] at e
              obtain ⟨rfl, rfl⟩ := e
              cases o' <;> simp [addCalls, Nat.add_comm]
          · intro e; rcases x with _ | ⟨o', k'⟩
            · rfl
            · simp [addCalls] at e
          · intro o; cases o <;> exact List.prefix_refl _
          · rintro o k rfl; cases o <;> rfl
          · rintro s' rfl; rfl
      intro lim e s c hc
      cases hov : over lim (c + 1) with
      | false => exact body lim e s c hov
      | true =>
        intro o k e'
        have hE := (body none e s 0 rfl).first o k e'
        have hk := runN_pos e'
        refine ⟨hE, fun ho => ?_, fun _ => ⟨s, by cases e <;> rw [runL, if_pos hov], List.prefix_refl _, hE⟩⟩
        rw [over_mono hov (by omega)] at ho; simp at ho
    · intro lim es s c hc
      cases es with
      | nil => rw [runNChoice, runLChoice]; exact .none_more (List.prefix_refl _) hc
      | cons e es =>
        rw [runNChoice, runLChoice]
        have h := popped lim e s c hc
        generalize popToN s.frame (runN G n e (push s)) = x at h ⊢
        generalize (runL lim G n e (push s) c).map (popToL s.frame) = y at h ⊢
        rcases x with _ | ⟨⟨v, s'⟩ | s' | s', k⟩
        · intro o k e; simp at e
        · intro o k' e
          obtain ⟨h1, h2, h3⟩ := h o k' e
          simp only [Option.some.injEq, Prod.mk.injEq] at e; obtain ⟨rfl, rfl⟩ := e
          exact ⟨h1, fun ho => by rw [h2 ho], fun ho => by obtain ⟨s2, rfl, r⟩ := h3 ho; exact ⟨s2, rfl, r⟩⟩
        · exact h.andThen rfl (fun ho => i2 lim es s' (c + k) ho) (i2 none es s' 0 rfl).first (by rintro rfl; rfl) (by rintro s2 rfl; rfl)
        · intro o k' e
          obtain ⟨h1, h2, h3⟩ := h o k' e
          simp only [Option.some.injEq, Prod.mk.injEq] at e; obtain ⟨rfl, rfl⟩ := e
          exact ⟨h1, fun ho => by rw [h2 ho], fun ho => by obtain ⟨s2, rfl, r⟩ := h3 ho; exact ⟨s2, rfl, r⟩⟩
    · intro lim st es vs s c hc
      cases es with
      | nil => rw [runNSeq, runLSeq]; exact .none_more (List.prefix_refl _) hc
      | cons e es =>
        rw [runNSeq, runLSeq]
        have h := i1 lim e s c hc
        generalize runN G n e s = x at h ⊢
        generalize runL lim G n e s c = y at h ⊢
        rcases x with _ | ⟨⟨v, s'⟩ | s' | s', k⟩
        · intro o k e; simp at e
        · exact h.andThen rfl (fun ho => i3 lim st es (vs ++ [v]) s' (c + k) ho) (i3 none st es (vs ++ [v]) s' 0 rfl).first (by rintro rfl; rfl) (by rintro s2 rfl; rfl)
        · intro o k' e
          simp only [Option.some.injEq, Prod.mk.injEq] at e; obtain ⟨rfl, rfl⟩ := e
          obtain ⟨h1, h2, h3⟩ := h _ _ rfl
          exact ⟨h1, fun ho => by rw [h2 ho], fun ho => by obtain ⟨s2, rfl, r⟩ := h3 ho; exact ⟨s2, rfl, r⟩⟩
        · intro o k' e
          obtain ⟨h1, h2, h3⟩ := h o k' e
          simp only [Option.some.injEq, Prod.mk.injEq] at e; obtain ⟨rfl, rfl⟩ := e
          exact ⟨h1, fun ho => by rw [h2 ho], fun ho => by obtain ⟨s2, rfl, r⟩ := h3 ho; exact ⟨s2, rfl, r⟩⟩
    · intro lim e need vs s c hc
      rw [runNLoop, runLLoop]
      have h := popped lim e s c hc
      generalize popToN s.frame (runN G n e (push s)) = x at h ⊢
      generalize (runL lim G n e (push s) c).map (popToL s.frame) = y at h ⊢
      rcases x with _ | ⟨⟨v, s'⟩ | s' | s', k⟩
      · intro o k e; simp at e
      · exact h.andThen rfl (fun ho => i4 lim e need (vs ++ [v]) s' (c + k) ho) (i4 none e need (vs ++ [v]) s' 0 rfl).first (by rintro rfl; rfl) (by rintro s2 rfl; rfl)
      · obtain ⟨h1, h2, h3⟩ := h _ _ rfl
        simp only []
        split
        · rename_i hb
          intro o k' e
          simp only [Option.some.injEq, Prod.mk.injEq] at e; obtain ⟨rfl, rfl⟩ := e
          exact ⟨h1, fun ho => by rw [h2 ho], fun ho => by obtain ⟨s2, rfl, r⟩ := h3 ho; exact ⟨s2, rfl, r⟩⟩
        · rename_i hb
          intro o k' e
          simp only [Option.some.injEq, Prod.mk.injEq] at e; obtain ⟨rfl, rfl⟩ := e
          exact ⟨h1, fun ho => by rw [h2 ho], fun ho => by obtain ⟨s2, rfl, r⟩ := h3 ho; exact ⟨s2, rfl, r⟩⟩
      · intro o k' e
        obtain ⟨h1, h2, h3⟩ := h o k' e
        simp only [Option.some.injEq, Prod.mk.injEq] at e; obtain ⟨rfl, rfl⟩ := e
        exact ⟨h1, fun ho => by rw [h2 ho], fun ho => by obtain ⟨s2, rfl, r⟩ := h3 ho; exact ⟨s2, rfl, r⟩⟩

end Verif.Proof.Opts

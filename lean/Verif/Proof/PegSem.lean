import Verif.Proof.PegFile
import Verif.Model.Grammar
/-! # The machine and the standard semantics of rules.peg -/
namespace Verif.Proof
open Verif
open Verif.Spec.Peg (Exp NT Gives)

/-! ## The semantics is deterministic -/

theorem gives_unique {G e l r} (h : Gives G e l r) : ∀ {r'}, Gives G e l r' → r = r' := by
  induction h with
  | any_ok => intro r' k; cases k; rfl
  | any_end => intro r' k; cases k; rfl
  | cls_ok h => intro r' k; cases k with
    | cls_ok => rfl
    | cls_bad k => exact absurd h k
  | cls_bad h => intro r' k; cases k with
    | cls_ok k => exact absurd k h
    | cls_bad k => rfl
  | cls_end => intro r' k; cases k; rfl
  | @lit_ok t l =>
    intro r' k
    generalize hl : t ++ l = x at k
    cases k with
    | lit_ok => rw [List.append_cancel_left hl]
    | lit_bad k => exact absurd (hl ▸ List.prefix_append t l) k
  | lit_bad h => intro r' k; cases k with
    | lit_ok => exact absurd (List.prefix_append _ _) h
    | lit_bad => rfl
  | nt _ ih => intro r' k; cases k with | nt k => exact ih k
  | seq_nil => intro r' k; cases k; rfl
  | seq_ok _ _ ih1 ih2 => intro r' k; cases k with
    | seq_ok k1 k2 => cases ih1 k1; exact ih2 k2
    | seq_bad k => cases ih1 k
  | seq_bad _ ih => intro r' k; cases k with
    | seq_ok k1 k2 => cases ih k1
    | seq_bad k => rfl
  | choice_nil => intro r' k; cases k; rfl
  | choice_first _ ih => intro r' k; cases k with
    | choice_first k => exact ih k
    | choice_next k _ => cases ih k
  | choice_next _ _ ih1 ih2 => intro r' k; cases k with
    | choice_first k => cases ih1 k
    | choice_next _ k => exact ih2 k
  | star_more _ _ ih1 ih2 => intro r' k; cases k with
    | star_more k1 k2 => cases ih1 k1; exact ih2 k2
    | star_end k => cases ih1 k
  | star_end _ ih => intro r' k; cases k with
    | star_more k1 k2 => cases ih k1
    | star_end k => rfl
  | plus_ok _ _ ih1 ih2 => intro r' k; cases k with
    | plus_ok k1 k2 => cases ih1 k1; exact ih2 k2
    | plus_bad k => cases ih1 k
  | plus_bad _ ih => intro r' k; cases k with
    | plus_ok k1 k2 => cases ih k1
    | plus_bad k => rfl
  | opt_some _ ih => intro r' k; cases k with
    | opt_some k => exact ih k
    | opt_none k => cases ih k
  | opt_none _ ih => intro r' k; cases k with
    | opt_some k => cases ih k
    | opt_none k => rfl
  | not_bad _ ih => intro r' k; cases k with
    | not_bad k => rfl
    | not_ok k => cases ih k
  | not_ok _ ih => intro r' k; cases k with
    | not_bad k => cases ih k
    | not_ok k => rfl

/-! ## Equivalent expressions -/

def Equiv (G : Spec.Peg.Grammar) (p q : Exp) : Prop := ∀ l r, Gives G p l r ↔ Gives G q l r

variable {G : Spec.Peg.Grammar}

theorem Equiv.refl (p : Exp) : Equiv G p p := fun _ _ => .rfl
theorem Equiv.symm {p q : Exp} (h : Equiv G p q) : Equiv G q p := fun l r => (h l r).symm
theorem Equiv.trans {p q s : Exp} (h : Equiv G p q) (k : Equiv G q s) : Equiv G p s := fun l r => (h l r).trans (k l r)

theorem equiv_nt (x : NT) : Equiv G (.nt x) (G x) := fun _ _ => ⟨fun h => by cases h; assumption, .nt⟩

theorem imp_star {p q : Exp} (h : ∀ l r, Gives G p l r → Gives G q l r) {l r} (k : Gives G (.star p) l r) : Gives G (.star q) l r := by
  generalize he : Exp.star p = e at k
  induction k with
  | star_more k1 _ _ ih => cases he; exact .star_more (h _ _ k1) (ih rfl)
  | star_end k1 => cases he; exact .star_end (h _ _ k1)
  | _ => cases he

theorem Equiv.star {p q : Exp} (h : Equiv G p q) : Equiv G (.star p) (.star q) :=
  fun _ _ => ⟨imp_star fun l r => (h l r).1, imp_star fun l r => (h l r).2⟩

theorem Equiv.plus {p q : Exp} (h : Equiv G p q) : Equiv G (.plus p) (.plus q) := fun l r => by
  constructor <;> intro k <;> cases k with
  | plus_ok k1 k2 => first | exact .plus_ok ((h _ _).1 k1) ((h.star _ _).1 k2) | exact .plus_ok ((h _ _).2 k1) ((h.star _ _).2 k2)
  | plus_bad k => first | exact .plus_bad ((h _ _).1 k) | exact .plus_bad ((h _ _).2 k)

theorem Equiv.opt {p q : Exp} (h : Equiv G p q) : Equiv G (.opt p) (.opt q) := fun l r => by
  constructor <;> intro k <;> cases k with
  | opt_some k => first | exact .opt_some ((h _ _).1 k) | exact .opt_some ((h _ _).2 k)
  | opt_none k => first | exact .opt_none ((h _ _).1 k) | exact .opt_none ((h _ _).2 k)

theorem Equiv.not {p q : Exp} (h : Equiv G p q) : Equiv G (.not p) (.not q) := fun l r => by
  constructor <;> intro k <;> cases k with
  | not_bad k => first | exact .not_bad ((h _ _).1 k) | exact .not_bad ((h _ _).2 k)
  | not_ok k => first | exact .not_ok ((h _ _).1 k) | exact .not_ok ((h _ _).2 k)

theorem Equiv.seq {p q : Exp} {ps qs : List Exp} (h : Equiv G p q) (hs : Equiv G (.seq ps) (.seq qs)) : Equiv G (.seq (p :: ps)) (.seq (q :: qs)) := fun l r => by
  constructor <;> intro k <;> cases k with
  | seq_ok k1 k2 => first | exact .seq_ok ((h _ _).1 k1) ((hs _ _).1 k2) | exact .seq_ok ((h _ _).2 k1) ((hs _ _).2 k2)
  | seq_bad k => first | exact .seq_bad ((h _ _).1 k) | exact .seq_bad ((h _ _).2 k)

theorem Equiv.choice {p q : Exp} {ps qs : List Exp} (h : Equiv G p q) (hs : Equiv G (.choice ps) (.choice qs)) : Equiv G (.choice (p :: ps)) (.choice (q :: qs)) :=
  fun l r => by
  constructor <;> intro k <;> cases k with
  | choice_first k => first | exact .choice_first ((h _ _).1 k) | exact .choice_first ((h _ _).2 k)
  | choice_next k1 k2 => first | exact .choice_next ((h _ _).1 k1) ((hs _ _).1 k2) | exact .choice_next ((h _ _).2 k1) ((hs _ _).2 k2)

/-! ## Replacing rules by their definitions -/

mutual
/-- Replaces the rules for which `f` says so, `n` levels deep. -/
def inline (G : Spec.Peg.Grammar) (f : NT → Bool) : Nat → Exp → Exp
  | 0, e => e
  | n + 1, .nt x => if f x then inline G f n (G x) else .nt x
  | n + 1, .seq es => .seq (inlines G f n es)
  | n + 1, .choice es => .choice (inlines G f n es)
  | n + 1, .star e => .star (inline G f n e)
  | n + 1, .plus e => .plus (inline G f n e)
  | n + 1, .opt e => .opt (inline G f n e)
  | n + 1, .not e => .not (inline G f n e)
  | _ + 1, e => e
def inlines (G : Spec.Peg.Grammar) (f : NT → Bool) : Nat → List Exp → List Exp
  | 0, es => es
  | _ + 1, [] => []
  | n + 1, e :: es => inline G f n e :: inlines G f n es
end

theorem inline_equiv (f : NT → Bool) (n : Nat) : (∀ e, Equiv G (inline G f n e) e) ∧ (∀ es, Equiv G (.seq (inlines G f n es)) (.seq es)) ∧
    ∀ es, Equiv G (.choice (inlines G f n es)) (.choice es) := by
  induction n with
  | zero => exact ⟨fun e => by simp only [inline]; exact .refl e, fun es => by simp only [inlines]; exact .refl _, fun es => by simp only [inlines]; exact .refl _⟩
  | succ n ih =>
    obtain ⟨ih1, ih2, ih3⟩ := ih
    refine ⟨fun e => ?_, fun es => ?_, fun es => ?_⟩
    · cases e with
      | nt x =>
        simp only [inline]
        split
        · exact (ih1 _).trans (equiv_nt x).symm
        · exact .refl _
      | seq es => simp only [inline]; exact ih2 es
      | choice es => simp only [inline]; exact ih3 es
      | star e => simp only [inline]; exact (ih1 e).star
      | plus e => simp only [inline]; exact (ih1 e).plus
      | opt e => simp only [inline]; exact (ih1 e).opt
      | not e => simp only [inline]; exact (ih1 e).not
      | any => simp only [inline]; exact .refl _
      | cls => simp only [inline]; exact .refl _
      | lit => simp only [inline]; exact .refl _
    · cases es with
      | nil => simp only [inlines]; exact .refl _
      | cons e es => simp only [inlines]; exact (ih1 e).seq (ih2 es)
    · cases es with
      | nil => simp only [inlines]; exact .refl _
      | cons e es => simp only [inlines]; exact (ih1 e).choice (ih3 es)

/-! ## The table -/

/-- The rule of rules.peg a rule of the table comes from. -/
def ntOf : RuleName → NT
  | .File => .File | .Rule => .Rule | .Value => .Value | .SExpr => .SExpr | .Operand => .Operand | .Expr => .Expr | .Call => .Call

mutual
/-- A table entry without labels and actions. -/
def tr : PExpr → Exp
  | .action _ e => tr e
  | .any => .any
  | .cls a b c => .cls c a b
  | .choice es => .choice (trs es)
  | .labeled _ e => tr e
  | .lit v => .lit v
  | .not e => .not (tr e)
  | .oneOrMore e => .plus (tr e)
  | .ruleRef r => .nt (ntOf r)
  | .seq es => .seq (trs es)
  | .zeroOrMore e => .star (tr e)
  | .zeroOrOne e => .opt (tr e)
def trs : List PExpr → List Exp
  | [] => []
  | e :: es => tr e :: trs es
end

theorem inClass_iff (chars : List Char) (ranges : List (Char × Char)) (inv : Bool) (c : Char) :
    Spec.Peg.InClass inv chars ranges c ↔ inClass chars ranges c ≠ inv := by
  unfold Spec.Peg.InClass inClass
  cases inv
  · simp [Classical.or_iff_not_imp_left]
  · simp

abbrev runes (l : List Sym) : List Char := l.map Sym.rune

def GPost (G : Spec.Peg.Grammar) (p : Exp) (s : St) : Option POut → Prop
  | some (.ok _ s') => Gives G p (runes s.pos) (some (runes s'.pos))
  | some (.fail s') => Gives G p (runes s.pos) none ∧ s'.pos = s.pos
  | _ => True

theorem read_pos (s : St) : (Verif.read s).pos = s.pos.tail := by
  unfold Verif.read noteBad
  split <;> rfl

theorem gives_lit (start : List Sym) (v : Dyn) (s' : St) : ∀ (val : List Char) (s : St),
    (litLoop start val s = .ok v s' → runes s.pos = val ++ runes s'.pos) ∧ (litLoop start val s = .fail s' → ¬ val <+: runes s.pos ∧ s'.pos = start) := by
  intro val
  induction val with
  | nil => intro s; simp only [litLoop]; exact ⟨by intro h; cases h; rfl, by intro h; cases h⟩
  | cons c val ih =>
    intro s
    rw [litLoop]
    split
    · rename_i h
      refine ⟨(by intro k; cases k), ?_⟩
      intro k
      cases k
      simp [h]
    · rename_i x l h
      split
      · rename_i hx
        have := ih (Verif.read s)
        rw [read_pos, h, List.tail_cons] at this
        refine ⟨fun k => ?_, fun k => ?_⟩
        · have := this.1 k
          rw [h, runes, List.map_cons, hx]
          rw [runes] at this
          rw [this]; rfl
        · rw [h, runes, List.map_cons, hx, List.prefix_cons_inj]; exact this.2 k
      · rename_i hx
        refine ⟨(by intro k; cases k), ?_⟩
        intro k
        cases k
        refine ⟨?_, rfl⟩
        rintro ⟨t, ht⟩
        rw [h, runes, List.map_cons, List.cons_append, List.cons.injEq] at ht
        exact hx ht.1.symm

theorem GPost.pop {p s o} (h : GPost G p (push s) o) : GPost G p s (o.map (popTo s.frame)) := by
  rcases o with - | o
  · trivial
  · cases o <;> exact h

/-- The machine does what the standard semantics says. -/
theorem run_gives (M : Grammar) (hrules : ∀ r, Equiv G (tr (M.rules r)) (.nt (ntOf r))) (n : Nat) :
    (∀ e s, GPost G (tr e) s (run M n e s)) ∧
    (∀ es s, GPost G (.choice (trs es)) s (runChoice M n es s)) ∧
    (∀ start es vs s, match runSeq M n start es vs s with
      | some (.ok _ s') => Gives G (.seq (trs es)) (runes s.pos) (some (runes s'.pos))
      | some (.fail s') => Gives G (.seq (trs es)) (runes s.pos) none ∧ s'.pos = start
      | _ => True) ∧
    (∀ e need vs s, match runLoop M n e need vs s with
      | some (.ok _ s') => Gives G (.star (tr e)) (runes s.pos) (some (runes s'.pos)) ∧ ((need && vs.isEmpty) = true → Gives G (.plus (tr e)) (runes s.pos) (some (runes s'.pos)))
      | some (.fail s') => Gives G (tr e) (runes s.pos) none ∧ s'.pos = s.pos ∧ (need && vs.isEmpty) = true
      | _ => True) := by
  induction n with
  | zero => refine ⟨fun e s => ?_, fun es s => ?_, fun a b c d => ?_, fun a b c d => ?_⟩ <;> simp [run, runChoice, runSeq, runLoop, GPost]
  | succ n ih =>
    obtain ⟨ih1, ih2, ih3, ih4⟩ := ih
    refine ⟨fun e s => ?_, fun es s => ?_, fun start es vs s => ?_, fun e need vs s => ?_⟩
    · cases e with
      | action a e =>
        have h := ih1 e s
        simp only [run, tr]
        generalize run M n e s = o at h
        match o with
        | none => trivial
        | some (.panic _) => trivial
        | some (.fail _) => exact h
        | some (.ok v s') =>
          show GPost G (tr e) s (some (runAction M a s.pos s'))
          simp only [runAction]
          split
          · exact h
          · exact h
          · trivial
      | any =>
        simp only [run, tr, parseAny]
        split
        · rename_i h; exact ⟨by rw [h]; exact .any_end, rfl⟩
        · rename_i x l h
          show Gives G _ _ _
          rw [read_pos, h]
          exact .any_ok
      | cls a b c =>
        simp only [run, tr, parseCls]
        have hc := fun x => inClass_iff a b c x
        split
        · rename_i h; exact ⟨by rw [h]; exact .cls_end, rfl⟩
        · rename_i x l h
          have hg : runes s.pos = x.rune :: runes l := by rw [h]; rfl
          have ht : runes (Verif.read s).pos = runes l := by rw [read_pos, h]; rfl
          split
          · rename_i hi
            split
            · rename_i hc'; exact ⟨by rw [hg]; exact .cls_bad (by rw [hc, hi, hc']; simp), rfl⟩
            · rename_i hc'; show Gives G _ _ _; rw [hg, ht]; exact .cls_ok (by rw [hc, hi]; simpa using hc')
          · rename_i hi
            split
            · rename_i hc'; show Gives G _ _ _; rw [hg, ht]; exact .cls_ok (by rw [hc]; simpa [hc'] using hi)
            · rename_i hc'; exact ⟨by rw [hg]; exact .cls_bad (by rw [hc]; simp at hi hc'; simp [hi, hc']), rfl⟩
      | choice es => simp only [run, tr]; exact ih2 es s
      | labeled l e =>
        have h := (ih1 e (push s)).pop
        simp only [run, tr]
        generalize (run M n e (push s)).map (popTo s.frame) = o at h
        match o with
        | none => trivial
        | some (.panic _) => trivial
        | some (.fail _) => exact h
        | some (.ok v s') => exact h
      | lit v =>
        simp only [run, tr]
        cases ho : litLoop s.pos v s with
        | ok x s' => show Gives G _ _ _; rw [(gives_lit s.pos x s' v s).1 ho]; exact .lit_ok
        | fail s' => have := (gives_lit s.pos .nil s' v s).2 ho; exact ⟨.lit_bad this.1, this.2⟩
        | panic => trivial
      | not e =>
        have h := (ih1 e (push s)).pop
        simp only [run, tr]
        generalize (run M n e (push s)).map (popTo s.frame) = o at h
        match o with
        | none => trivial
        | some (.panic _) => trivial
        | some (.fail _) => exact .not_ok h.1
        | some (.ok v s') => exact ⟨.not_bad h, rfl⟩
      | oneOrMore e =>
        have h := ih4 e true [] s
        simp only [run, tr]
        generalize runLoop M n e true [] s = o at h
        match o with
        | none => trivial
        | some (.panic _) => trivial
        | some (.fail _) => exact ⟨.plus_bad h.1, h.2.1⟩
        | some (.ok v s') => exact h.2 rfl
      | ruleRef r =>
        have h := (ih1 (M.rules r) (push s)).pop
        simp only [run, tr]
        generalize (run M n (M.rules r) (push s)).map (popTo s.frame) = o at h
        match o with
        | none => trivial
        | some (.panic _) => trivial
        | some (.fail _) => exact ⟨(hrules r _ _).1 h.1, h.2⟩
        | some (.ok v s') => exact (hrules r _ _).1 h
      | seq es =>
        have h := ih3 s.pos es [] s
        simp only [run, tr]
        generalize runSeq M n s.pos es [] s = o at h
        match o with
        | none => trivial
        | some (.panic _) => trivial
        | some (.fail _) => exact h
        | some (.ok v s') => exact h
      | zeroOrMore e =>
        have h := ih4 e false [] s
        simp only [run, tr]
        generalize runLoop M n e false [] s = o at h
        match o with
        | none => trivial
        | some (.panic _) => trivial
        | some (.fail _) => cases h.2.2
        | some (.ok v s') => exact h.1
      | zeroOrOne e =>
        have h := (ih1 e (push s)).pop
        simp only [run, tr]
        generalize (run M n e (push s)).map (popTo s.frame) = o at h
        match o with
        | none => trivial
        | some (.panic _) => trivial
        | some (.fail s') => show Gives G _ _ _; rw [h.2]; exact .opt_none h.1
        | some (.ok v s') => exact .opt_some h
    · cases es with
      | nil => simp only [runChoice, trs]; exact ⟨.choice_nil, rfl⟩
      | cons e es =>
        have h := (ih1 e (push s)).pop
        simp only [runChoice, trs]
        generalize (run M n e (push s)).map (popTo s.frame) = o at h
        match o with
        | none => trivial
        | some (.panic _) => trivial
        | some (.ok v s') => exact .choice_first h
        | some (.fail s') =>
          have h2 := ih2 es s'
          simp only
          generalize runChoice M n es s' = o2 at h2
          match o2 with
          | none => trivial
          | some (.panic _) => trivial
          | some (.ok v s2) => exact .choice_next h.1 (h.2 ▸ h2)
          | some (.fail s2) => exact ⟨.choice_next h.1 (h.2 ▸ h2.1), h2.2.trans h.2⟩
    · cases es with
      | nil => simp only [runSeq, trs]; exact .seq_nil
      | cons e es =>
        have h := ih1 e s
        simp only [runSeq, trs]
        generalize run M n e s = o at h
        match o with
        | none => trivial
        | some (.panic _) => trivial
        | some (.fail s') => exact ⟨.seq_bad h.1, rfl⟩
        | some (.ok v s') =>
          have h2 := ih3 start es (vs ++ [v]) s'
          simp only
          generalize runSeq M n start es (vs ++ [v]) s' = o2 at h2
          match o2 with
          | none => trivial
          | some (.panic _) => trivial
          | some (.ok v s2) => exact .seq_ok h h2
          | some (.fail s2) => exact ⟨.seq_ok h h2.1, h2.2⟩
    · have h := (ih1 e (push s)).pop
      simp only [runLoop]
      generalize (run M n e (push s)).map (popTo s.frame) = o at h
      match o with
      | none => trivial
      | some (.panic _) => trivial
      | some (.fail s') =>
        simp only
        by_cases hn : (need && vs.isEmpty) = true
        · simp only [if_pos hn]; exact ⟨h.1, h.2, hn⟩
        · simp only [if_neg hn]; refine ⟨?_, fun k => absurd k hn⟩; rw [h.2]; exact .star_end h.1
      | some (.ok v s') =>
        have h2 := ih4 e need (vs ++ [v]) s'
        simp only
        generalize runLoop M n e need (vs ++ [v]) s' = o2 at h2
        match o2 with
        | none => trivial
        | some (.panic _) => trivial
        | some (.ok v s2) => exact ⟨.star_more h h2.1, fun _ => .plus_ok h h2.1⟩
        | some (.fail s2) => simp at h2

/-- A class and a character after it are one class. -/
theorem equiv_merge (p : Exp) (a : List Char) (b : List (Char × Char)) (c : Char) :
    Equiv G (.choice [p, .cls false (a ++ [c]) b]) (.choice [p, .cls false a b, .lit [c]]) := by
  have hin : ∀ x, Spec.Peg.InClass false (a ++ [c]) b x ↔ Spec.Peg.InClass false a b x ∨ x = c := by
    intro x
    simp only [Spec.Peg.InClass, Bool.false_eq_true, if_false, List.mem_append, List.mem_singleton]
    constructor
    · rintro ((h | h) | h)
      · exact .inl (.inl h)
      · exact .inr h
      · exact .inl (.inr h)
    · rintro ((h | h) | h)
      · exact .inl (.inl h)
      · exact .inr h
      · exact .inl (.inr h)
  have key : Equiv G (.choice [.cls false (a ++ [c]) b]) (.choice [.cls false a b, .lit [c]]) := by
    intro l r
    cases l with
    | nil =>
      have h1 : Gives G (.choice [.cls false (a ++ [c]) b]) [] none := .choice_next .cls_end .choice_nil
      have h2 : Gives G (.choice [.cls false a b, .lit [c]]) [] none := .choice_next .cls_end (.choice_next (.lit_bad (by simp)) .choice_nil)
      exact ⟨fun h => gives_unique h h1 ▸ h2, fun h => gives_unique h h2 ▸ h1⟩
    | cons x l =>
      by_cases hx : Spec.Peg.InClass false a b x
      · have h1 : Gives G (.choice [.cls false (a ++ [c]) b]) (x :: l) (some l) := .choice_first (.cls_ok ((hin x).2 (.inl hx)))
        have h2 : Gives G (.choice [.cls false a b, .lit [c]]) (x :: l) (some l) := .choice_first (.cls_ok hx)
        exact ⟨fun h => gives_unique h h1 ▸ h2, fun h => gives_unique h h2 ▸ h1⟩
      · by_cases hc : x = c
        · have h1 : Gives G (.choice [.cls false (a ++ [c]) b]) (x :: l) (some l) := .choice_first (.cls_ok ((hin x).2 (.inr hc)))
          have h2 : Gives G (.choice [.cls false a b, .lit [c]]) (x :: l) (some l) := by
            subst hc
            exact .choice_next (.cls_bad hx) (.choice_first (.lit_ok (t := [x])))
          exact ⟨fun h => gives_unique h h1 ▸ h2, fun h => gives_unique h h2 ▸ h1⟩
        · have h1 : Gives G (.choice [.cls false (a ++ [c]) b]) (x :: l) none := .choice_next (.cls_bad (by rw [hin]; simp [hx, hc])) .choice_nil
          have h2 : Gives G (.choice [.cls false a b, .lit [c]]) (x :: l) none :=
            .choice_next (.cls_bad hx) (.choice_next (.lit_bad (by simp; exact fun h => hc h.symm)) .choice_nil)
          exact ⟨fun h => gives_unique h h1 ▸ h2, fun h => gives_unique h h2 ▸ h1⟩
  exact (Equiv.refl p).choice key

/-! ## A normal form: flat sequences, separate newlines -/

theorem equiv_flat (l es : List Exp) : Equiv G (.seq (l ++ es)) (.seq (.seq l :: es)) := by
  intro i r
  constructor
  · intro h
    induction l generalizing i with
    | nil => exact .seq_ok .seq_nil h
    | cons e l ih =>
      rw [List.cons_append] at h
      cases h with
      | seq_ok h1 h2 =>
        have := ih _ h2
        cases this with
        | seq_ok k1 k2 => exact .seq_ok (.seq_ok h1 k1) k2
        | seq_bad k => exact .seq_bad (.seq_ok h1 k)
      | seq_bad h => exact .seq_bad (.seq_bad h)
  · intro h
    induction l generalizing i with
    | nil => cases h with
      | seq_ok h1 h2 => cases h1; exact h2
      | seq_bad h => cases h
    | cons e l ih =>
      rw [List.cons_append]
      cases h with
      | seq_ok h1 h2 => cases h1 with
        | seq_ok k1 k2 => exact .seq_ok k1 (ih _ (.seq_ok k2 h2))
      | seq_bad h => cases h with
        | seq_ok k1 k2 => exact .seq_ok k1 (ih _ (.seq_bad k2))
        | seq_bad k => exact .seq_bad k

/-- Puts an expression before a sequence. -/
def flatCons : Exp → List Exp → List Exp
  | .seq l, es => l ++ es
  | e, es => e :: es

theorem equiv_flatCons (e : Exp) (es : List Exp) : Equiv G (.seq (flatCons e es)) (.seq (e :: es)) := by
  unfold flatCons
  split
  · exact equiv_flat _ _
  · exact .refl _

/-- Takes the newline out of the white space. -/
def unmerge : List Exp → List Exp
  | [p, .cls false [' ', '\t', '\r', '\n'] []] => [p, .cls false [' ', '\t', '\r'] [], .lit ['\n']]
  | es => es

theorem equiv_unmerge (es : List Exp) : Equiv G (.choice (unmerge es)) (.choice es) := by
  unfold unmerge
  split
  · exact (equiv_merge _ [' ', '\t', '\r'] [] '\n').symm
  · exact .refl _

mutual
def norm : Nat → Exp → Exp
  | 0, e => e
  | n + 1, .seq es => .seq (normSeq n es)
  | n + 1, .choice es => .choice (unmerge (normChoice n es))
  | n + 1, .star e => .star (norm n e)
  | n + 1, .plus e => .plus (norm n e)
  | n + 1, .opt e => .opt (norm n e)
  | n + 1, .not e => .not (norm n e)
  | _ + 1, e => e
def normSeq : Nat → List Exp → List Exp
  | 0, es => es
  | _ + 1, [] => []
  | n + 1, e :: es => flatCons (norm n e) (normSeq n es)
def normChoice : Nat → List Exp → List Exp
  | 0, es => es
  | _ + 1, [] => []
  | n + 1, e :: es => norm n e :: normChoice n es
end

theorem norm_equiv (n : Nat) : (∀ e, Equiv G (norm n e) e) ∧ (∀ es, Equiv G (.seq (normSeq n es)) (.seq es)) ∧ ∀ es, Equiv G (.choice (normChoice n es)) (.choice es) := by
  induction n with
  | zero => exact ⟨fun e => by simp only [norm]; exact .refl e, fun es => by simp only [normSeq]; exact .refl _, fun es => by simp only [normChoice]; exact .refl _⟩
  | succ n ih =>
    obtain ⟨ih1, ih2, ih3⟩ := ih
    refine ⟨fun e => ?_, fun es => ?_, fun es => ?_⟩
    · cases e with
      | nt x => simp only [norm]; exact .refl _
      | seq es => simp only [norm]; exact ih2 es
      | choice es => simp only [norm]; exact (equiv_unmerge _).trans (ih3 es)
      | star e => simp only [norm]; exact (ih1 e).star
      | plus e => simp only [norm]; exact (ih1 e).plus
      | opt e => simp only [norm]; exact (ih1 e).opt
      | not e => simp only [norm]; exact (ih1 e).not
      | any => simp only [norm]; exact .refl _
      | cls => simp only [norm]; exact .refl _
      | lit => simp only [norm]; exact .refl _
    · cases es with
      | nil => simp only [normSeq]; exact .refl _
      | cons e es => simp only [normSeq]; exact (equiv_flatCons _ _).trans ((ih1 e).seq (ih2 es))
    · cases es with
      | nil => simp only [normChoice]; exact .refl _
      | cons e es => simp only [normChoice]; exact (ih1 e).choice (ih3 es)

/-- The rules that are gone in the table. -/
def inlined : NT → Bool
  | .File | .Rule | .Value | .SExpr | .Operand | .Expr | .Call => false
  | _ => true

theorem table_same (r : RuleName) : sameExp (norm 30 (tr (gRules r))) (norm 30 (inline Spec.Peg.rules inlined 30 (Spec.Peg.rules (ntOf r)))) = true := by
  cases r <;> decide +kernel

/-- The table has the rules of rules.peg. -/
theorem table_rules (r : RuleName) : Equiv Spec.Peg.rules (tr (gRules r)) (.nt (ntOf r)) := by
  have h := sameExp_eq _ _ (table_same r)
  refine Equiv.trans ((norm_equiv 30).1 _).symm ?_
  rw [h]
  refine ((norm_equiv 30).1 _).trans (((inline_equiv inlined 30).1 _).trans (equiv_nt _).symm)

end Verif.Proof

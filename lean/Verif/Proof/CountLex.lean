import Verif.Proof.CountEv
/-!
# Counting calls: blanks, comments, identifiers, opcodes
-/
namespace Verif.Proof.Count
open Verif Verif.Spec

section inv
variable {R : RuleName → PExpr} {l : List Char} {r : Option (List Char)} {k : Nat}

theorem inv_action {a p} (h : Ev R (.e (.action a p)) l r k) : ∃ k', k = k' + 1 ∧ Ev R (.e p) l r k' := by
  cases h; exact ⟨_, rfl, ‹_›⟩
theorem inv_labeled {a p} (h : Ev R (.e (.labeled a p)) l r k) : ∃ k', k = k' + 1 ∧ Ev R (.e p) l r k' := by
  cases h; exact ⟨_, rfl, ‹_›⟩
theorem inv_ref {x} (h : Ev R (.e (.ruleRef x)) l r k) : ∃ k', k = k' + 1 ∧ Ev R (.e (R x)) l r k' := by
  cases h; exact ⟨_, rfl, ‹_›⟩
theorem inv_choice {ps} (h : Ev R (.e (.choice ps)) l r k) : ∃ k', k = k' + 1 ∧ Ev R (.alt ps) l r k' := by
  cases h; exact ⟨_, rfl, ‹_›⟩
theorem inv_seqe {ps} (h : Ev R (.e (.seq ps)) l r k) : ∃ k', k = k' + 1 ∧ Ev R (.seq ps) l r k' := by
  cases h; exact ⟨_, rfl, ‹_›⟩
theorem inv_star {p} (h : Ev R (.e (.zeroOrMore p)) l r k) : ∃ l' k', r = some l' ∧ k = k' + 1 ∧ Ev R (.loop p) l (some l') k' := by
  cases h; exact ⟨_, _, rfl, rfl, ‹_›⟩
theorem inv_plus {p} (h : Ev R (.e (.oneOrMore p)) l r k) :
    (∃ l1 l2 k1 k2, r = some l2 ∧ k = k1 + k2 + 1 ∧ Ev R (.e p) l (some l1) k1 ∧ Ev R (.loop p) l1 (some l2) k2) ∨ ∃ k', r = none ∧ k = k' + 1 ∧ Ev R (.e p) l none k' := by
  cases h
  · exact .inl ⟨_, _, _, _, rfl, rfl, ‹_›, ‹_›⟩
  · exact .inr ⟨_, rfl, rfl, ‹_›⟩
theorem inv_opt {p} (h : Ev R (.e (.zeroOrOne p)) l r k) : ∃ k', k = k' + 1 ∧ ((∃ l', r = some l' ∧ Ev R (.e p) l (some l') k') ∨ (r = some l ∧ Ev R (.e p) l none k')) := by
  cases h
  · exact ⟨_, rfl, .inl ⟨_, rfl, ‹_›⟩⟩
  · exact ⟨_, rfl, .inr ⟨rfl, ‹_›⟩⟩
theorem inv_not {p} (h : Ev R (.e (.not p)) l r k) : ∃ k', k = k' + 1 ∧ ((∃ l', r = none ∧ Ev R (.e p) l (some l') k') ∨ (r = some l ∧ Ev R (.e p) l none k')) := by
  cases h
  · exact ⟨_, rfl, .inr ⟨rfl, ‹_›⟩⟩
  · exact ⟨_, rfl, .inl ⟨_, rfl, ‹_›⟩⟩
theorem inv_lit {v} (h : Ev R (.e (.lit v)) l r k) : r = litRest v l ∧ k = 1 := by
  cases h; exact ⟨rfl, rfl⟩
theorem inv_any (h : Ev R (.e .any) l r k) : k = 1 ∧ ((∃ c l', l = c :: l' ∧ r = some l') ∨ (l = [] ∧ r = none)) := by
  cases h
  · exact ⟨rfl, .inl ⟨_, _, rfl, rfl⟩⟩
  · exact ⟨rfl, .inr ⟨rfl, rfl⟩⟩
theorem inv_cls {cs rs i} (h : Ev R (.e (.cls cs rs i)) l r k) :
    k = 1 ∧ ((∃ c l', l = c :: l' ∧ r = some l' ∧ clsHas cs rs i c = true) ∨ (r = none ∧ ∀ c l', l = c :: l' → clsHas cs rs i c = false)) := by
  cases h with
  | cls_ok h => exact ⟨rfl, .inl ⟨_, _, rfl, rfl, h⟩⟩
  | cls_bad h => exact ⟨rfl, .inr ⟨rfl, fun _ _ e => by cases e; exact h⟩⟩
  | cls_end => exact ⟨rfl, .inr ⟨rfl, fun _ _ e => by cases e⟩⟩
theorem inv_seq {p ps} (h : Ev R (.seq (p :: ps)) l r k) :
    (∃ l' k1 k2, k = k1 + k2 ∧ Ev R (.e p) l (some l') k1 ∧ Ev R (.seq ps) l' r k2) ∨ (r = none ∧ Ev R (.e p) l none k) := by
  cases h
  · exact .inl ⟨_, _, _, rfl, ‹_›, ‹_›⟩
  · exact .inr ⟨rfl, ‹_›⟩
theorem inv_seq_nil (h : Ev R (.seq []) l r k) : r = some l ∧ k = 0 := by
  cases h; exact ⟨rfl, rfl⟩
theorem inv_alt {p ps} (h : Ev R (.alt (p :: ps)) l r k) :
    (∃ l', r = some l' ∧ Ev R (.e p) l (some l') k) ∨ ∃ k1 k2, k = k1 + k2 ∧ Ev R (.e p) l none k1 ∧ Ev R (.alt ps) l r k2 := by
  cases h
  · exact .inl ⟨_, rfl, ‹_›⟩
  · exact .inr ⟨_, _, rfl, ‹_›, ‹_›⟩
theorem inv_alt_nil (h : Ev R (.alt []) l r k) : r = none ∧ k = 0 := by
  cases h; exact ⟨rfl, rfl⟩
theorem inv_loop {p} (h : Ev R (.loop p) l r k) :
    (∃ l' k1 k2, k = k1 + k2 ∧ Ev R (.e p) l (some l') k1 ∧ Ev R (.loop p) l' r k2) ∨ (r = some l ∧ Ev R (.e p) l none k) := by
  cases h
  · exact .inl ⟨_, _, _, rfl, ‹_›, ‹_›⟩
  · exact .inr ⟨rfl, ‹_›⟩
end inv

theorem litRest_len {v l l' : List Char} (h : litRest v l = some l') : l.length = v.length + l'.length := by
  induction v generalizing l with
  | nil => simp only [litRest, Option.some.injEq] at h; simp [h]
  | cons a v ih =>
    cases l with
    | nil => simp [litRest] at h
    | cons c l =>
      simp only [litRest] at h
      split at h
      · have := ih h; simp only [List.length_cons]; omega
      · cases h

/-- What is left is not longer. -/
theorem ev_len {R j l r k} (h : Ev R j l r k) : ∀ l', r = some l' → l'.length ≤ l.length := by
  induction h with
  | any_ok => intro l' e; cases e; simp
  | cls_ok => intro l' e; cases e; simp
  | lit => intro l' e; have := litRest_len e; omega
  | not_ok => intro l' e; cases e; simp
  | opt_none => intro l' e; cases e; simp
  | seq_nil => intro l' e; cases e; simp
  | loop_end => intro l' e; cases e; simp
  | any_end => intro l' e; cases e
  | cls_bad => intro l' e; cases e
  | cls_end => intro l' e; cases e
  | alt_nil => intro l' e; cases e
  | plus_bad => intro l' e; cases e
  | seq_bad => intro l' e; cases e
  | not_bad => intro l' e; cases e
  | plus_ok _ _ i1 i2 => intro l' e; have := i1 _ rfl; have := i2 _ e; omega
  | seq_ok _ _ i1 i2 => intro l' e; have := i1 _ rfl; have := i2 _ e; omega
  | loop_more _ _ i1 i2 => intro l' e; have := i1 _ rfl; have := i2 _ e; omega
  | alt_next _ _ _ i2 => exact i2
  | action _ i => exact i
  | labeled _ i => exact i
  | ruleRef _ i => exact i
  | opt_some _ i => exact i
  | choice _ i => exact i
  | seq _ i => exact i
  | star _ i => exact i
  | alt_ok _ i => exact i

/-- A literal of one character. -/
theorem lit1 {R a l r k} (h : Ev R (.e (.lit [a])) l r k) : k = 1 ∧ ((∃ l', l = a :: l' ∧ r = some l') ∨ (r = none ∧ l.head? ≠ some a)) := by
  obtain ⟨rfl, rfl⟩ := inv_lit h
  refine ⟨rfl, ?_⟩
  cases l with
  | nil => exact .inr ⟨rfl, by simp⟩
  | cons c l =>
    by_cases hc : c = a
    · subst hc; exact .inl ⟨l, rfl, by simp [litRest]⟩
    · exact .inr ⟨by simp [litRest, hc], by simpa using hc⟩

/-- A literal fails if its first character is not there. -/
theorem litHead {R a v l r k} (h : Ev R (.e (.lit (a :: v))) l r k) : k = 1 ∧ ((∃ l', r = some l' ∧ l.head? = some a ∧ l.length = v.length + 1 + l'.length) ∨ r = none) := by
  obtain ⟨rfl, rfl⟩ := inv_lit h
  refine ⟨rfl, ?_⟩
  cases h : litRest (a :: v) l with
  | none => exact .inr rfl
  | some l' =>
    have hl := litRest_len h
    refine .inl ⟨l', rfl, ?_, by simpa using hl⟩
    cases l with
    | nil => simp [litRest] at h
    | cons c l =>
      simp only [litRest] at h
      split at h
      · simp_all
      · cases h

/-! ## Loops over a class -/

theorem loop_cls {R cs rs i l r k} (h : Ev R (.loop (.cls cs rs i)) l r k) :
    r = some (l.dropWhile (clsHas cs rs i)) ∧ k = l.length - (l.dropWhile (clsHas cs rs i)).length + 1 := by
  induction l generalizing r k with
  | nil =>
    rcases inv_loop h with ⟨l', k1, k2, -, h1, -⟩ | ⟨rfl, h1⟩
    · obtain ⟨-, ⟨_, _, e, -⟩ | ⟨e, -⟩⟩ := inv_cls h1 <;> cases e
    · obtain ⟨rfl, -⟩ := inv_cls h1; simp
  | cons c l ih =>
    rcases inv_loop h with ⟨l', k1, k2, rfl, h1, h2⟩ | ⟨rfl, h1⟩
    · obtain ⟨rfl, ⟨_, _, e, e', hc⟩ | ⟨e, -⟩⟩ := inv_cls h1
      · cases e; cases e'
        obtain ⟨rfl, rfl⟩ := ih h2
        rw [List.dropWhile_cons_of_pos hc]
        have : (l.dropWhile (clsHas cs rs i)).length ≤ l.length := (List.dropWhile_sublist _).length_le
        refine ⟨rfl, ?_⟩
        simp only [List.length_cons]; omega
      · cases e
    · obtain ⟨rfl, ⟨_, _, _, e, -⟩ | ⟨-, hc⟩⟩ := inv_cls h1
      · cases e
      · rw [List.dropWhile_cons_of_neg (by simp [hc c l rfl])]
        simp

theorem dropWhile_le {p : Char → Bool} (l : List Char) : (l.dropWhile p).length ≤ l.length := (List.dropWhile_sublist _).length_le

/-! ## Blanks and comments -/

def isBlank (c : Char) : Bool := c == ' ' || c == '\t' || c == '\r' || c == '\n'

/-- One blank or comment. -/
def skip1 (l : List Char) : Option (List Char) :=
  match l with
  | [] => none
  | c :: t =>
    if c = '/' then
      match t with
      | [] => none
      | d :: t' =>
        if d = '/' then
          match t'.dropWhile (clsHas ['\n'] [] true) with
          | [] => none
          | _ :: u => some u
        else none
    else if isBlank c then some t else none

theorem skip1_lt {l l'} (h : skip1 l = some l') : l'.length < l.length := by
  rcases l with _ | ⟨c, t⟩
  · cases h
  · simp only [skip1] at h
    split at h
    · rcases t with _ | ⟨d, t'⟩
      · cases h
      · simp only at h
        split at h
        · have := dropWhile_le (p := clsHas ['\n'] [] true) t'
          cases he : t'.dropWhile (clsHas ['\n'] [] true) with
          | nil => rw [he] at h; cases h
          | cons x u =>
            rw [he] at h this
            cases h
            simp only [List.length_cons] at this ⊢
            omega
        · cases h
    · split at h
      · cases h; simp
      · cases h

/-- All blanks and comments. -/
def sk (l : List Char) : List Char :=
  match h : skip1 l with
  | none => l
  | some l' => sk l'
termination_by l.length
decreasing_by exact skip1_lt h

theorem sk_none {l} (h : skip1 l = none) : sk l = l := by
  rw [sk]; split
  · rfl
  · rename_i h'; rw [h] at h'; cases h'

theorem sk_some {l l'} (h : skip1 l = some l') : sk l = sk l' := by
  rw [sk]; split
  · rename_i h'; rw [h] at h'; cases h'
  · rename_i h'; rw [h] at h'; cases h'; rfl

theorem sk_le (l : List Char) : (sk l).length ≤ l.length := by
  induction hn : l.length using Nat.strongRecOn generalizing l with
  | ind n ih =>
    cases h : skip1 l with
    | none => rw [sk_none h]; omega
    | some l' =>
      rw [sk_some h]
      have := skip1_lt h
      have := ih l'.length (by omega) l' rfl
      omega

theorem skip1_sk (l : List Char) : skip1 (sk l) = none := by
  induction hn : l.length using Nat.strongRecOn generalizing l with
  | ind n ih =>
    cases h : skip1 l with
    | none => rw [sk_none h]; exact h
    | some l' =>
      rw [sk_some h]
      have := skip1_lt h
      exact ih l'.length (by omega) l' rfl

theorem sk_sk (l : List Char) : sk (sk l) = sk l := sk_none (skip1_sk l)

open Classical in
/-- A comment without end has to be read to see that it has none. -/
noncomputable def pen (l : List Char) : Nat := if (∃ t, l = '/' :: '/' :: t) ∧ '\n' ∉ l then l.length else 0

theorem pen_pos {l : List Char} (h : pen l ≠ 0) : '\n' ∉ l := by
  unfold pen at h; split at h
  · rename_i h'; exact h'.2
  · exact absurd rfl h

theorem pen_le (l : List Char) : pen l ≤ l.length := by unfold pen; split <;> omega

theorem pen_zero {l : List Char} (h : l.head? ≠ some '/') : pen l = 0 := by
  unfold pen
  rw [if_neg]
  rintro ⟨⟨t, rfl⟩, -⟩
  exact h rfl

theorem pen_slash {l : List Char} (h : pen l ≠ 0) : ∃ t, l = '/' :: '/' :: t := by
  unfold pen at h; split at h
  · rename_i h'; exact h'.1
  · exact absurd rfl h

theorem nlHas (c : Char) : clsHas ['\n'] [] true c = (c != '\n') := by
  by_cases h : c = '\n'
  · subst h; rfl
  · simp [clsHas, inClass, h]

theorem blankHas (c : Char) : clsHas [' ', '\t', '\r', '\n'] [] false c = isBlank c := by
  by_cases h1 : c = ' '
  · subst h1; rfl
  by_cases h2 : c = '\t'
  · subst h2; rfl
  by_cases h3 : c = '\r'
  · subst h3; rfl
  by_cases h4 : c = '\n'
  · subst h4; rfl
  simp [clsHas, inClass, isBlank, h1, h2, h3, h4]

theorem skip_ev {R l r k} (h : Ev R (.e gSkip) l r k) :
    r = skip1 l ∧ (∀ l', r = some l' → k ≤ 4 * (l.length - l'.length)) ∧ (r = none → k ≤ 5 + pen l) := by
  obtain ⟨k₀, rfl, h₀⟩ := inv_choice h
  have blank : ∀ {r k}, Ev R (.alt [.cls [' ', '\t', '\r', '\n'] [] false]) l r k → k = 1 ∧
      ((∃ c t, l = c :: t ∧ isBlank c = true ∧ r = some t) ∨ (r = none ∧ ∀ c t, l = c :: t → isBlank c = false)) := by
    intro r k g
    rcases inv_alt g with ⟨l', rfl, g1⟩ | ⟨k1, k2, rfl, g1, h'⟩
    · obtain ⟨rfl, ⟨c, t, rfl, e, hc⟩ | ⟨e, -⟩⟩ := inv_cls g1
      · cases e; exact ⟨rfl, .inl ⟨_, _, rfl, by rw [← blankHas]; exact hc, rfl⟩⟩
      · cases e
    · obtain ⟨rfl, rfl⟩ := inv_alt_nil h'
      obtain ⟨rfl, ⟨c, t, rfl, e, hc⟩ | ⟨-, hc⟩⟩ := inv_cls g1
      · cases e
      · exact ⟨rfl, .inr ⟨rfl, fun c t e => by rw [← blankHas]; exact hc c t e⟩⟩
  -- the comment
  have comment : ∀ {r k}, Ev R (.e (.seq [.lit ['/', '/'], .zeroOrMore (.cls ['\n'] [] true), .lit ['\n']])) l r k →
      (∃ t u, l = '/' :: '/' :: t ∧ t.dropWhile (clsHas ['\n'] [] true) = '\n' :: u ∧ r = some u ∧ k ≤ t.length - u.length + 4) ∨
      (∃ t, l = '/' :: '/' :: t ∧ t.dropWhile (clsHas ['\n'] [] true) = [] ∧ r = none ∧ k = t.length + 5) ∨
      ((∀ t, l ≠ '/' :: '/' :: t) ∧ r = none ∧ k = 2) := by
    intro r k h
    obtain ⟨k₁, rfl, h₁⟩ := inv_seqe h
    rcases inv_seq h₁ with ⟨l1, k1, k2, rfl, h1, h₂⟩ | ⟨rfl, h1⟩
    · obtain ⟨e, rfl⟩ := inv_lit h1
      have : ∃ t, l = '/' :: '/' :: t ∧ l1 = t := by
        rcases l with _ | ⟨c, _ | ⟨d, t⟩⟩
        · simp [litRest] at e
        · simp only [litRest] at e; split at e <;> cases e
        · simp only [litRest] at e
          split at e
          · split at e
            · simp_all
            · cases e
          · cases e
      obtain ⟨t, rfl, rfl⟩ := this
      rcases inv_seq h₂ with ⟨l2, k3, k4, rfl, h2, h₃⟩ | ⟨rfl, h2⟩
      · obtain ⟨_, k5, e, rfl, h2'⟩ := inv_star h2
        cases e
        obtain ⟨e, rfl⟩ := loop_cls h2'
        cases e
        have hle := dropWhile_le (p := clsHas ['\n'] [] true) l1
        rcases inv_seq h₃ with ⟨l3, k6, k7, rfl, h3, h₄⟩ | ⟨rfl, h3⟩
        · obtain ⟨rfl, rfl⟩ := inv_seq_nil h₄
          obtain ⟨rfl, ⟨u, e, e'⟩ | ⟨e', -⟩⟩ := lit1 h3
          · cases e'
            rw [e] at hle ⊢
            simp only [List.length_cons] at hle ⊢
            exact .inl ⟨_, _, rfl, e, rfl, by omega⟩
          · cases e'
        · obtain ⟨rfl, ⟨u, e, e'⟩ | ⟨-, hn⟩⟩ := lit1 h3
          · cases e'
          · cases hd : l1.dropWhile (clsHas ['\n'] [] true) with
            | nil => exact .inr (.inl ⟨_, rfl, hd, rfl, by simp only [hd, List.length_nil]; omega⟩)
            | cons c u =>
              exfalso
              have := List.head?_dropWhile_not (clsHas ['\n'] [] true) l1
              rw [hd] at this hn
              simp only [List.head?_cons, nlHas, bne_eq_false_iff_eq] at this
              simp [this] at hn
      · obtain ⟨_, _, e, -⟩ := inv_star h2
        cases e
    · obtain ⟨e, rfl⟩ := inv_lit h1
      refine .inr (.inr ⟨?_, rfl, rfl⟩)
      rintro t rfl
      simp [litRest] at e
  rcases inv_alt h₀ with ⟨l', rfl, g⟩ | ⟨k1, k2, rfl, g, h'⟩
  · rcases comment g with ⟨t, u, rfl, hd, e, hk⟩ | ⟨t, rfl, hd, e, hk⟩ | ⟨hn, e, hk⟩
    · cases e
      refine ⟨by simp [skip1, hd], ?_, by simp⟩
      intro l' e; cases e
      have hle := dropWhile_le (p := clsHas ['\n'] [] true) t
      rw [hd] at hle
      simp only [List.length_cons] at hle ⊢
      omega
    · cases e
    · cases e
  · obtain ⟨rfl, hb⟩ := blank h'
    rcases comment g with ⟨t, u, rfl, hd, e, hk⟩ | ⟨t, rfl, hd, -, hk⟩ | ⟨hn, -, hk⟩
    · cases e
    · rcases hb with ⟨c, t', e, hc, -⟩ | ⟨rfl, -⟩
      · cases e; exact absurd hc (by decide)
      · refine ⟨by simp [skip1, hd], by simp, fun _ => ?_⟩
        have hnl : '\n' ∉ '/' :: '/' :: t := by
          have hall : ∀ c ∈ t, c ≠ '\n' := by
            clear hk h h₀ g h' blank comment
            induction t with
            | nil => simp
            | cons c t ih =>
              rw [List.dropWhile_cons] at hd
              split at hd
              · rename_i hc
                rw [nlHas] at hc
                intro d hd'
                rcases List.mem_cons.1 hd' with rfl | hd'
                · simpa using hc
                · exact ih hd d hd'
              · cases hd
          intro hm
          simp only [List.mem_cons] at hm
          rcases hm with hm | hm | hm
          · exact absurd hm (by decide)
          · exact absurd hm (by decide)
          · exact hall _ hm rfl
        unfold pen
        rw [if_pos ⟨⟨_, rfl⟩, hnl⟩]
        simp only [List.length_cons]; omega
    · rcases hb with ⟨c, t', rfl, hc, rfl⟩ | ⟨rfl, hb⟩
      · refine ⟨?_, ?_, by simp⟩
        · have : c ≠ '/' := by rintro rfl; exact absurd hc (by decide)
          simp [skip1, this, hc]
        · intro l' e; cases e; simp only [List.length_cons]; omega
      · refine ⟨?_, by simp, fun _ => by omega⟩
        cases l with
        | nil => rfl
        | cons c t =>
          by_cases hc : c = '/'
          · subst hc
            cases t with
            | nil => rfl
            | cons d t =>
              have : d ≠ '/' := by rintro rfl; exact hn t rfl
              simp [skip1, this]
          · simp [skip1, hc, hb c t rfl]

theorem skipLoop_ev {R l r k} (h : Ev R (.loop gSkip) l r k) : r = some (sk l) ∧ k ≤ 4 * (l.length - (sk l).length) + 5 + pen (sk l) := by
  induction hn : l.length using Nat.strongRecOn generalizing l r k with
  | ind n ih =>
    rcases inv_loop h with ⟨l', k1, k2, rfl, h1, h2⟩ | ⟨rfl, h1⟩
    · obtain ⟨e, hk, -⟩ := skip_ev h1
      have hlt := skip1_lt e.symm
      obtain ⟨rfl, hk2⟩ := ih _ (by omega) h2 rfl
      rw [sk_some e.symm]
      refine ⟨rfl, ?_⟩
      have := hk _ rfl
      have := sk_le l'
      omega
    · obtain ⟨e, -, hk⟩ := skip_ev h1
      rw [sk_none e.symm]
      have := hk rfl
      exact ⟨rfl, by omega⟩

theorem skip0_ev {R l r k} (h : Ev R (.e g_) l r k) : r = some (sk l) ∧ k ≤ 4 * (l.length - (sk l).length) + 6 + pen (sk l) := by
  obtain ⟨l', k', rfl, rfl, g⟩ := inv_star h
  obtain ⟨e, hk⟩ := skipLoop_ev g
  exact ⟨e, by omega⟩

theorem skips_ev {R l r k} (h : Ev R (.e g__) l r k) : k ≤ 4 * (l.length - (sk l).length) + 6 + pen (sk l) ∧
    ((r = some (sk l) ∧ (sk l).length < l.length) ∨ (r = none ∧ sk l = l)) := by
  rcases inv_plus h with ⟨l1, l2, k1, k2, rfl, rfl, h1, h2⟩ | ⟨k', rfl, rfl, h1⟩
  · obtain ⟨e, hk, -⟩ := skip_ev h1
    have hlt := skip1_lt e.symm
    obtain ⟨e2, hk2⟩ := skipLoop_ev h2
    cases e2
    rw [sk_some e.symm]
    have := sk_le l1
    have := hk _ rfl
    exact ⟨by omega, .inl ⟨rfl, by omega⟩⟩
  · obtain ⟨e, -, hk⟩ := skip_ev h1
    rw [sk_none e.symm]
    have := hk rfl
    exact ⟨by omega, .inr ⟨rfl, rfl⟩⟩

/-! ## Words -/

def isWord (c : Char) : Bool := clsHas ['_'] [('a', 'z'), ('A', 'Z'), ('0', '9')] false c
def isLower (c : Char) : Bool := clsHas [] [('a', 'z')] false c

theorem lower_word {c : Char} (h : isLower c = true) : isWord c = true := by
  simp only [isLower, isWord, clsHas, inClass, List.contains_nil, Bool.false_or, List.any_cons, List.any_nil, Bool.or_false, Bool.bne_false] at h ⊢
  simp [h]

/-- What is left after an identifier. -/
def idRest : List Char → Option (List Char)
  | [] => none
  | c :: l => if isLower c then some (l.dropWhile isWord) else none

theorem idRest_lt {l l'} (h : idRest l = some l') : l'.length < l.length := by
  cases l with
  | nil => cases h
  | cons c l =>
    simp only [idRest] at h
    split at h
    · cases h; have := dropWhile_le (p := isWord) l; simp only [List.length_cons]; omega
    · cases h

theorem words_ev {R l r k} (h : Ev R (.e (.zeroOrMore gWord)) l r k) : r = some (l.dropWhile isWord) ∧ k = l.length - (l.dropWhile isWord).length + 2 := by
  obtain ⟨l', k', rfl, rfl, g⟩ := inv_star h
  obtain ⟨e, hk⟩ := loop_cls g
  exact ⟨e, by rw [hk]; rfl⟩

theorem lower_ev {R l r k} (h : Ev R (.e gLower) l r k) : k = 1 ∧ ((∃ c l', l = c :: l' ∧ r = some l' ∧ isLower c = true) ∨ (r = none ∧ idRest l = none)) := by
  obtain ⟨hk, ⟨c, l', rfl, rfl, hc⟩ | ⟨rfl, hc⟩⟩ := inv_cls h
  · exact ⟨hk, .inl ⟨_, _, rfl, rfl, hc⟩⟩
  · refine ⟨hk, .inr ⟨rfl, ?_⟩⟩
    cases l with
    | nil => rfl
    | cons c l =>
      have : isLower c = false := hc c l rfl
      simp [idRest, this]

theorem ident_ev {R l r k} (h : Ev R (.e gIdent) l r k) : r = idRest l ∧ (∀ l', r = some l' → k + l'.length = l.length + 3) ∧ (r = none → k = 2) := by
  obtain ⟨k₀, rfl, h₀⟩ := inv_seqe h
  rcases inv_seq h₀ with ⟨l1, k1, k2, rfl, h1, h₂⟩ | ⟨rfl, h1⟩
  · obtain ⟨rfl, ⟨c, l', rfl, e, hc⟩ | ⟨e, -⟩⟩ := lower_ev h1
    · cases e
      rcases inv_seq h₂ with ⟨l2, k3, k4, rfl, h2, h₃⟩ | ⟨rfl, h2⟩
      · obtain ⟨e, rfl⟩ := words_ev h2
        cases e
        obtain ⟨rfl, rfl⟩ := inv_seq_nil h₃
        refine ⟨by simp [idRest, hc], ?_, by simp⟩
        intro l' e; cases e
        have := dropWhile_le (p := isWord) l1
        simp only [List.length_cons]; omega
      · obtain ⟨e, -⟩ := words_ev h2; cases e
    · cases e
  · obtain ⟨rfl, ⟨c, l', rfl, e, hc⟩ | ⟨-, e⟩⟩ := lower_ev h1
    · cases e
    · exact ⟨e.symm, by simp, fun _ => rfl⟩

/-- After a word there is no word. -/
theorem dropWhile_head {p : Char → Bool} {l : List Char} {c l'} (h : l.dropWhile p = c :: l') : p c = false := by
  have := List.head?_dropWhile_not p l
  rw [h] at this
  simpa using this

/-- A sequence of words, at least one character. -/
theorem part_ev {R l r k} (h : Ev R (.e gOpPart) l r k) :
    (∃ c t, l = c :: t ∧ isWord c = true ∧ r = some (l.dropWhile isWord) ∧ k + (l.dropWhile isWord).length = l.length + 2) ∨
    (r = none ∧ k = 2 ∧ ∀ c t, l = c :: t → isWord c = false) := by
  rcases inv_plus h with ⟨l1, l2, k1, k2, rfl, rfl, h1, h2⟩ | ⟨k', rfl, rfl, h1⟩
  · obtain ⟨rfl, ⟨c, l', rfl, e, hc⟩ | ⟨e, -⟩⟩ := inv_cls h1
    · cases e
      obtain ⟨e, hk⟩ := loop_cls h2
      cases e
      have hc : isWord c = true := hc
      refine .inl ⟨c, l1, rfl, hc, ?_, ?_⟩
      · rw [List.dropWhile_cons_of_pos hc]; rfl
      · rw [List.dropWhile_cons_of_pos hc]
        have := dropWhile_le (p := isWord) l1
        rw [hk]
        show 1 + (l1.length - (l1.dropWhile isWord).length + 1) + 1 + _ = _
        simp only [List.length_cons]; omega
    · cases e
  · obtain ⟨rfl, ⟨c, l', rfl, e, hc⟩ | ⟨-, hc⟩⟩ := inv_cls h1
    · cases e
    · exact .inr ⟨rfl, rfl, hc⟩

end Verif.Proof.Count

import Verif.Proof.CountOp
/-!
# Counting calls: `SExpr`, `Operand`, `Value`
-/
namespace Verif.Proof.Count
open Verif Verif.Spec

/-- What the proof by induction provides for a reference to `Value`: it is cheap; or it is a variable before a colon; or a variable before an unexpected
parenthesis (whose text is then read again); or it fails. -/
def ValB (s : List Char) : Prop :=
  ∀ r k, Ev gRules (.e (.ruleRef .Value)) s r k →
    (∃ x, r = some x ∧ k + 40 + 100 * x.length ≤ 100 * s.length ∧ ∃ c t, s = c :: t ∧ (isWord c = true ∨ c = '(')) ∨
    (∃ x, r = some (':' :: x) ∧ k ≤ 100 * s.length + 130 ∧ ∃ c t, s = c :: t ∧ isWord c = true) ∨
    (∃ u kb, r = some ('(' :: u) ∧ Ev gRules (.seq gTail) u none kb ∧ kb ≤ 100 * u.length + 40 ∧ k + 100 * u.length + 40 ≤ kb + 100 * s.length ∧ ∃ c t, s = c :: t ∧ isWord c = true) ∨
    (r = none ∧ k ≤ 60) ∨
    (r = none ∧ k ≤ 100 * s.length + 130 ∧ ∃ t, s = '(' :: t)

/-- The first character of something that may be an operand and is expensive to refuse. -/
def Dear (m : List Char) : Prop := ∃ c t, m = c :: t ∧ (c = '<' ∨ c = '[' ∨ c = '{' ∨ c = '(')

/-- The first character of an operand. -/
def Opens (m : List Char) : Prop := ∃ c t, m = c :: t ∧ (isWord c = true ∨ c = '<' ∨ c = '[' ∨ c = '{' ∨ c = '(')

theorem Dear.opens {m} (h : Dear m) : Opens m := by
  obtain ⟨c, t, rfl, h⟩ := h; exact ⟨c, t, rfl, .inr h⟩

theorem Opens.head {m : List Char} (h : Opens m) : m.head? ≠ some '/' ∧ m.head? ≠ some ')' ∧ m.head? ≠ some '.' ∧ m.head? ≠ some ',' := by
  obtain ⟨c, t, rfl, h⟩ := h
  simp only [List.head?_cons, ne_eq, Option.some.injEq]
  rcases h with h | rfl | rfl | rfl | rfl
  · refine ⟨?_, ?_, ?_, ?_⟩ <;> (rintro rfl; exact absurd h (by decide))
  all_goals decide

theorem Dear.head {m : List Char} (h : Dear m) : m.head? ≠ some '_' := by
  obtain ⟨c, t, rfl, h⟩ := h
  simp only [List.head?_cons, ne_eq, Option.some.injEq]
  rcases h with rfl | rfl | rfl | rfl <;> decide

/-- The evaluations of `Operand`. -/
theorem operand_ev {m r k} (H : ValB m) (h : Ev gRules (.e (.ruleRef .Operand)) m r k) :
    (∃ x, r = some x ∧ k + 100 * x.length + 25 ≤ 100 * m.length ∧ Opens m) ∨
    (∃ x, (r = some (':' :: x) ∨ r = some ('(' :: x)) ∧ k ≤ 100 * m.length + 145 ∧ Opens m) ∨
    (r = none ∧ k ≤ 75) ∨
    (r = none ∧ k ≤ 100 * m.length + 145 ∧ Dear m) := by
  obtain ⟨k₀, rfl, h₀⟩ := inv_ref h
  obtain ⟨k₁, rfl, h₁⟩ := inv_choice h₀
  rcases inv_alt h₁ with ⟨x, rfl, h2⟩ | ⟨ka, kr, rfl, ha, h3⟩
  · rcases delim_ev h2 with ⟨t, x', rfl, e, hk, hlt⟩ | ⟨e, -⟩
    · cases e; exact .inl ⟨x, rfl, by omega, _, _, rfl, by simp⟩
    · cases e
  rcases delim_ev ha with ⟨t, x', -, e, -⟩ | ⟨-, hka, hka'⟩
  · cases e
  rcases inv_alt h3 with ⟨x, rfl, h4⟩ | ⟨kb, kr2, rfl, hb, h5⟩
  · rcases delim_ev h4 with ⟨t, x', rfl, e, hk, hlt⟩ | ⟨e, -⟩
    · cases e
      have := hka' (by simp)
      exact .inl ⟨x, rfl, by omega, _, _, rfl, by simp⟩
    · cases e
  rcases delim_ev hb with ⟨t, x', -, e, -⟩ | ⟨-, hkb, hkb'⟩
  · cases e
  rcases inv_alt h5 with ⟨x, rfl, h6⟩ | ⟨kc, kr3, rfl, hcx, h7⟩
  · rcases delim_ev h6 with ⟨t, x', rfl, e, hk, hlt⟩ | ⟨e, -⟩
    · cases e
      have := hka' (by simp)
      have := hkb' (by simp)
      exact .inl ⟨x, rfl, by omega, _, _, rfl, by simp⟩
    · cases e
  rcases delim_ev hcx with ⟨t, x', -, e, -⟩ | ⟨-, hkc, hkc'⟩
  · cases e
  have hv : Ev gRules (.e (.ruleRef .Value)) m r kr3 := by
    rcases inv_alt h7 with ⟨x, rfl, h8⟩ | ⟨kd, kr4, rfl, h8, h9⟩
    · exact h8
    · obtain ⟨rfl, rfl⟩ := inv_alt_nil h9; exact h8
  have cheap : (∃ c t, m = c :: t ∧ (isWord c = true ∨ c = '(')) → ka + kb + kc ≤ 9 := by
    rintro ⟨c, t, rfl, hc⟩
    have h1 : c ≠ '<' := by rintro rfl; rcases hc with h | h <;> exact absurd h (by decide)
    have h2 : c ≠ '[' := by rintro rfl; rcases hc with h | h <;> exact absurd h (by decide)
    have h3 : c ≠ '{' := by rintro rfl; rcases hc with h | h <;> exact absurd h (by decide)
    have := hka' (by simpa using h1)
    have := hkb' (by simpa using h2)
    have := hkc' (by simpa using h3)
    omega
  rcases H _ _ hv with ⟨x, rfl, hk, c, t, rfl, hc⟩ | ⟨x, rfl, hk, c, t, rfl, hc⟩ | ⟨u, kt, rfl, -, hkt, hk, c, t, rfl, hc⟩ | ⟨rfl, hk⟩ | ⟨rfl, hk, t, rfl⟩
  · have := cheap ⟨c, t, rfl, hc⟩
    exact .inl ⟨x, rfl, by omega, c, t, rfl, by rcases hc with h | h <;> simp [h]⟩
  · have := cheap ⟨c, t, rfl, .inl hc⟩
    exact .inr (.inl ⟨x, .inl rfl, by omega, c, t, rfl, .inl hc⟩)
  · have := cheap ⟨c, t, rfl, .inl hc⟩
    exact .inr (.inl ⟨u, .inr rfl, by omega, c, t, rfl, .inl hc⟩)
  · by_cases h1 : m.head? = some '<'
    · cases m with
      | nil => cases h1
      | cons c t =>
        simp only [List.head?_cons, Option.some.injEq] at h1
        subst h1
        simp only [List.length_cons] at hk hka hkb hkc
        exact .inr (.inr (.inr ⟨rfl, by simp only [List.length_cons]; omega, _, _, rfl, by simp⟩))
    · by_cases h2 : m.head? = some '['
      · cases m with
        | nil => cases h2
        | cons c t =>
          simp only [List.head?_cons, Option.some.injEq] at h2
          subst h2
          simp only [List.length_cons] at hk hka hkb hkc
          exact .inr (.inr (.inr ⟨rfl, by simp only [List.length_cons]; omega, _, _, rfl, by simp⟩))
      · by_cases h3 : m.head? = some '{'
        · cases m with
          | nil => cases h3
          | cons c t =>
            simp only [List.head?_cons, Option.some.injEq] at h3
            subst h3
            simp only [List.length_cons] at hk hka hkb hkc
            exact .inr (.inr (.inr ⟨rfl, by simp only [List.length_cons]; omega, _, _, rfl, by simp⟩))
        · have := hka' h1
          have := hkb' h2
          have := hkc' h3
          exact .inr (.inr (.inl ⟨rfl, by omega⟩))
  · have := cheap ⟨_, t, rfl, .inr rfl⟩
    exact .inr (.inr (.inr ⟨rfl, by omega, _, _, rfl, by simp⟩))

def gArg : PExpr := .seq [g__, .ruleRef .Operand]

theorem arg_ev {l r k} (H : (sk l).length < l.length → ValB (sk l)) (h : Ev gRules (.e gArg) l r k) :
    (r = none ∧ k + 4 * (sk l).length ≤ 4 * l.length + 85 + pen (sk l)) ∨
    (r = none ∧ k + 4 * (sk l).length ≤ 4 * l.length + 100 * (sk l).length + 155 ∧ (sk l).length < l.length ∧ Dear (sk l)) ∨
    (∃ x, r = some x ∧ k + 100 * x.length + 15 ≤ 100 * l.length ∧ Opens (sk l) ∧ x.length ≤ (sk l).length) ∨
    (∃ x, (r = some (':' :: x) ∨ r = some ('(' :: x)) ∧ k ≤ 100 * l.length + 60 ∧ Opens (sk l)) := by
  obtain ⟨k₁, rfl, h₁⟩ := inv_seqe h
  rcases inv_seq h₁ with ⟨l1, k1, k2, rfl, h1, h₂⟩ | ⟨rfl, h1⟩
  · obtain ⟨hk1, ⟨e, hlt⟩ | ⟨e, -⟩⟩ := skips_ev h1
    · cases e
      rcases inv_seq h₂ with ⟨l2, k3, k4, rfl, h2, h₃⟩ | ⟨rfl, h2⟩
      · obtain ⟨rfl, rfl⟩ := inv_seq_nil h₃
        have hx : l2.length ≤ (sk l).length := ev_len h2 _ rfl
        rcases operand_ev (H hlt) h2 with ⟨x, e, hk, ho⟩ | ⟨x, e, hk, ho⟩ | ⟨e, -⟩ | ⟨e, -⟩
        · cases e
          have := pen_zero ho.head.1
          exact .inr (.inr (.inl ⟨_, rfl, by omega, ho, hx⟩))
        · have := pen_zero ho.head.1
          exact .inr (.inr (.inr ⟨x, e, by omega, ho⟩))
        · cases e
        · cases e
      · rcases operand_ev (H hlt) h2 with ⟨x, e, -⟩ | ⟨x, e, -⟩ | ⟨-, hk⟩ | ⟨-, hk, hd⟩
        · cases e
        · rcases e with e | e <;> cases e
        · exact .inl ⟨rfl, by omega⟩
        · have := pen_zero hd.opens.head.1
          exact .inr (.inl ⟨rfl, by omega, hlt, hd⟩)
    · cases e
  · obtain ⟨hk1, -⟩ := skips_ev h1
    have := sk_le l
    exact .inl ⟨rfl, by omega⟩

/-- No blank, no more operands. -/
theorem argLoop_stop {w r k} (hs : sk w = w) (h : Ev gRules (.loop gArg) w r k) : r = some w ∧ k ≤ 8 + pen w := by
  have fails : ∀ {r k}, Ev gRules (.e gArg) w r k → r = none ∧ k ≤ 8 + pen w := by
    intro r k g
    obtain ⟨k₁, rfl, h₁⟩ := inv_seqe g
    rcases inv_seq h₁ with ⟨l1, k1, k2, rfl, h1, h₂⟩ | ⟨rfl, h1⟩
    · obtain ⟨-, ⟨-, hlt⟩ | ⟨e, -⟩⟩ := skips_ev h1
      · rw [hs] at hlt; omega
      · cases e
    · obtain ⟨hk1, -⟩ := skips_ev h1
      rw [hs] at hk1
      exact ⟨rfl, by omega⟩
  rcases inv_loop h with ⟨l', k1, k2, rfl, h1, h2⟩ | ⟨rfl, h1⟩
  · have := (fails h1).1; cases this
  · exact ⟨rfl, (fails h1).2⟩

theorem argLoop_ev {w r k} (H : ∀ s, s.length < w.length → ValB s) (h : Ev gRules (.loop gArg) w r k) :
    ∃ x, r = some x ∧ x.length ≤ w.length ∧
      ((k + 100 * x.length + 4 * (sk x).length ≤ 100 * w.length + 4 * x.length + 85 + pen (sk x)) ∨
       (k ≤ 100 * w.length + 60 ∧ k + 4 * (sk x).length + 100 * x.length ≤ 100 * w.length + 4 * x.length + 100 * (sk x).length + 155 ∧ (sk x).length < x.length ∧ Dear (sk x)) ∨
       (∃ y, (x = ':' :: y ∨ x = '(' :: y) ∧ k ≤ 100 * w.length + 70)) := by
  induction hn : w.length using Nat.strongRecOn generalizing w r k with
  | ind n ih =>
    subst hn
    rcases inv_loop h with ⟨l', k1, k2, rfl, h1, h2⟩ | ⟨rfl, h1⟩
    · have hlen : l'.length ≤ w.length := ev_len h1 _ rfl
      rcases arg_ev (H _) h1 with ⟨e, -⟩ | ⟨e, -⟩ | ⟨x, e, hk, -⟩ | ⟨x, e, hk, -⟩
      · cases e
      · cases e
      · cases e
        obtain ⟨x, rfl, hx, hc⟩ := ih l'.length (by omega) (fun s hs => H s (by omega)) h2 rfl
        refine ⟨x, rfl, by omega, ?_⟩
        rcases hc with hc | ⟨hc1, hc2, hc3, hc4⟩ | ⟨y, hy, hc⟩
        · exact .inl (by omega)
        · exact .inr (.inl ⟨by omega, by omega, hc3, hc4⟩)
        · exact .inr (.inr ⟨y, hy, by omega⟩)
      · have hs : sk l' = l' ∧ pen l' = 0 := by
          rcases e with e | e <;> cases e <;> exact ⟨sk_self (by decide) (by decide), pen_zero (by simp)⟩
        obtain ⟨rfl, hk2⟩ := argLoop_stop hs.1 h2
        rw [hs.2] at hk2
        refine ⟨l', rfl, hlen, .inr (.inr ⟨x, ?_, by omega⟩)⟩
        rcases e with e | e <;> cases e
        · exact .inl rfl
        · exact .inr rfl
    · have := sk_le w
      rcases arg_ev (H _) h1 with ⟨-, hk⟩ | ⟨-, hk, hlt, hd⟩ | ⟨x, e, -⟩ | ⟨x, e, -⟩
      · exact ⟨_, rfl, Nat.le_refl _, .inl (by omega)⟩
      · exact ⟨_, rfl, Nat.le_refl _, .inr (.inl ⟨by omega, by omega, hlt, hd⟩)⟩
      · cases e
      · rcases e with e | e <;> cases e

/-- Three characters after blanks, or nothing. -/
theorem optLit_ev {R a c v x r k} (h : Ev R (.e (.labeled a (.zeroOrOne (.seq [g__, .lit (c :: v)])))) x r k) :
    ∃ y, r = some y ∧ k + 4 * (sk x).length ≤ 4 * x.length + 12 + pen (sk x) ∧ (y = x ∨ ((sk x).head? = some c ∧ y.length < (sk x).length ∧ (sk x).length < x.length)) := by
  obtain ⟨k₀, rfl, h₀⟩ := inv_labeled h
  obtain ⟨k₁, rfl, hh⟩ := inv_opt h₀
  have hle := sk_le x
  rcases hh with ⟨l', rfl, h₁⟩ | ⟨rfl, h₁⟩
  · obtain ⟨k₂, rfl, h₂⟩ := inv_seqe h₁
    rcases inv_seq h₂ with ⟨l1, k1, k2, rfl, h1, h₃⟩ | ⟨e, -⟩
    · obtain ⟨hk1, ⟨e, hlt⟩ | ⟨e, -⟩⟩ := skips_ev h1
      · cases e
        rcases inv_seq h₃ with ⟨l2, k3, k4, rfl, h2, h₄⟩ | ⟨e, -⟩
        · obtain ⟨e, rfl⟩ := inv_seq_nil h₄
          cases e
          obtain ⟨rfl, ⟨z, e, hh, hl⟩ | e⟩ := litHead h2
          · cases e
            exact ⟨_, rfl, by omega, .inr ⟨hh, by omega, hlt⟩⟩
          · cases e
        · cases e
      · cases e
    · cases e
  · obtain ⟨k₂, rfl, h₂⟩ := inv_seqe h₁
    refine ⟨x, rfl, ?_, .inl rfl⟩
    rcases inv_seq h₂ with ⟨l1, k1, k2, rfl, h1, h₃⟩ | ⟨-, h1⟩
    · obtain ⟨hk1, ⟨e, hlt⟩ | ⟨e, -⟩⟩ := skips_ev h1
      · cases e
        rcases inv_seq h₃ with ⟨l2, k3, k4, rfl, h2, h₄⟩ | ⟨-, h2⟩
        · obtain ⟨e, -⟩ := inv_seq_nil h₄; cases e
        · obtain ⟨rfl, -⟩ := litHead h2; omega
      · cases e
    · obtain ⟨hk1, -⟩ := skips_ev h1; omega

/-- What follows the operands. -/
def gEnd : List PExpr :=
  [.labeled .ellipsis (.zeroOrOne (.seq [g__, .lit ['.', '.', '.']])), .labeled .trailing (.zeroOrOne (.seq [g__, .lit ['_', '_', '_']])), g_, .lit [')']]

theorem end_ev {R x r k} (h : Ev R (.seq gEnd) x r k) :
    (∃ z, r = some z ∧ k + 16 * z.length ≤ 16 * x.length + 20 ∧ z.length < (sk x).length ∧ pen (sk x) = 0 ∧ ((sk x).head? = some ')' ∨ (sk x).head? = some '.' ∨ (sk x).head? = some '_')) ∨
    (r = none ∧ k ≤ 16 * x.length + 36) := by
  rcases inv_seq h with ⟨x1, k1, k2, rfl, h1, h₂⟩ | ⟨rfl, h1⟩
  · obtain ⟨_, e, hk1, hx1⟩ := optLit_ev h1
    cases e
    rcases inv_seq h₂ with ⟨x2, k3, k4, rfl, h2, h₃⟩ | ⟨rfl, h2⟩
    · obtain ⟨_, e, hk2, hx2⟩ := optLit_ev h2
      cases e
      rcases inv_seq h₃ with ⟨x3, k5, k6, rfl, h3, h₄⟩ | ⟨rfl, h3⟩
      · obtain ⟨e, hk3⟩ := skip0_ev h3
        cases e
        have l0 := sk_le x
        have l1 := sk_le x1
        have l2 := sk_le x2
        have p0 := pen_le (sk x)
        have p1 := pen_le (sk x1)
        have p2 := pen_le (sk x2)
        rcases inv_seq h₄ with ⟨x4, k7, k8, rfl, h4, h₅⟩ | ⟨rfl, h4⟩
        · obtain ⟨rfl, rfl⟩ := inv_seq_nil h₅
          obtain ⟨rfl, ⟨z, hz, e'⟩ | ⟨e', -⟩⟩ := lit1 h4
          · cases e'
            have pz : pen (sk x2) = 0 := pen_zero (by rw [hz]; simp)
            have lz : (sk x2).length = x4.length + 1 := by rw [hz]; rfl
            left
            refine ⟨x4, rfl, ?_⟩
            rcases hx2 with rfl | ⟨hh2, hx2, hx2'⟩
            · rcases hx1 with rfl | ⟨hh1, hx1, hx1'⟩
              · exact ⟨by omega, by omega, pz, .inl (by rw [hz]; rfl)⟩
              · have : pen (sk x) = 0 := pen_zero (by rw [hh1]; simp)
                exact ⟨by omega, by omega, this, .inr (.inl hh1)⟩
            · have pz1 : pen (sk x1) = 0 := pen_zero (by rw [hh2]; simp)
              rcases hx1 with rfl | ⟨hh1, hx1, hx1'⟩
              · exact ⟨by omega, by omega, pz1, .inr (.inr hh2)⟩
              · have : pen (sk x) = 0 := pen_zero (by rw [hh1]; simp)
                exact ⟨by omega, by omega, this, .inr (.inl hh1)⟩
          · cases e'
        · obtain ⟨rfl, -⟩ := lit1 h4
          refine .inr ⟨rfl, ?_⟩
          have : x1.length ≤ x.length := by rcases hx1 with rfl | ⟨-, h, -⟩ <;> omega
          have : x2.length ≤ x1.length := by rcases hx2 with rfl | ⟨-, h, -⟩ <;> omega
          omega
      · obtain ⟨e, -⟩ := skip0_ev h3; cases e
    · obtain ⟨_, e, -⟩ := optLit_ev h2; cases e
  · obtain ⟨_, e, -⟩ := optLit_ev h1; cases e

/-- The end is cheap if something else is there. -/
theorem end_cheap {R x r k} (h : Ev R (.seq gEnd) x r k) (h1 : (sk x).head? ≠ some ')') (h2 : (sk x).head? ≠ some '.') (h3 : (sk x).head? ≠ some '_')
    (h4 : (sk x).head? ≠ some '/') : r = none ∧ k + 12 * (sk x).length ≤ 12 * x.length + 36 := by
  rcases inv_seq h with ⟨x1, k1, k2, rfl, g1, h₂⟩ | ⟨rfl, g1⟩
  · obtain ⟨_, e, hk1, hx1⟩ := optLit_ev g1
    cases e
    rcases hx1 with rfl | ⟨hh, -⟩
    · rcases inv_seq h₂ with ⟨x2, k3, k4, rfl, g2, h₃⟩ | ⟨rfl, g2⟩
      · obtain ⟨_, e, hk2, hx2⟩ := optLit_ev g2
        cases e
        rcases hx2 with rfl | ⟨hh, -⟩
        · have := pen_zero h4
          have := sk_le x2
          rcases inv_seq h₃ with ⟨x3, k5, k6, rfl, g3, h₄⟩ | ⟨rfl, g3⟩
          · obtain ⟨e, hk3⟩ := skip0_ev g3
            cases e
            rcases inv_seq h₄ with ⟨x4, k7, k8, rfl, g4, h₅⟩ | ⟨rfl, g4⟩
            · obtain ⟨rfl, ⟨z, hz, e'⟩ | ⟨e', -⟩⟩ := lit1 g4
              · rw [hz] at h1; exact absurd rfl h1
              · cases e'
            · obtain ⟨rfl, -⟩ := lit1 g4
              exact ⟨rfl, by omega⟩
          · obtain ⟨e, -⟩ := skip0_ev g3; cases e
        · exact absurd hh h3
      · obtain ⟨_, e, -⟩ := optLit_ev g2; cases e
    · exact absurd hh h2
  · obtain ⟨_, e, -⟩ := optLit_ev g1; cases e

/-- What follows the operator. -/
def gClose : List PExpr := .labeled .operands (.zeroOrMore gArg) :: gEnd

theorem close_stop {w r k} (hs : sk w = w) (h1 : w.head? ≠ some ')') (h2 : w.head? ≠ some '.') (h3 : w.head? ≠ some '_') (h4 : w.head? ≠ some '/')
    (h : Ev gRules (.seq gClose) w r k) : r = none ∧ k ≤ 50 := by
  rcases inv_seq h with ⟨x, k1, k2, rfl, g1, g2⟩ | ⟨rfl, g1⟩
  · obtain ⟨k₀, rfl, g1'⟩ := inv_labeled g1
    obtain ⟨_, k₁, e, rfl, g1''⟩ := inv_star g1'
    cases e
    obtain ⟨e, hk⟩ := argLoop_stop hs g1''
    cases e
    obtain ⟨rfl, hk2⟩ := end_cheap g2 (by rwa [hs]) (by rwa [hs]) (by rwa [hs]) (by rwa [hs])
    rw [hs] at hk2
    rw [pen_zero h4] at hk
    exact ⟨rfl, by omega⟩
  · obtain ⟨k₀, rfl, g1'⟩ := inv_labeled g1
    obtain ⟨_, k₁, e, -⟩ := inv_star g1'
    cases e

theorem close_ev {w r k} (H : ∀ s, s.length < w.length → ValB s) (h : Ev gRules (.seq gClose) w r k) :
    (∃ z, r = some z ∧ k + 100 * z.length ≤ 100 * w.length + 25) ∨ (r = none ∧ k ≤ 100 * w.length + 140) := by
  rcases inv_seq h with ⟨x, k1, k2, rfl, g1, g2⟩ | ⟨rfl, g1⟩
  · obtain ⟨k₀, rfl, g1'⟩ := inv_labeled g1
    obtain ⟨_, k₁, e, rfl, g1''⟩ := inv_star g1'
    cases e
    obtain ⟨_, e, hx, hc⟩ := argLoop_ev H g1''
    cases e
    have l0 := sk_le x
    rcases hc with hc | ⟨hc1, hc2, hc3, hc4⟩ | ⟨y, hy, hc⟩
    · rcases end_ev g2 with ⟨z, rfl, hk2, hz, hp, -⟩ | ⟨rfl, hk2⟩
      · exact .inl ⟨z, rfl, by omega⟩
      · have := pen_le (sk x)
        exact .inr ⟨rfl, by omega⟩
    · obtain ⟨rfl, hk2⟩ := end_cheap g2 hc4.opens.head.2.1 hc4.opens.head.2.2.1 hc4.head hc4.opens.head.1
      exact .inr ⟨rfl, by omega⟩
    · have hs : sk x = x := by rcases hy with rfl | rfl <;> exact sk_self (by decide) (by decide)
      have hh : x.head? = some ':' ∨ x.head? = some '(' := by rcases hy with rfl | rfl <;> simp
      obtain ⟨rfl, hk2⟩ := end_cheap g2 (by rw [hs]; rcases hh with h | h <;> rw [h] <;> simp) (by rw [hs]; rcases hh with h | h <;> rw [h] <;> simp)
        (by rw [hs]; rcases hh with h | h <;> rw [h] <;> simp) (by rw [hs]; rcases hh with h | h <;> rw [h] <;> simp)
      rw [hs] at hk2
      exact .inr ⟨rfl, by omega⟩
  · obtain ⟨k₀, rfl, g1'⟩ := inv_labeled g1
    obtain ⟨_, k₁, e, -⟩ := inv_star g1'
    cases e

/-- The binding of a nested expression. -/
theorem bind_ev {R a s r k} (h : Ev R (.e (.labeled a (.zeroOrOne (.seq [.action .onSExpr6 gIdent, .lit [':']])))) s r k) :
    (idRest s = none ∧ r = some s ∧ k ≤ 10) ∨ (∃ w, idRest s = some w ∧ w.head? ≠ some ':' ∧ r = some s ∧ k + w.length ≤ s.length + 10) ∨
    (∃ x, idRest s = some (':' :: x) ∧ r = some x ∧ k + x.length ≤ s.length + 10) := by
  obtain ⟨k₀, rfl, h₀⟩ := inv_labeled h
  obtain ⟨k₁, rfl, ⟨l', rfl, h₁⟩ | ⟨rfl, h₁⟩⟩ := inv_opt h₀
  · obtain ⟨k₂, rfl, h₂⟩ := inv_seqe h₁
    rcases inv_seq h₂ with ⟨l1, k1, k2, rfl, h1, h₃⟩ | ⟨e, -⟩
    · obtain ⟨k₃, rfl, h1'⟩ := inv_action h1
      obtain ⟨e, hk, -⟩ := ident_ev h1'
      have hk := hk _ rfl
      rcases inv_seq h₃ with ⟨l2, k3, k4, rfl, h2, h₄⟩ | ⟨e, -⟩
      · obtain ⟨e', rfl⟩ := inv_seq_nil h₄
        cases e'
        obtain ⟨rfl, ⟨z, rfl, e'⟩ | ⟨e', -⟩⟩ := lit1 h2
        · cases e'
          simp only [List.length_cons] at hk
          exact .inr (.inr ⟨_, e.symm, rfl, by omega⟩)
        · cases e'
      · cases e
    · cases e
  · obtain ⟨k₂, rfl, h₂⟩ := inv_seqe h₁
    rcases inv_seq h₂ with ⟨l1, k1, k2, rfl, h1, h₃⟩ | ⟨-, h1⟩
    · obtain ⟨k₃, rfl, h1'⟩ := inv_action h1
      obtain ⟨e, hk, -⟩ := ident_ev h1'
      have hk := hk _ rfl
      rcases inv_seq h₃ with ⟨l2, k3, k4, rfl, h2, h₄⟩ | ⟨-, h2⟩
      · obtain ⟨e', -⟩ := inv_seq_nil h₄; cases e'
      · obtain ⟨rfl, ⟨z, -, e'⟩ | ⟨-, hn⟩⟩ := lit1 h2
        · cases e'
        · exact .inr (.inl ⟨_, e.symm, hn, rfl, by omega⟩)
    · obtain ⟨k₃, rfl, h1'⟩ := inv_action h1
      obtain ⟨e, -, hk⟩ := ident_ev h1'
      have hk := hk rfl
      exact .inl ⟨e.symm, rfl, by omega⟩

/-- A nested expression after its binding. -/
def gBody : List PExpr := .lit ['('] :: g_ :: .labeled .op gOp :: gClose

theorem body_ev {s r k} (H : ∀ s', s'.length < s.length → ValB s') (h : Ev gRules (.seq gBody) s r k) :
    (∃ z t, s = '(' :: t ∧ r = some z ∧ k + 100 * z.length + 110 ≤ 100 * s.length) ∨ (r = none ∧ k ≤ 100 * s.length + 60 ∧ (s.head? ≠ some '(' → k = 1)) := by
  rcases inv_seq h with ⟨l1, k1, k2, rfl, h1, h₂⟩ | ⟨rfl, h1⟩
  · obtain ⟨rfl, ⟨t, rfl, e'⟩ | ⟨e', -⟩⟩ := lit1 h1
    · cases e'
      simp only [List.length_cons, List.head?_cons, ne_eq, not_true_eq_false, false_imp_iff, and_true] at H ⊢
      rcases inv_seq h₂ with ⟨l2, k3, k4, rfl, h2, h₃⟩ | ⟨rfl, h2⟩
      · obtain ⟨e, hk2⟩ := skip0_ev h2
        cases e
        have hle := sk_le l1
        have hpl := pen_le (sk l1)
        rcases inv_seq h₃ with ⟨w, k5, k6, rfl, h3, h₄⟩ | ⟨rfl, h3⟩
        · obtain ⟨k7, rfl, h3'⟩ := inv_labeled h3
          rcases op_ev h3' with ⟨_, e, hlt, hk3, hp⟩ | ⟨e, -⟩
          · cases e
            by_cases hw : w.head? = some '('
            · have hs : sk w = w := by
                cases w with
                | nil => cases hw
                | cons c t => simp only [List.head?_cons, Option.some.injEq] at hw; subst hw; exact sk_self (by decide) (by decide)
              obtain ⟨rfl, hk4⟩ := close_stop hs (by rw [hw]; simp) (by rw [hw]; simp) (by rw [hw]; simp) (by rw [hw]; simp) h₄
              have := altPen_le w
              exact .inr ⟨rfl, by omega⟩
            · rw [altPen_zero hw] at hk3
              rcases close_ev (fun s' hs => H s' (by omega)) h₄ with ⟨z, rfl, hk4⟩ | ⟨rfl, hk4⟩
              · exact .inl ⟨z, l1, rfl, rfl, by omega⟩
              · exact .inr ⟨rfl, by omega⟩
          · cases e
        · obtain ⟨k7, rfl, h3'⟩ := inv_labeled h3
          rcases op_ev h3' with ⟨_, e, -⟩ | ⟨-, hk3, -⟩
          · cases e
          · exact .inr ⟨rfl, by omega⟩
      · obtain ⟨e, -⟩ := skip0_ev h2; cases e
    · cases e'
  · obtain ⟨rfl, ⟨t, e, e'⟩ | ⟨-, hn⟩⟩ := lit1 h1
    · cases e'
    · exact .inr ⟨rfl, by omega, fun _ => rfl⟩

/-- The evaluations of a reference to `SExpr`. -/
theorem sexpr_ev {s r k} (H : ∀ s', s'.length < s.length → ValB s') (h : Ev gRules (.e (.ruleRef .SExpr)) s r k) :
    (∃ z, r = some z ∧ k + 100 * z.length + 90 ≤ 100 * s.length ∧ ∃ c t, s = c :: t ∧ (isWord c = true ∨ c = '(')) ∨
    (r = none ∧ idRest s = none ∧ s.head? ≠ some '(' ∧ k ≤ 15) ∨
    (∃ w, r = none ∧ idRest s = some w ∧ w.head? ≠ some ':' ∧ k + w.length ≤ s.length + 15) ∨
    (∃ x, r = none ∧ idRest s = some (':' :: x) ∧ k ≤ 99 * x.length + s.length + 80) ∨
    (∃ t, r = none ∧ s = '(' :: t ∧ k ≤ 100 * s.length + 80) := by
  obtain ⟨k₀, rfl, h₀⟩ := inv_ref h
  obtain ⟨k₁, rfl, h₁⟩ := inv_action h₀
  obtain ⟨k₂, rfl, h₂⟩ := inv_seqe h₁
  rcases inv_seq h₂ with ⟨s1, k1, k2, rfl, h1, h₃⟩ | ⟨rfl, h1⟩
  · have hb : Ev gRules (.seq gBody) s1 r k2 := h₃
    rcases bind_ev h1 with ⟨hid, e, hk1⟩ | ⟨w, hid, hw, e, hk1⟩ | ⟨x, hid, e, hk1⟩
    · cases e
      rcases body_ev H hb with ⟨z, t, rfl, rfl, hk2⟩ | ⟨rfl, hk2, hk2'⟩
      · exact .inl ⟨z, rfl, by omega, '(', t, rfl, .inr rfl⟩
      · by_cases hh : s.head? = some '('
        · cases s with
          | nil => cases hh
          | cons c t =>
            simp only [List.head?_cons, Option.some.injEq] at hh
            subst hh
            exact .inr (.inr (.inr (.inr ⟨t, rfl, rfl, by omega⟩)))
        · have := hk2' hh
          exact .inr (.inl ⟨rfl, hid, hh, by omega⟩)
    · cases e
      obtain ⟨c, t, hs, hc⟩ := idRest_word hid
      have hh : s.head? ≠ some '(' := by rw [hs]; simpa using (word_blank (lower_word hc)).2.2.1
      rcases body_ev H hb with ⟨z, t, hz, -⟩ | ⟨rfl, -, hk2⟩
      · rw [hz] at hh; exact absurd rfl hh
      · have := hk2 hh
        exact .inr (.inr (.inl ⟨w, rfl, hid, hw, by omega⟩))
    · cases e
      have hlt := idRest_lt hid
      simp only [List.length_cons] at hlt
      obtain ⟨c, t, hs, hc⟩ := idRest_word hid
      rcases body_ev (fun s' hs => H s' (by omega)) hb with ⟨z, t', rfl, rfl, hk2⟩ | ⟨rfl, hk2, -⟩
      · exact .inl ⟨z, rfl, by omega, c, t, hs, .inl (lower_word hc)⟩
      · exact .inr (.inr (.inr (.inl ⟨_, rfl, hid, by omega⟩)))
  · rcases bind_ev h1 with ⟨-, e, -⟩ | ⟨w, -, -, e, -⟩ | ⟨x, -, e, -⟩ <;> cases e

theorem val_ev (s : List Char) : ValB s := by
  induction hn : s.length using Nat.strongRecOn generalizing s with
  | ind n ih =>
    subst hn
    have H : ∀ s', s'.length < s.length → ValB s' := fun s' hs => ih _ hs s' rfl
    intro r k h
    obtain ⟨k₀, rfl, h₀⟩ := inv_ref h
    obtain ⟨k₁, rfl, h₁⟩ := inv_choice h₀
    rcases inv_alt h₁ with ⟨x, rfl, h2⟩ | ⟨ka, kr, rfl, h2, h3⟩
    · rcases sexpr_ev H h2 with ⟨z, e, hk, ho⟩ | ⟨e, -⟩ | ⟨w, e, -⟩ | ⟨x, e, -⟩ | ⟨t, e, -⟩
      · cases e; exact .inl ⟨x, rfl, by omega, ho⟩
      all_goals cases e
    · have he : Ev gRules (.e (.ruleRef .Expr)) s r kr := by
        rcases inv_alt h3 with ⟨x, rfl, h8⟩ | ⟨kd, kr4, rfl, h8, h9⟩
        · exact h8
        · obtain ⟨rfl, rfl⟩ := inv_alt_nil h9; exact h8
      rcases sexpr_ev H h2 with ⟨z, e, -⟩ | ⟨-, hid, hp, hk⟩ | ⟨w, -, hid, hw, hk⟩ | ⟨x, -, hid, hk⟩ | ⟨t, -, rfl, hk⟩
      · cases e
      · rcases expr_ev he with ⟨u, x, kb, rfl, hid', ht, hke⟩ | ⟨w, rfl, hid', -, hke⟩ | ⟨u, kb, rfl, hid', ht, hke⟩ | ⟨w, rfl, rfl, hke, -⟩ | ⟨rfl, -, hke, -⟩
        · rw [hid] at hid'; cases hid'
        · rw [hid] at hid'; cases hid'
        · rw [hid] at hid'; cases hid'
        · exact .inl ⟨w, rfl, by simp only [List.length_cons]; omega, '_', w, rfl, .inl (by decide)⟩
        · exact .inr (.inr (.inr (.inl ⟨rfl, by omega⟩)))
      · obtain ⟨c, t, hs, hc⟩ := idRest_word hid
        have hc := lower_word hc
        have hlt := idRest_lt hid
        rcases expr_ev he with ⟨u, x, kb, rfl, hid', ht, hke⟩ | ⟨w', rfl, hid', -, hke⟩ | ⟨u, kb, rfl, hid', ht, hke⟩ | ⟨w', rfl, rfl, hke, -⟩ | ⟨rfl, hid', hke, -⟩
        · rw [hid] at hid'; cases hid'
          have := (tail_ev u _ _ ht).1 _ rfl
          simp only [List.length_cons] at hk hlt
          exact .inl ⟨x, rfl, by omega, c, t, hs, .inl hc⟩
        · rw [hid] at hid'; cases hid'
          exact .inl ⟨w, rfl, by omega, c, t, hs, .inl hc⟩
        · rw [hid] at hid'; cases hid'
          have := (tail_ev u _ _ ht).2 rfl
          simp only [List.length_cons] at hk hlt
          exact .inr (.inr (.inl ⟨u, kb, rfl, ht, this, by omega, c, t, hs, hc⟩))
        · cases hs; simp [idRest] at hid; exact absurd hid.1 (by decide)
        · rw [hid] at hid'; cases hid'
      · obtain ⟨c, t, hs, hc⟩ := idRest_word hid
        have hc := lower_word hc
        have hlt := idRest_lt hid
        simp only [List.length_cons] at hlt
        rcases expr_ev he with ⟨u, x, kb, rfl, hid', ht, hke⟩ | ⟨w', rfl, hid', -, hke⟩ | ⟨u, kb, rfl, hid', ht, hke⟩ | ⟨w', rfl, rfl, hke, -⟩ | ⟨rfl, hid', hke, -⟩
        · rw [hid] at hid'; cases hid'
        · rw [hid] at hid'; cases hid'
          simp only [List.length_cons] at hke
          exact .inr (.inl ⟨x, rfl, by omega, c, t, hs, hc⟩)
        · rw [hid] at hid'; cases hid'
        · cases hs; simp [idRest] at hid; exact absurd hid.1 (by decide)
        · rw [hid] at hid'; cases hid'
      · have hn : idRest ('(' :: t) = none := by simp [idRest]; decide
        rcases expr_ev he with ⟨u, x, kb, rfl, hid', ht, hke⟩ | ⟨w', rfl, hid', -, hke⟩ | ⟨u, kb, rfl, hid', ht, hke⟩ | ⟨w', e, -⟩ | ⟨rfl, hid', hke, -⟩
        · rw [hn] at hid'; cases hid'
        · rw [hn] at hid'; cases hid'
        · rw [hn] at hid'; cases hid'
        · cases e
        · exact .inr (.inr (.inr (.inr ⟨rfl, by omega, t, rfl⟩)))

end Verif.Proof.Count

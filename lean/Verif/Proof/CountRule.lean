import Verif.Proof.CountTwice
/-!
# Counting calls: `Rule`
-/
namespace Verif.Proof.Count
open Verif Verif.Spec

def gNotArrow : PExpr := .seq [.any, .not (.lit ['=', '>'])]

theorem notArrow_ev {R l r k} (h : Ev R (.e gNotArrow) l r k) : k ≤ 4 ∧ ∀ x, r = some x → x.length < l.length := by
  obtain ⟨k₁, rfl, h₁⟩ := inv_seqe h
  rcases inv_seq h₁ with ⟨l1, k1, k2, rfl, h1, h₂⟩ | ⟨rfl, h1⟩
  · obtain ⟨rfl, ⟨c, l', rfl, e⟩ | ⟨-, e⟩⟩ := inv_any h1
    · cases e
      rcases inv_seq h₂ with ⟨l2, k3, k4, rfl, h2, h₃⟩ | ⟨rfl, h2⟩
      · obtain ⟨rfl, rfl⟩ := inv_seq_nil h₃
        obtain ⟨k5, rfl, ⟨_, e, -⟩ | ⟨e, g⟩⟩ := inv_not h2
        · cases e
        · obtain ⟨-, rfl⟩ := inv_lit g
          refine ⟨by omega, fun x e' => ?_⟩
          cases e; cases e'
          simp
      · obtain ⟨k5, rfl, ⟨_, -, g⟩ | ⟨e, -⟩⟩ := inv_not h2
        · obtain ⟨-, rfl⟩ := inv_lit g
          exact ⟨by omega, fun x e => by cases e⟩
        · cases e
    · cases e
  · obtain ⟨rfl, -⟩ := inv_any h1
    exact ⟨by omega, fun x e => by cases e⟩

theorem notArrows_ev {R l r k} (h : Ev R (.loop gNotArrow) l r k) : ∃ x, r = some x ∧ k + 4 * x.length ≤ 4 * l.length + 4 := by
  induction hn : l.length using Nat.strongRecOn generalizing l r k with
  | ind n ih =>
    subst hn
    rcases inv_loop h with ⟨l', k1, k2, rfl, h1, h2⟩ | ⟨rfl, h1⟩
    · obtain ⟨hk, hlt⟩ := notArrow_ev h1
      have hlt := hlt _ rfl
      obtain ⟨x, rfl, hk2⟩ := ih _ hlt h2 rfl
      exact ⟨x, rfl, by omega⟩
    · obtain ⟨hk, -⟩ := notArrow_ev h1
      exact ⟨_, rfl, by omega⟩

theorem condition_ev {R l r k} (h : Ev R (.e gCondition) l r k) : (∃ x, r = some x ∧ x.length < l.length ∧ k + 4 * x.length ≤ 4 * l.length + 10) ∨ (r = none ∧ k ≤ 10) := by
  obtain ⟨k₁, rfl, h₁⟩ := inv_action h
  rcases inv_plus h₁ with ⟨l1, l2, k1, k2, rfl, rfl, h1, h2⟩ | ⟨k', rfl, rfl, h1⟩
  · obtain ⟨hk, hlt⟩ := notArrow_ev h1
    have hlt := hlt _ rfl
    have := ev_len h2 _ rfl
    obtain ⟨x, e, hk2⟩ := notArrows_ev h2
    cases e
    exact .inl ⟨_, rfl, by omega, by omega⟩
  · obtain ⟨hk, -⟩ := notArrow_ev h1
    exact .inr ⟨rfl, by omega⟩

/-- A condition from `c` to `y`, after a match that ends at `a`. -/
def CondAt (a c y : List Char) : Prop :=
  ∃ l1 l2 k1 k2 k3 k4, Ev gRules (.e g__) a (some l1) k1 ∧ Ev gRules (.e (.lit ['&', '&'])) l1 (some l2) k2 ∧ Ev gRules (.e g__) l2 (some c) k3 ∧ Ev gRules (.e gCondition) c (some y) k4

/-- The optional condition. -/
theorem condOpt_ev {b a r k} (h : Ev gRules (.e (.labeled b (.zeroOrOne (.seq [g__, .lit ['&', '&'], g__, gCondition])))) a r k) :
    (r = some a ∧ k + 4 * (sk a).length ≤ 4 * a.length + 20 + pen (sk a)) ∨
    (r = some a ∧ (sk a).head? = some '&' ∧ k ≤ 5 * a.length + 40) ∨
    (∃ y c, r = some y ∧ CondAt a c y ∧ c <:+ a ∧ y.length < c.length ∧ k + 4 * y.length ≤ 4 * a.length + 40 + pen c) := by
  obtain ⟨k₀, rfl, h₀⟩ := inv_labeled h
  obtain ⟨k₁, rfl, hh⟩ := inv_opt h₀
  have hle := sk_le a
  rcases hh with ⟨y, rfl, h₁⟩ | ⟨rfl, h₁⟩
  · obtain ⟨k₂, rfl, h₂⟩ := inv_seqe h₁
    rcases inv_seq h₂ with ⟨l1, k1, k2, rfl, h1, h₃⟩ | ⟨e, -⟩
    · obtain ⟨hk1, ⟨e, hlt⟩ | ⟨e, -⟩⟩ := skips_ev h1
      · cases e
        rcases inv_seq h₃ with ⟨l2, k3, k4, rfl, h2, h₄⟩ | ⟨e, -⟩
        · obtain ⟨rfl, ⟨z, e, hh, hl⟩ | e⟩ := litHead h2
          · cases e
            have hp : pen (sk a) = 0 := pen_zero (by rw [hh]; simp)
            rcases inv_seq h₄ with ⟨l3, k5, k6, rfl, h3, h₅⟩ | ⟨e, -⟩
            · obtain ⟨hk3, ⟨e, hlt2⟩ | ⟨e, -⟩⟩ := skips_ev h3
              · cases e
                rcases inv_seq h₅ with ⟨l4, k7, k8, rfl, h4, h₆⟩ | ⟨e, -⟩
                · obtain ⟨e, rfl⟩ := inv_seq_nil h₆
                  cases e
                  rcases condition_ev h4 with ⟨_, e, hlt3, hk4⟩ | ⟨e, -⟩
                  · cases e
                    have hsuf : sk l2 <:+ a := (ev_suffix h3 _ rfl).trans ((ev_suffix h2 _ rfl).trans (ev_suffix h1 _ rfl))
                    exact .inr (.inr ⟨_, sk l2, rfl, ⟨_, _, _, _, _, _, h1, h2, h3, h4⟩, hsuf, hlt3, by omega⟩)
                  · cases e
                · cases e
              · cases e
            · cases e
          · cases e
        · cases e
      · cases e
    · cases e
  · obtain ⟨k₂, rfl, h₂⟩ := inv_seqe h₁
    rcases inv_seq h₂ with ⟨l1, k1, k2, rfl, h1, h₃⟩ | ⟨-, h1⟩
    · obtain ⟨hk1, ⟨e, hlt⟩ | ⟨e, -⟩⟩ := skips_ev h1
      · cases e
        rcases inv_seq h₃ with ⟨l2, k3, k4, rfl, h2, h₄⟩ | ⟨-, h2⟩
        · obtain ⟨rfl, ⟨z, e, hh, hl⟩ | e⟩ := litHead h2
          · cases e
            have hp : pen (sk a) = 0 := pen_zero (by rw [hh]; simp)
            have hle2 := sk_le l2
            have hpl := pen_le (sk l2)
            right; left
            refine ⟨rfl, hh, ?_⟩
            rcases inv_seq h₄ with ⟨l3, k5, k6, rfl, h3, h₅⟩ | ⟨-, h3⟩
            · obtain ⟨hk3, ⟨e, hlt2⟩ | ⟨e, -⟩⟩ := skips_ev h3
              · cases e
                rcases inv_seq h₅ with ⟨l4, k7, k8, rfl, h4, h₆⟩ | ⟨-, h4⟩
                · obtain ⟨e, -⟩ := inv_seq_nil h₆; cases e
                · rcases condition_ev h4 with ⟨_, e, -⟩ | ⟨-, hk⟩
                  · cases e
                  · omega
              · cases e
            · obtain ⟨hk3, -⟩ := skips_ev h3
              omega
          · cases e
        · obtain ⟨rfl, -⟩ := litHead h2
          exact .inl ⟨rfl, by omega⟩
      · cases e
    · obtain ⟨hk1, -⟩ := skips_ev h1
      exact .inl ⟨rfl, by omega⟩

def gInBlock : PExpr := .seq [.not (.cls [' ', '\t', '\r'] [] false), .any]

theorem inBlock_ev {R l r k} (h : Ev R (.e gInBlock) l r k) : k ≤ 4 ∧ ∀ x, r = some x → x.length < l.length := by
  obtain ⟨k₁, rfl, h₁⟩ := inv_seqe h
  rcases inv_seq h₁ with ⟨l1, k1, k2, rfl, h1, h₂⟩ | ⟨rfl, h1⟩
  · obtain ⟨k5, rfl, ⟨_, e, -⟩ | ⟨e, g⟩⟩ := inv_not h1
    · cases e
    · cases e
      obtain ⟨rfl, -⟩ := inv_cls g
      rcases inv_seq h₂ with ⟨l2, k3, k4, rfl, h2, h₃⟩ | ⟨rfl, h2⟩
      · obtain ⟨rfl, rfl⟩ := inv_seq_nil h₃
        obtain ⟨rfl, ⟨c, l', rfl, e⟩ | ⟨-, e⟩⟩ := inv_any h2
        · cases e
          exact ⟨by omega, fun x e => by cases e; simp⟩
        · cases e
      · obtain ⟨rfl, -⟩ := inv_any h2
        exact ⟨by omega, fun x e => by cases e⟩
  · obtain ⟨k5, rfl, ⟨_, -, g⟩ | ⟨e, -⟩⟩ := inv_not h1
    · obtain ⟨rfl, -⟩ := inv_cls g
      exact ⟨by omega, fun x e => by cases e⟩
    · cases e

theorem inBlocks_ev {R l r k} (h : Ev R (.loop gInBlock) l r k) : ∃ x, r = some x ∧ k + 4 * x.length ≤ 4 * l.length + 4 := by
  induction hn : l.length using Nat.strongRecOn generalizing l r k with
  | ind n ih =>
    subst hn
    rcases inv_loop h with ⟨l', k1, k2, rfl, h1, h2⟩ | ⟨rfl, h1⟩
    · obtain ⟨hk, hlt⟩ := inBlock_ev h1
      have hlt := hlt _ rfl
      obtain ⟨x, rfl, hk2⟩ := ih _ hlt h2 rfl
      exact ⟨x, rfl, by omega⟩
    · obtain ⟨hk, -⟩ := inBlock_ev h1
      exact ⟨_, rfl, by omega⟩

/-- The optional block. -/
theorem blockOpt_ev {R b l r k} (h : Ev R (.e (.labeled b (.zeroOrOne gBlock))) l r k) :
    ∃ x, r = some x ∧ k + 4 * x.length ≤ 4 * l.length + 20 ∧ (x = l ∨ (l.head? = some '@' ∧ x.length < l.length)) := by
  obtain ⟨k₀, rfl, h₀⟩ := inv_labeled h
  obtain ⟨k₁, rfl, hh⟩ := inv_opt h₀
  have plus : ∀ {l r k}, Ev R (.e (.oneOrMore gInBlock)) l r k → (∃ x, r = some x ∧ x.length < l.length ∧ k + 4 * x.length ≤ 4 * l.length + 5) ∨ (r = none ∧ k ≤ 5) := by
    intro l r k g
    rcases inv_plus g with ⟨l1, l2, k1, k2, rfl, rfl, h1, h2⟩ | ⟨k', rfl, rfl, h1⟩
    · obtain ⟨hk, hlt⟩ := inBlock_ev h1
      have hlt := hlt _ rfl
      have := ev_len h2 _ rfl
      obtain ⟨x, e, hk2⟩ := inBlocks_ev h2
      cases e
      exact .inl ⟨_, rfl, by omega, by omega⟩
    · obtain ⟨hk, -⟩ := inBlock_ev h1
      exact .inr ⟨rfl, by omega⟩
  rcases hh with ⟨y, rfl, h₁⟩ | ⟨rfl, h₁⟩
  · obtain ⟨k₂, rfl, h₂⟩ := inv_action h₁
    obtain ⟨k₃, rfl, h₃⟩ := inv_seqe h₂
    rcases inv_seq h₃ with ⟨l1, k1, k2, rfl, h1, h₄⟩ | ⟨e, -⟩
    · obtain ⟨rfl, ⟨t, rfl, e'⟩ | ⟨e', -⟩⟩ := lit1 h1
      · cases e'
        rcases inv_seq h₄ with ⟨l2, k3, k4, rfl, h2, h₅⟩ | ⟨e, -⟩
        · obtain ⟨e, rfl⟩ := inv_seq_nil h₅
          cases e
          rcases plus h2 with ⟨_, e, hlt, hk⟩ | ⟨e, -⟩
          · cases e
            exact ⟨_, rfl, by simp only [List.length_cons]; omega, .inr ⟨rfl, by simp only [List.length_cons]; omega⟩⟩
          · cases e
        · cases e
      · cases e'
    · cases e
  · obtain ⟨k₂, rfl, h₂⟩ := inv_action h₁
    obtain ⟨k₃, rfl, h₃⟩ := inv_seqe h₂
    refine ⟨l, rfl, ?_, .inl rfl⟩
    rcases inv_seq h₃ with ⟨l1, k1, k2, rfl, h1, h₄⟩ | ⟨-, h1⟩
    · obtain ⟨rfl, -⟩ := lit1 h1
      rcases inv_seq h₄ with ⟨l2, k3, k4, rfl, h2, h₅⟩ | ⟨-, h2⟩
      · obtain ⟨e, -⟩ := inv_seq_nil h₅; cases e
      · rcases plus h2 with ⟨_, e, -⟩ | ⟨-, hk⟩
        · cases e
        · omega
    · obtain ⟨rfl, -⟩ := lit1 h1; omega

/-- After the condition. -/
def gArrow : List PExpr := [g_, .lit ['=', '>'], g_, .labeled .block (.zeroOrOne gBlock), g_, .labeled .r (.ruleRef .Value)]

theorem arrow_ev {y r k} (h : Ev gRules (.seq gArrow) y r k) :
    (r = none ∧ (sk y).head? ≠ some '=' ∧ k + 4 * (sk y).length ≤ 4 * y.length + 10 + pen (sk y)) ∨
    ((sk y).head? = some '=' ∧
      ((∃ x, r = some x ∧ k + 100 * x.length + 190 ≤ 4 * y.length + 96 * (sk y).length) ∨
       (∃ x, r = some (':' :: x) ∧ k ≤ 4 * y.length + 96 * (sk y).length + 10) ∨
       (∃ u kb, r = some ('(' :: u) ∧ Ev gRules (.seq gTail) u none kb ∧ kb ≤ 100 * u.length + 40 ∧ k + 100 * u.length + 190 ≤ kb + 4 * y.length + 96 * (sk y).length) ∨
       (r = none ∧ k ≤ 4 * y.length + 96 * (sk y).length + 10))) := by
  rcases inv_seq h with ⟨l1, k1, k2, rfl, h1, h₂⟩ | ⟨rfl, h1⟩
  rotate_left
  · obtain ⟨e, -⟩ := skip0_ev h1; cases e
  obtain ⟨e, hk1⟩ := skip0_ev h1
  cases e
  have hle := sk_le y
  rcases inv_seq h₂ with ⟨e', k3, k4, rfl, h2, h₃⟩ | ⟨rfl, h2⟩
  rotate_left
  · obtain ⟨rfl, -⟩ := litHead h2
    by_cases hh : (sk y).head? = some '='
    · refine .inr ⟨hh, .inr (.inr (.inr ⟨rfl, ?_⟩))⟩
      rw [pen_zero (by rw [hh]; simp)] at hk1
      have : 0 < (sk y).length := by
        cases hy : sk y with
        | nil => rw [hy] at hh; cases hh
        | cons a b => simp
      omega
    · exact .inl ⟨rfl, hh, by omega⟩
  obtain ⟨rfl, ⟨z, e, hh, hl⟩ | e⟩ := litHead h2
  rotate_left
  · cases e
  cases e
  simp only [List.length_cons, List.length_nil] at hl
  rw [pen_zero (by rw [hh]; simp)] at hk1
  refine .inr ⟨hh, ?_⟩
  rcases inv_seq h₃ with ⟨f, k5, k6, rfl, h3, h₄⟩ | ⟨rfl, h3⟩
  rotate_left
  · obtain ⟨e, -⟩ := skip0_ev h3; cases e
  obtain ⟨e, hk3⟩ := skip0_ev h3
  cases e
  have hle2 := sk_le e'
  rcases inv_seq h₄ with ⟨g, k7, k8, rfl, h4, h₅⟩ | ⟨rfl, h4⟩
  rotate_left
  · obtain ⟨_, e, -⟩ := blockOpt_ev h4; cases e
  obtain ⟨_, e, hk4, hg⟩ := blockOpt_ev h4
  cases e
  have hgl : g.length ≤ (sk e').length := by rcases hg with rfl | ⟨-, h⟩ <;> omega
  rcases inv_seq h₅ with ⟨m, k9, k10, rfl, h5, h₆⟩ | ⟨rfl, h5⟩
  rotate_left
  · obtain ⟨e, -⟩ := skip0_ev h5; cases e
  obtain ⟨e, hk5⟩ := skip0_ev h5
  cases e
  have hle3 := sk_le g
  have hval : ∃ k11, k10 = k11 + 1 ∧ Ev gRules (.e (.ruleRef .Value)) (sk g) r k11 := by
    rcases inv_seq h₆ with ⟨x, k11, k12, rfl, h6, h₇⟩ | ⟨rfl, h6⟩
    · obtain ⟨rfl, rfl⟩ := inv_seq_nil h₇
      obtain ⟨k13, rfl, h6'⟩ := inv_labeled h6
      exact ⟨k13, rfl, h6'⟩
    · obtain ⟨k13, rfl, h6'⟩ := inv_labeled h6
      exact ⟨k13, rfl, h6'⟩
  obtain ⟨k11, rfl, hv⟩ := hval
  -- an unfinished comment is the end
  have hpens : (∃ c t, sk g = c :: t ∧ c ≠ '/') → pen (sk e') = 0 ∧ pen (sk g) = 0 := by
    rintro ⟨c, t, hc, hn⟩
    refine ⟨?_, pen_zero (by rw [hc]; simpa using hn)⟩
    rcases hg with rfl | ⟨hh, -⟩
    · apply pen_zero
      rw [sk_sk] at hc
      rw [hc]; simpa using hn
    · exact pen_zero (by rw [hh]; simp)
  have hp1 := pen_le (sk e')
  have hp2 := pen_le (sk g)
  rcases val_ev _ _ _ hv with ⟨x, rfl, hk, c, t, hs, hc⟩ | ⟨x, rfl, hk, c, t, hs, hc⟩ | ⟨u, kt, rfl, ht, hkt, hk, c, t, hs, hc⟩ | ⟨rfl, hk⟩ | ⟨rfl, hk, t, hs⟩
  · obtain ⟨p1, p2⟩ := hpens ⟨c, t, hs, by rcases hc with hc | rfl; exact (word_blank hc).2.1; decide⟩
    exact .inl ⟨x, rfl, by omega⟩
  · obtain ⟨p1, p2⟩ := hpens ⟨c, t, hs, (word_blank hc).2.1⟩
    exact .inr (.inl ⟨x, rfl, by omega⟩)
  · obtain ⟨p1, p2⟩ := hpens ⟨c, t, hs, (word_blank hc).2.1⟩
    exact .inr (.inr (.inl ⟨u, kt, rfl, ht, hkt, by omega⟩))
  · exact .inr (.inr (.inr ⟨rfl, by omega⟩))
  · obtain ⟨p1, p2⟩ := hpens ⟨_, t, hs, by decide⟩
    exact .inr (.inr (.inr ⟨rfl, by omega⟩))

theorem rule_inv {s r k} (h : Ev gRules (.e (.ruleRef .Rule)) s r k) :
    ∃ k', k = k' + 4 ∧
      ((∃ a k1 k2, k' = k1 + k2 ∧ Ev gRules (.e (.ruleRef .Value)) s (some a) k1 ∧
          ((∃ y k3 k4, k2 = k3 + k4 ∧ Ev gRules (.e (.labeled .cond (.zeroOrOne (.seq [g__, .lit ['&', '&'], g__, gCondition])))) a (some y) k3 ∧ Ev gRules (.seq gArrow) y r k4))) ∨
       (r = none ∧ Ev gRules (.e (.ruleRef .Value)) s none k')) := by
  obtain ⟨k₀, rfl, h₀⟩ := inv_ref h
  obtain ⟨k₁, rfl, h₁⟩ := inv_action h₀
  obtain ⟨k₂, rfl, h₂⟩ := inv_seqe h₁
  rcases inv_seq h₂ with ⟨a, k1, k2, rfl, h1, h₃⟩ | ⟨rfl, h1⟩
  · obtain ⟨k3, rfl, h1'⟩ := inv_labeled h1
    refine ⟨k3 + k2, by omega, .inl ⟨a, k3, k2, rfl, h1', ?_⟩⟩
    rcases inv_seq h₃ with ⟨y, k4, k5, rfl, h2, h₄⟩ | ⟨rfl, h2⟩
    · exact ⟨y, k4, k5, rfl, h2, h₄⟩
    · exfalso
      rcases condOpt_ev h2 with ⟨e, -⟩ | ⟨e, -⟩ | ⟨_, _, e, -⟩ <;> cases e
  · obtain ⟨k3, rfl, h1'⟩ := inv_labeled h1
    exact ⟨k3, by omega, .inr ⟨rfl, h1'⟩⟩

/-- A rule with a condition from `c` on. -/
def CondIn (s c : List Char) : Prop :=
  ∃ a y x k k', Ev gRules (.e (.ruleRef .Value)) s (some a) k ∧ CondAt a c y ∧ Ev gRules (.seq gArrow) y (some x) k'

/-- The evaluations of a reference to `Rule`. -/
theorem rule_ev {s r k} (h : Ev gRules (.e (.ruleRef .Rule)) s r k) :
    (∃ x c, r = some x ∧ (pen c = 0 ∨ CondIn s c) ∧ c <:+ s ∧ x.length < c.length ∧ k + 100 * x.length + 150 ≤ 100 * s.length + pen c ∧ s.head? ≠ some '/') ∨
    (∃ x, r = some (':' :: x) ∧ k ≤ 102 * s.length + 200 ∧ s.head? ≠ some '/') ∨
    (∃ u kb c, r = some ('(' :: u) ∧ (pen c = 0 ∨ CondIn s c) ∧ c <:+ s ∧ u.length + 1 < c.length ∧ Ev gRules (.seq gTail) u none kb ∧ kb ≤ 100 * u.length + 40 ∧ k + 100 * u.length + 150 ≤ kb + 100 * s.length + pen c ∧ s.head? ≠ some '/') ∨
    (r = none ∧ k ≤ 102 * s.length + 200) := by
  obtain ⟨k', rfl, ⟨a, k1, k2, rfl, hv, y, k3, k4, rfl, hc, ha⟩ | ⟨rfl, hv⟩⟩ := rule_inv h
  rotate_left
  · refine .inr (.inr (.inr ⟨rfl, ?_⟩))
    rcases val_ev _ _ _ hv with ⟨x, e, -⟩ | ⟨x, e, -⟩ | ⟨u, kt, e, -⟩ | ⟨-, hk⟩ | ⟨-, hk, -⟩
    · cases e
    · cases e
    · cases e
    · omega
    · omega
  have hal : a.length ≤ s.length := ev_len hv _ rfl
  have hyl : y.length ≤ a.length := ev_len hc _ rfl
  -- a doomed match
  have doom : (a.head? = some ':' ∨ a.head? = some '(') → k1 ≤ 100 * s.length + 130 → r = none ∧ k1 + (k3 + k4) + 4 ≤ 102 * s.length + 200 := by
    intro hh hk1
    have hs : sk a = a := by
      cases a with
      | nil => rcases hh with hh | hh <;> cases hh
      | cons c t =>
        simp only [List.head?_cons, Option.some.injEq] at hh
        rcases hh with rfl | rfl <;> exact sk_self (by decide) (by decide)
    have hh' : a.head? ≠ some '/' ∧ a.head? ≠ some '&' ∧ a.head? ≠ some '=' := by rcases hh with hh | hh <;> rw [hh] <;> simp
    have hya : y = a ∧ k3 ≤ 20 := by
      obtain ⟨j0, rfl, g0⟩ := inv_labeled hc
      obtain ⟨j1, rfl, hh''⟩ := inv_opt g0
      rcases hh'' with ⟨y', e, g1⟩ | ⟨e, g1⟩
      · obtain ⟨j2, rfl, g2⟩ := inv_seqe g1
        rcases inv_seq g2 with ⟨l1, i1, i2, rfl, g3, -⟩ | ⟨e, -⟩
        · obtain ⟨-, ⟨-, hlt⟩ | ⟨e, -⟩⟩ := skips_ev g3
          · rw [hs] at hlt; omega
          · cases e
        · cases e
      · cases e
        obtain ⟨j2, rfl, g2⟩ := inv_seqe g1
        rcases inv_seq g2 with ⟨l1, i1, i2, rfl, g3, -⟩ | ⟨-, g3⟩
        · obtain ⟨-, ⟨-, hlt⟩ | ⟨e, -⟩⟩ := skips_ev g3
          · rw [hs] at hlt; omega
          · cases e
        · obtain ⟨hk, -⟩ := skips_ev g3
          rw [hs, pen_zero hh'.1] at hk
          exact ⟨rfl, by omega⟩
    obtain ⟨rfl, hk3⟩ := hya
    rcases arrow_ev ha with ⟨rfl, -, hk⟩ | ⟨hh3, -⟩
    · rw [hs, pen_zero hh'.1] at hk
      exact ⟨rfl, by omega⟩
    · rw [hs] at hh3; exact absurd hh3 hh'.2.2
  rcases val_ev _ _ _ hv with ⟨_, e, hk1, c, t, hs, hc1⟩ | ⟨x, e, hk1, -⟩ | ⟨u, kt, e, -, hkt, hk1, -⟩ | ⟨e, -⟩ | ⟨e, -⟩
  · cases e
    have hns : s.head? ≠ some '/' := by
      rw [hs]; simp only [List.head?_cons, ne_eq, Option.some.injEq]
      rcases hc1 with hc1 | rfl
      · exact (word_blank hc1).2.1
      · decide
    have hsufa : a <:+ s := ev_suffix hv _ rfl
    have hlta : a.length < s.length := by omega
    have hpa := pen_le (sk a)
    have hla := sk_le a
    rcases condOpt_ev hc with ⟨e, hk3⟩ | ⟨e, hh, hk3⟩ | ⟨_, c, e, hcat, hsuf, hlt, hk3⟩
    · cases e
      rcases arrow_ev ha with ⟨rfl, -, hk4⟩ | ⟨hh, ⟨x, rfl, hk4⟩ | ⟨x, rfl, hk4⟩ | ⟨u, kb, rfl, ht, hkb, hk4⟩ | ⟨rfl, hk4⟩⟩
      · exact .inr (.inr (.inr ⟨rfl, by omega⟩))
      · rw [pen_zero (by rw [hh]; simp)] at hk3
        refine .inl ⟨x, s, rfl, .inl (pen_zero hns), List.suffix_refl _, ?_, by omega, hns⟩
        have := ev_len ha _ rfl
        omega
      · rw [pen_zero (by rw [hh]; simp)] at hk3
        exact .inr (.inl ⟨x, rfl, by omega, hns⟩)
      · rw [pen_zero (by rw [hh]; simp)] at hk3
        have := ev_len ha _ rfl
        simp only [List.length_cons] at this
        exact .inr (.inr (.inl ⟨u, kb, s, rfl, .inl (pen_zero hns), List.suffix_refl _, by omega, ht, hkb, by omega, hns⟩))
      · rw [pen_zero (by rw [hh]; simp)] at hk3
        exact .inr (.inr (.inr ⟨rfl, by omega⟩))
    · cases e
      rcases arrow_ev ha with ⟨rfl, -, hk4⟩ | ⟨hh', -⟩
      · exact .inr (.inr (.inr ⟨rfl, by omega⟩))
      · rw [hh] at hh'; cases hh'
    · cases e
      have hpc := pen_le c
      have hly := sk_le y
      have hcl := hsuf.length_le
      rcases arrow_ev ha with ⟨rfl, -, hk4⟩ | ⟨hh, ⟨x, rfl, hk4⟩ | ⟨x, rfl, hk4⟩ | ⟨u, kb, rfl, ht, hkb, hk4⟩ | ⟨rfl, hk4⟩⟩
      · have := pen_le (sk y)
        have := sk_le y
        exact .inr (.inr (.inr ⟨rfl, by omega⟩))
      · have := ev_len ha _ rfl
        exact .inl ⟨x, c, rfl, .inr ⟨_, _, _, _, _, hv, hcat, ha⟩, hsuf.trans hsufa, by omega, by omega, hns⟩
      · exact .inr (.inl ⟨x, rfl, by omega, hns⟩)
      · have := ev_len ha _ rfl
        simp only [List.length_cons] at this
        exact .inr (.inr (.inl ⟨u, kb, c, rfl, .inr ⟨_, _, _, _, _, hv, hcat, ha⟩, hsuf.trans hsufa, by omega, ht, hkb, by omega, hns⟩))
      · exact .inr (.inr (.inr ⟨rfl, by omega⟩))
  · cases e
    obtain ⟨hr, hk⟩ := doom (.inl rfl) hk1
    exact .inr (.inr (.inr ⟨hr, hk⟩))
  · cases e
    obtain ⟨hr, hk⟩ := doom (.inr rfl) (by omega)
    exact .inr (.inr (.inr ⟨hr, hk⟩))
  · cases e
  · cases e

/-- A rule that starts with a parenthesis starts with a nested expression. -/
theorem rule_paren {u x k} (h : Ev gRules (.e (.ruleRef .Rule)) ('(' :: u) (some x) k) : ∃ z k', Ev gRules (.seq gBody) ('(' :: u) (some z) k' ∧ x.length ≤ z.length := by
  obtain ⟨k', rfl, ⟨a, k1, k2, rfl, hv, y, k3, k4, rfl, hc, ha⟩ | ⟨e, -⟩⟩ := rule_inv h
  · have h1 := ev_len ha _ rfl
    have h2 := ev_len hc _ rfl
    have hn : idRest ('(' :: u) = none := by simp [idRest]; decide
    suffices ∃ k', Ev gRules (.seq gBody) ('(' :: u) (some a) k' by
      obtain ⟨k', hb⟩ := this
      exact ⟨a, k', hb, by omega⟩
    obtain ⟨k₀, rfl, h₀⟩ := inv_ref hv
    obtain ⟨k₁, rfl, h₁⟩ := inv_choice h₀
    rcases inv_alt h₁ with ⟨_, e, h2⟩ | ⟨ka, kr, rfl, h2, h3⟩
    · cases e
      obtain ⟨j₀, rfl, g₀⟩ := inv_ref h2
      obtain ⟨j₁, rfl, g₁⟩ := inv_action g₀
      obtain ⟨j₂, rfl, g₂⟩ := inv_seqe g₁
      rcases inv_seq g₂ with ⟨s1, i1, i2, rfl, g3, g4⟩ | ⟨e, -⟩
      · rcases bind_ev g3 with ⟨hid, e, -⟩ | ⟨w, hid, -⟩ | ⟨x, hid, -⟩
        · cases e; exact ⟨_, g4⟩
        · rw [hn] at hid; cases hid
        · rw [hn] at hid; cases hid
      · cases e
    · exfalso
      rcases inv_alt h3 with ⟨_, e, he⟩ | ⟨kd, kr4, rfl, -, h9⟩
      · cases e
        rcases expr_ev he with ⟨v, x', kb, e, hid', -⟩ | ⟨w, e, hid', -⟩ | ⟨v, kb, e, hid', -⟩ | ⟨w, e', -⟩ | ⟨e, -⟩
        · rw [hn] at hid'; cases hid'
        · rw [hn] at hid'; cases hid'
        · rw [hn] at hid'; cases hid'
        · cases e'
        · cases e
      · obtain ⟨e, -⟩ := inv_alt_nil h9; cases e
  · cases e

end Verif.Proof.Count

import Verif.Proof.CountCall
/-!
# Counting calls: opcodes, types, auxiliary values
-/
namespace Verif.Proof.Count
open Verif Verif.Spec

/-- What the machine leaves is at least as far as after one part. -/
theorem part_len {R l x k} (h : Ev R (.e gOpPart) l (some x) k) : x = l.dropWhile isWord ∧ x.length < l.length ∧ k + x.length = l.length + 2 ∧ ∃ c t, l = c :: t ∧ isWord c = true := by
  rcases part_ev h with ⟨c, t, rfl, hc, e, hk⟩ | ⟨e, -⟩
  · cases e
    refine ⟨rfl, ?_, hk, c, t, rfl, hc⟩
    rw [List.dropWhile_cons_of_pos hc]
    have := dropWhile_le (p := isWord) t
    simp only [List.length_cons]; omega
  · cases e

def gOr : PExpr := .seq [.lit ['|'], .action .onSExpr40 gOpPart]

theorem or_ev {R l r k} (h : Ev R (.e gOr) l r k) :
    (∃ t x, l = '|' :: t ∧ r = some x ∧ k + 10 * x.length ≤ 10 * l.length) ∨ (r = none ∧ k ≤ 5) := by
  obtain ⟨k₁, rfl, h₁⟩ := inv_seqe h
  rcases inv_seq h₁ with ⟨l1, k1, k2, rfl, h1, h₂⟩ | ⟨rfl, h1⟩
  · obtain ⟨rfl, ⟨t, rfl, e'⟩ | ⟨e', -⟩⟩ := lit1 h1
    · cases e'
      rcases inv_seq h₂ with ⟨l2, k3, k4, rfl, h2, h₃⟩ | ⟨rfl, h2⟩
      · obtain ⟨rfl, rfl⟩ := inv_seq_nil h₃
        obtain ⟨k5, rfl, h2'⟩ := inv_action h2
        obtain ⟨-, hlt, hk, -⟩ := part_len h2'
        exact .inl ⟨_, _, rfl, rfl, by simp only [List.length_cons]; omega⟩
      · obtain ⟨k5, rfl, h2'⟩ := inv_action h2
        rcases part_ev h2' with ⟨c, t, -, -, e, -⟩ | ⟨-, rfl, -⟩
        · cases e
        · exact .inr ⟨rfl, by omega⟩
    · cases e'
  · obtain ⟨rfl, -⟩ := lit1 h1
    exact .inr ⟨rfl, by omega⟩

theorem ors_ev {R l r k} (h : Ev R (.loop gOr) l r k) : ∃ x, r = some x ∧ k + 10 * x.length ≤ 10 * l.length + 5 := by
  induction hn : l.length using Nat.strongRecOn generalizing l r k with
  | ind n ih =>
    subst hn
    rcases inv_loop h with ⟨l', k1, k2, rfl, h1, h2⟩ | ⟨rfl, h1⟩
    · rcases or_ev h1 with ⟨t, x, rfl, e, hk⟩ | ⟨e, -⟩
      · cases e
        have : l'.length < ('|' :: t).length := by
          cases h1 with
          | seq h1 =>
            rcases inv_seq h1 with ⟨l1, j1, j2, rfl, h1, h₂⟩ | ⟨e, h1⟩
            · obtain ⟨rfl, ⟨t, e, e'⟩ | ⟨e', -⟩⟩ := lit1 h1
              · cases e'; cases e
                have := ev_len h₂ _ rfl
                simp only [List.length_cons]; omega
              · cases e'
            · cases e
        obtain ⟨x, rfl, hk2⟩ := ih _ this h2 rfl
        exact ⟨x, rfl, by omega⟩
      · cases e
    · rcases or_ev h1 with ⟨t, x, -, e, -⟩ | ⟨-, hk⟩
      · cases e
      · exact ⟨_, rfl, by omega⟩

theorem opAlt_ev {R l r k} (h : Ev R (.e gOpAlt) l r k) :
    (∃ u u' x, l = '(' :: u ∧ (∃ c t, u = c :: t ∧ isWord c = true) ∧ u.dropWhile isWord = '|' :: u' ∧ r = some x ∧ x.length < u'.length ∧ k + 10 * x.length ≤ 10 * l.length + 10) ∨
    (r = none ∧ (l.head? ≠ some '(' → k ≤ 3) ∧ k ≤ 10 * l.length + 20) := by
  obtain ⟨k₀, rfl, h₀⟩ := inv_action h
  obtain ⟨k₁, rfl, h₁⟩ := inv_seqe h₀
  rcases inv_seq h₁ with ⟨l1, k1, k2, rfl, h1, h₂⟩ | ⟨rfl, h1⟩
  · obtain ⟨rfl, ⟨u, rfl, e'⟩ | ⟨e', -⟩⟩ := lit1 h1
    · cases e'
      rcases inv_seq h₂ with ⟨l2, k3, k4, rfl, h2, h₃⟩ | ⟨rfl, h2⟩
      · obtain ⟨k5, rfl, h2'⟩ := inv_labeled h2
        obtain ⟨k6, rfl, h2''⟩ := inv_action h2'
        obtain ⟨rfl, hlt, hk2, hw⟩ := part_len h2''
        rcases inv_seq h₃ with ⟨l3, k7, k8, rfl, h3, h₄⟩ | ⟨rfl, h3⟩
        · obtain ⟨k9, rfl, h3'⟩ := inv_labeled h3
          rcases inv_plus h3' with ⟨m1, m2, j1, j2, e, rfl, g1, g2⟩ | ⟨_, e, -⟩
          · cases e
            rcases or_ev g1 with ⟨t, x, ht, e, hj1⟩ | ⟨e, -⟩
            · cases e
              obtain ⟨x, e, hj2⟩ := ors_ev g2
              cases e
              have hm1 : m1.length ≤ t.length := by
                cases g1 with
                | seq g1 =>
                  rcases inv_seq g1 with ⟨q1, i1, i2, rfl, g1, g3⟩ | ⟨e, -⟩
                  · obtain ⟨rfl, ⟨t', e, e'⟩ | ⟨e', -⟩⟩ := lit1 g1
                    · cases e'; rw [ht] at e; cases e; exact ev_len g3 _ rfl
                    · cases e'
                  · cases e
              have hm2 : l3.length ≤ m1.length := ev_len g2 _ rfl
              rw [ht] at hlt hk2 hj1
              simp only [List.length_cons] at hlt hk2 hj1 ⊢
              rcases inv_seq h₄ with ⟨l4, k10, k11, rfl, h4, h₅⟩ | ⟨rfl, h4⟩
              · obtain ⟨rfl, rfl⟩ := inv_seq_nil h₅
                obtain ⟨rfl, ⟨z, rfl, e'⟩ | ⟨e', -⟩⟩ := lit1 h4
                · cases e'
                  simp only [List.length_cons] at *
                  exact .inl ⟨_, t, _, rfl, hw, ht, rfl, by omega, by omega⟩
                · cases e'
              · obtain ⟨rfl, -⟩ := lit1 h4
                exact .inr ⟨rfl, by simp, by omega⟩
            · cases e
          · cases e
        · obtain ⟨k9, rfl, h3'⟩ := inv_labeled h3
          rcases inv_plus h3' with ⟨m1, m2, j1, j2, e, -⟩ | ⟨_, -, rfl, g1⟩
          · cases e
          · rcases or_ev g1 with ⟨t, x, ht, e, hj1⟩ | ⟨-, hk⟩
            · cases e
            · exact .inr ⟨rfl, by simp, by simp only [List.length_cons]; omega⟩
      · obtain ⟨k5, rfl, h2'⟩ := inv_labeled h2
        obtain ⟨k6, rfl, h2''⟩ := inv_action h2'
        rcases part_ev h2'' with ⟨c, t, -, -, e, -⟩ | ⟨-, rfl, -⟩
        · cases e
        · exact .inr ⟨rfl, by simp, by omega⟩
    · cases e'
  · obtain ⟨rfl, ⟨u, e, e'⟩ | ⟨-, hn⟩⟩ := lit1 h1
    · cases e'
    · exact .inr ⟨rfl, fun _ => by omega, by omega⟩

def gOpItem : PExpr := .choice [.action .onSExpr26 gOpPart, gOpAlt]

/-- What a failed search for alternatives costs. -/
def altPen (l : List Char) : Nat := if l.head? = some '(' then 10 * l.length + 20 else 0

theorem altPen_zero {l : List Char} (h : l.head? ≠ some '(') : altPen l = 0 := by simp [altPen, h]
theorem altPen_le (l : List Char) : altPen l ≤ 10 * l.length + 20 := by unfold altPen; split <;> omega

theorem item_ev {R l r k} (h : Ev R (.e gOpItem) l r k) :
    (∃ c t, l = c :: t ∧ isWord c = true ∧ r = some (l.dropWhile isWord) ∧ (l.dropWhile isWord).length < l.length ∧ k + (l.dropWhile isWord).length ≤ l.length + 4) ∨
    (∃ u u' x, l = '(' :: u ∧ (∃ c t, u = c :: t ∧ isWord c = true) ∧ u.dropWhile isWord = '|' :: u' ∧ r = some x ∧ x.length < u'.length ∧ k + 10 * x.length ≤ 10 * l.length + 14) ∨
    (r = none ∧ (∀ c t, l = c :: t → isWord c = false) ∧ k ≤ 7 + altPen l) := by
  obtain ⟨k₀, rfl, h₀⟩ := inv_choice h
  rcases inv_alt h₀ with ⟨l', rfl, h1⟩ | ⟨k1, k2, rfl, h1, h2⟩
  · obtain ⟨k₁, rfl, h1'⟩ := inv_action h1
    obtain ⟨rfl, hlt, hk, c, t, hl, hc⟩ := part_len h1'
    exact .inl ⟨c, t, hl, hc, rfl, hlt, by omega⟩
  · obtain ⟨k₁, rfl, h1'⟩ := inv_action h1
    rcases part_ev h1' with ⟨c, t, -, -, e, -⟩ | ⟨-, rfl, hw⟩
    · cases e
    · rcases inv_alt h2 with ⟨l', rfl, h3⟩ | ⟨k3, k4, rfl, h3, h4⟩
      · rcases opAlt_ev h3 with ⟨u, u', x, hl, hw', hu, e, hx, hk⟩ | ⟨e, -⟩
        · exact .inr (.inl ⟨u, u', x, hl, hw', hu, e, hx, by omega⟩)
        · cases e
      · obtain ⟨rfl, rfl⟩ := inv_alt_nil h4
        rcases opAlt_ev h3 with ⟨u, u', x, hl, hw', hu, e, hx, hk⟩ | ⟨-, hk, hk'⟩
        · cases e
        · refine .inr (.inr ⟨rfl, hw, ?_⟩)
          by_cases hh : l.head? = some '('
          · simp only [altPen, hh, if_true]; omega
          · have := hk hh; omega

theorem items_ev {R l r k} (h : Ev R (.loop gOpItem) l r k) : ∃ x, r = some x ∧ k + 20 * x.length ≤ 20 * l.length + 7 + altPen x ∧ x.length ≤ l.length := by
  induction hn : l.length using Nat.strongRecOn generalizing l r k with
  | ind n ih =>
    subst hn
    rcases inv_loop h with ⟨l', k1, k2, rfl, h1, h2⟩ | ⟨rfl, h1⟩
    · rcases item_ev h1 with ⟨c, t, hl, hc, e, hlt, hk⟩ | ⟨u, u', x, rfl, -, hu, e, hx, hk⟩ | ⟨e, -⟩
      · cases e
        obtain ⟨x, rfl, hk2, hx⟩ := ih _ hlt h2 rfl
        exact ⟨x, rfl, by omega, by omega⟩
      · cases e
        have h3 := dropWhile_le (p := isWord) u
        rw [hu] at h3
        simp only [List.length_cons] at h3 hk ih ⊢
        obtain ⟨x, rfl, hk2, hx⟩ := ih _ (by omega) h2 rfl
        exact ⟨x, rfl, by omega, by omega⟩
      · cases e
    · rcases item_ev h1 with ⟨c, t, -, -, e, -⟩ | ⟨u, u', x, -, -, -, e, -⟩ | ⟨-, -, hk⟩
      · cases e
      · cases e
      · exact ⟨_, rfl, by omega, Nat.le_refl _⟩

/-- The evaluations of `Op`. -/
theorem op_ev {R l r k} (h : Ev R (.e gOp) l r k) :
    (∃ x, r = some x ∧ x.length < l.length ∧ k + 20 * x.length ≤ 20 * l.length + 20 + altPen x ∧ pen l = 0) ∨
    (r = none ∧ k ≤ 10 * l.length + 40 ∧ ∀ c t, l = c :: t → isWord c = false) := by
  obtain ⟨k₀, rfl, h₀⟩ := inv_action h
  obtain ⟨k₁, rfl, h₁⟩ := inv_labeled h₀
  rcases inv_plus h₁ with ⟨l1, l2, k1, k2, rfl, rfl, h1, h2⟩ | ⟨k', rfl, rfl, h1⟩
  · obtain ⟨x, e, hk2, hx⟩ := items_ev h2
    cases e
    rcases item_ev h1 with ⟨c, t, hl, hc, e, hlt, hk⟩ | ⟨u, u', x, rfl, -, hu, e, hx', hk⟩ | ⟨e, -⟩
    · cases e
      exact .inl ⟨_, rfl, by omega, by omega, pen_zero (by rw [hl]; simpa using (word_blank hc).2.1)⟩
    · cases e
      have h3 := dropWhile_le (p := isWord) u
      rw [hu] at h3
      simp only [List.length_cons] at h3 hk ⊢
      exact .inl ⟨_, rfl, by omega, by omega, pen_zero (by simp)⟩
    · cases e
  · rcases item_ev h1 with ⟨c, t, -, -, e, -⟩ | ⟨u, u', x, -, -, -, e, -⟩ | ⟨-, hw, hk⟩
    · cases e
    · cases e
    · have := altPen_le l
      exact .inr ⟨rfl, by omega, hw⟩

/-- What is between two delimiters. -/
theorem delim_ev {R a b c l r k} (h : Ev R (.e (.action c (.seq [.lit [a], .oneOrMore (.cls [b] [] true), .lit [b]]))) l r k) :
    (∃ t x, l = a :: t ∧ r = some x ∧ k + x.length ≤ l.length + 6 ∧ x.length < l.length) ∨ (r = none ∧ k ≤ l.length + 7 ∧ (l.head? ≠ some a → k = 3)) := by
  obtain ⟨k₀, rfl, h₀⟩ := inv_action h
  obtain ⟨k₁, rfl, h₁⟩ := inv_seqe h₀
  rcases inv_seq h₁ with ⟨l1, k1, k2, rfl, h1, h₂⟩ | ⟨rfl, h1⟩
  · obtain ⟨rfl, ⟨u, rfl, e'⟩ | ⟨e', -⟩⟩ := lit1 h1
    · cases e'
      rcases inv_seq h₂ with ⟨l2, k3, k4, rfl, h2, h₃⟩ | ⟨rfl, h2⟩
      · rcases inv_plus h2 with ⟨m1, m2, j1, j2, e, rfl, g1, g2⟩ | ⟨_, e, -⟩
        · cases e
          obtain ⟨e, hj⟩ := loop_cls g2
          cases e
          obtain ⟨rfl, ⟨x, t, rfl, e, -⟩ | ⟨e, -⟩⟩ := inv_cls g1
          · cases e
            have hle := dropWhile_le (p := clsHas [b] [] true) m1
            rcases inv_seq h₃ with ⟨l3, k5, k6, rfl, h3, h₄⟩ | ⟨rfl, h3⟩
            · obtain ⟨rfl, rfl⟩ := inv_seq_nil h₄
              obtain ⟨rfl, ⟨z, e, e'⟩ | ⟨e', -⟩⟩ := lit1 h3
              · cases e'
                rw [e] at hle hj
                simp only [List.length_cons] at hle hj ⊢
                exact .inl ⟨_, _, rfl, rfl, by omega, by omega⟩
              · cases e'
            · obtain ⟨rfl, -⟩ := lit1 h3
              exact .inr ⟨rfl, by simp only [List.length_cons]; omega, by simp⟩
          · cases e
        · cases e
      · rcases inv_plus h2 with ⟨m1, m2, j1, j2, e, -⟩ | ⟨_, -, rfl, g1⟩
        · cases e
        · obtain ⟨rfl, -⟩ := inv_cls g1
          exact .inr ⟨rfl, by omega, by simp⟩
    · cases e'
  · obtain ⟨rfl, ⟨u, e, e'⟩ | ⟨-, hn⟩⟩ := lit1 h1
    · cases e'
    · exact .inr ⟨rfl, by omega, fun _ => rfl⟩

end Verif.Proof.Count

import Verif.Proof.CountLex
/-!
# Counting calls: `Call` and `Expr`
-/
namespace Verif.Proof.Count
open Verif Verif.Spec

/-- One more argument of a call. -/
def gMore : PExpr := .seq [g_, .lit [','], g_, .ruleRef .Expr, g_]

/-- The rest of a call after its opening parenthesis. -/
def gTail : List PExpr := [g_, .ruleRef .Expr, .zeroOrMore gMore, g_, .lit [')']]

theorem word_blank {c : Char} (h : isWord c = true) : isBlank c = false ∧ c ≠ '/' ∧ c ≠ '(' ∧ c ≠ ',' ∧ c ≠ ')' ∧ c ≠ ':' ∧ c ≠ '|' := by
  refine ⟨?_, ?_, ?_, ?_, ?_, ?_, ?_⟩
  · cases hb : isBlank c with
    | false => rfl
    | true =>
      simp only [isBlank, Bool.or_eq_true, beq_iff_eq] at hb
      rcases hb with ((rfl | rfl) | rfl) | rfl <;> exact absurd h (by decide)
  all_goals rintro rfl; exact absurd h (by decide)

/-- Nothing to skip. -/
theorem sk_self {c : Char} {t} (hb : isBlank c = false) (hc : c ≠ '/') : sk (c :: t) = c :: t := by
  apply sk_none; simp [skip1, hb, hc]

theorem skip1_head {l : List Char} : (∀ c t, l = c :: t → isBlank c = false ∧ c ≠ '/') → skip1 l = none := by
  intro h
  cases l with
  | nil => rfl
  | cons c t => obtain ⟨hb, hc⟩ := h c t rfl; simp [skip1, hb, hc]

/-- The evaluations of `Call`. -/
theorem call_ev {v r k} (h : Ev gRules (.e gCall) v r k) :
    (idRest v = none ∧ r = none ∧ k ≤ 4) ∨
    (∃ w, idRest v = some w ∧ w.head? ≠ some '(' ∧ r = none ∧ k + w.length ≤ v.length + 6) ∨
    (∃ u kb, idRest v = some ('(' :: u) ∧ Ev gRules (.seq gTail) u r kb ∧ k + u.length ≤ kb + v.length + 6) := by
  obtain ⟨k₀, rfl, h₀⟩ := inv_action h
  obtain ⟨k₁, rfl, h₁⟩ := inv_seqe h₀
  rcases inv_seq h₁ with ⟨l1, k1, k2, rfl, h1, h₂⟩ | ⟨rfl, h1⟩
  · obtain ⟨rfl, ⟨c, l', rfl, e, hc⟩ | ⟨e, -⟩⟩ := lower_ev h1
    · cases e
      rcases inv_seq h₂ with ⟨l2, k3, k4, rfl, h2, h₃⟩ | ⟨rfl, h2⟩
      · obtain ⟨e, rfl⟩ := words_ev h2
        cases e
        have hid : idRest (c :: l1) = some (l1.dropWhile isWord) := by simp [idRest, hc]
        have hle := dropWhile_le (p := isWord) l1
        rcases inv_seq h₃ with ⟨l3, k5, k6, rfl, h3, h₄⟩ | ⟨rfl, h3⟩
        · obtain ⟨rfl, ⟨u, e, e'⟩ | ⟨e', -⟩⟩ := lit1 h3
          · cases e'
            rw [e] at hid hle ⊢
            refine .inr (.inr ⟨_, _, hid, h₄, ?_⟩)
            simp only [List.length_cons] at hle ⊢; omega
          · cases e'
        · obtain ⟨rfl, ⟨u, e, e'⟩ | ⟨-, hn⟩⟩ := lit1 h3
          · cases e'
          · refine .inr (.inl ⟨_, hid, hn, rfl, ?_⟩)
            simp only [List.length_cons]; omega
      · obtain ⟨e, -⟩ := words_ev h2; cases e
    · cases e
  · obtain ⟨rfl, ⟨c, l', rfl, e, hc⟩ | ⟨-, e⟩⟩ := lower_ev h1
    · cases e
    · exact .inl ⟨e, rfl, by omega⟩

/-- The evaluations of a reference to `Expr`. -/
theorem expr_ev {v r k} (h : Ev gRules (.e (.ruleRef .Expr)) v r k) :
    (∃ u x kb, r = some x ∧ idRest v = some ('(' :: u) ∧ Ev gRules (.seq gTail) u (some x) kb ∧ k + u.length ≤ kb + v.length + 9) ∨
    (∃ w, r = some w ∧ idRest v = some w ∧ w.head? ≠ some '(' ∧ k + 2 * w.length ≤ 2 * v.length + 20) ∨
    (∃ u kb, r = some ('(' :: u) ∧ idRest v = some ('(' :: u) ∧ Ev gRules (.seq gTail) u none kb ∧ k + 2 * u.length ≤ kb + 2 * v.length + 20) ∨
    (∃ w, v = '_' :: w ∧ r = some w ∧ k ≤ 20 ∧ w.head? ≠ some '_') ∨
    (r = none ∧ idRest v = none ∧ k ≤ 20 ∧ ∀ w, v = '_' :: w → w.head? = some '_') := by
  obtain ⟨k₀, rfl, h₀⟩ := inv_ref h
  obtain ⟨k₁, rfl, h₁⟩ := inv_choice h₀
  rcases inv_alt h₁ with ⟨x, rfl, h2⟩ | ⟨ka, kr, rfl, h2, h3⟩
  · obtain ⟨k₂, rfl, h2'⟩ := inv_ref h2
    rcases call_ev h2' with ⟨-, e, -⟩ | ⟨w, -, -, e, -⟩ | ⟨u, kb, hid, ht, hk⟩
    · cases e
    · cases e
    · exact .inl ⟨u, x, kb, rfl, hid, ht, by omega⟩
  · obtain ⟨k₂, rfl, h2'⟩ := inv_ref h2
    rcases inv_alt h3 with ⟨w, rfl, h4⟩ | ⟨kb, kc, rfl, h4, h5⟩
    · obtain ⟨k₃, rfl, h4'⟩ := inv_action h4
      obtain ⟨e, hk, -⟩ := ident_ev h4'
      have hk := hk _ rfl
      rcases call_ev h2' with ⟨e', -⟩ | ⟨w', e', hw, -, hk'⟩ | ⟨u, kt, e', ht, hk'⟩
      · rw [e'] at e; cases e
      · rw [e'] at e; cases e
        exact .inr (.inl ⟨w, rfl, e', hw, by omega⟩)
      · rw [e'] at e; cases e
        refine .inr (.inr (.inl ⟨u, kt, rfl, e', ht, ?_⟩))
        simp only [List.length_cons] at hk; omega
    · obtain ⟨k₃, rfl, h4'⟩ := inv_action h4
      obtain ⟨e, -, hk⟩ := ident_ev h4'
      have hk := hk rfl
      subst hk
      have hc : k₂ ≤ 4 := by
        rcases call_ev h2' with ⟨-, -, hk⟩ | ⟨w, e', -⟩ | ⟨u, kt, e', -⟩
        · exact hk
        · rw [← e] at e'; cases e'
        · rw [← e] at e'; cases e'
      have last : (∃ w, v = '_' :: w ∧ r = some w ∧ kc ≤ 10 ∧ w.head? ≠ some '_') ∨ (r = none ∧ kc ≤ 10 ∧ ∀ w, v = '_' :: w → w.head? = some '_') := by
        have body : ∀ {r k}, Ev gRules (.e (.action .onExpr8 (.seq [.lit ['_'], .not (.lit ['_'])]))) v r k →
            (∃ w, v = '_' :: w ∧ r = some w ∧ k ≤ 10 ∧ w.head? ≠ some '_') ∨ (r = none ∧ k ≤ 10 ∧ ∀ w, v = '_' :: w → w.head? = some '_') := by
          intro r k g
          obtain ⟨j, rfl, g1⟩ := inv_action g
          obtain ⟨j₁, rfl, g2⟩ := inv_seqe g1
          rcases inv_seq g2 with ⟨l1, j1, j2, rfl, g3, g4⟩ | ⟨rfl, g3⟩
          · obtain ⟨rfl, ⟨u, e, e'⟩ | ⟨e', -⟩⟩ := lit1 g3
            · cases e'
              subst e
              rcases inv_seq g4 with ⟨l2, j3, j4, rfl, g5, g6⟩ | ⟨rfl, g5⟩
              · obtain ⟨rfl, rfl⟩ := inv_seq_nil g6
                obtain ⟨j5, rfl, ⟨_, e, -⟩ | ⟨e, g7⟩⟩ := inv_not g5
                · cases e
                · cases e
                  obtain ⟨rfl, ⟨u, e, e'⟩ | ⟨-, hn⟩⟩ := lit1 g7
                  · cases e'
                  · exact .inl ⟨_, rfl, rfl, by omega, hn⟩
              · obtain ⟨j5, rfl, ⟨l3, -, g7⟩ | ⟨e, -⟩⟩ := inv_not g5
                · obtain ⟨rfl, ⟨u, rfl, e'⟩ | ⟨e', -⟩⟩ := lit1 g7
                  · exact .inr ⟨rfl, by omega, fun w e => by cases e; rfl⟩
                  · cases e'
                · cases e
            · cases e'
          · obtain ⟨rfl, ⟨u, e, e'⟩ | ⟨-, hn⟩⟩ := lit1 g3
            · cases e'
            · exact .inr ⟨rfl, by omega, fun w e => by rw [e] at hn; exact absurd rfl hn⟩
        rcases inv_alt h5 with ⟨w, rfl, h6⟩ | ⟨k4, k5, rfl, h6, h7⟩
        · exact body h6
        · obtain ⟨rfl, rfl⟩ := inv_alt_nil h7
          exact body h6
      rcases last with ⟨w, hv, hr, hk, hw⟩ | ⟨hr, hk, hw⟩
      · exact .inr (.inr (.inr (.inl ⟨w, hv, hr, by omega, hw⟩)))
      · exact .inr (.inr (.inr (.inr ⟨hr, e.symm, by omega, hw⟩)))

/-- What the proof by induction provides for the texts after an opening parenthesis. -/
def TailB (u : List Char) : Prop :=
  ∀ r k, Ev gRules (.seq gTail) u r k → (∀ x, r = some x → k + 100 * x.length + 100 ≤ 100 * u.length) ∧ (r = none → k ≤ 100 * u.length + 40)

theorem idRest_word {v w} (h : idRest v = some w) : ∃ c t, v = c :: t ∧ isLower c = true := by
  cases v with
  | nil => cases h
  | cons c t =>
    simp only [idRest] at h
    split at h
    · exact ⟨_, _, rfl, ‹_›⟩
    · cases h

/-- A cheap `Expr`, one before an unexpected parenthesis, or none. -/
theorem expr_sum {v r k} (H : ∀ u, u.length < v.length → TailB u) (h : Ev gRules (.e (.ruleRef .Expr)) v r k) :
    (∃ x c t, r = some x ∧ v = c :: t ∧ isWord c = true ∧ k + 75 + 100 * x.length ≤ 100 * v.length) ∨
    (∃ u kb c t, r = some ('(' :: u) ∧ v = c :: t ∧ isWord c = true ∧ Ev gRules (.seq gTail) u none kb ∧ kb ≤ 100 * u.length + 40 ∧ k + 100 * u.length + 120 ≤ kb + 100 * v.length) ∨
    (r = none ∧ k ≤ 20) := by
  rcases expr_ev h with ⟨u, x, kb, rfl, hid, ht, hk⟩ | ⟨w, rfl, hid, -, hk⟩ | ⟨u, kb, rfl, hid, ht, hk⟩ | ⟨w, rfl, rfl, hk, -⟩ | ⟨rfl, -, hk, -⟩
  · have hlt := idRest_lt hid
    obtain ⟨c, t, hv, hc⟩ := idRest_word hid
    simp only [List.length_cons] at hlt
    have := ((H u (by omega)) _ _ ht).1 _ rfl
    exact .inl ⟨x, c, t, rfl, hv, lower_word hc, by omega⟩
  · have hlt := idRest_lt hid
    obtain ⟨c, t, hv, hc⟩ := idRest_word hid
    exact .inl ⟨w, c, t, rfl, hv, lower_word hc, by omega⟩
  · have hlt := idRest_lt hid
    obtain ⟨c, t, hv, hc⟩ := idRest_word hid
    simp only [List.length_cons] at hlt
    have := ((H u (by omega)) _ _ ht).2 rfl
    exact .inr (.inl ⟨u, kb, c, t, rfl, hv, lower_word hc, ht, this, by omega⟩)
  · exact .inl ⟨w, '_', w, rfl, rfl, by decide, by simp only [List.length_cons]; omega⟩
  · exact .inr (.inr ⟨rfl, hk⟩)

/-- One more argument. -/
theorem more_ev {x r k} (H : ∀ u, u.length < x.length → TailB u) (h : Ev gRules (.e gMore) x r k) :
    (r = none ∧ (sk x).head? ≠ some ',' ∧ k + 4 * (sk x).length ≤ 4 * x.length + 8 + pen (sk x)) ∨
    (r = none ∧ (sk x).head? = some ',' ∧ k ≤ 6 * x.length + 40) ∨
    (∃ y, r = some y ∧ sk y = y ∧ (sk x).head? = some ',' ∧ k + 130 + 100 * y.length ≤ 100 * x.length + pen y) ∨
    (∃ u, r = some ('(' :: u) ∧ (sk x).head? = some ',' ∧ k + 50 ≤ 100 * x.length) := by
  obtain ⟨k₁, rfl, h₁⟩ := inv_seqe h
  rcases inv_seq h₁ with ⟨l1, k1, k2, rfl, h1, h₂⟩ | ⟨rfl, h1⟩
  · obtain ⟨e, hk1⟩ := skip0_ev h1
    cases e
    have hle := sk_le x
    rcases inv_seq h₂ with ⟨l2, k3, k4, rfl, h2, h₃⟩ | ⟨rfl, h2⟩
    · obtain ⟨rfl, ⟨t, e, e'⟩ | ⟨e', -⟩⟩ := lit1 h2
      · cases e'
        have hhead : (sk x).head? = some ',' := by rw [e]; rfl
        have hpen : pen (sk x) = 0 := pen_zero (by rw [hhead]; simp)
        have hl : (sk x).length = l2.length + 1 := by rw [e]; rfl
        rcases inv_seq h₃ with ⟨l3, k5, k6, rfl, h3, h₄⟩ | ⟨rfl, h3⟩
        · obtain ⟨e, hk3⟩ := skip0_ev h3
          cases e
          have hle2 := sk_le l2
          rcases inv_seq h₄ with ⟨l4, k7, k8, rfl, h4, h₅⟩ | ⟨rfl, h4⟩
          · rcases expr_sum (fun u hu => H u (by omega)) h4 with ⟨_, c, t, e, hv, hc, hk4⟩ | ⟨u, kb, c, t, e, hv, hc, -, hkb, hk4⟩ | ⟨e, -⟩
            · cases e
              have hpen2 : pen (sk l2) = 0 := pen_zero (by rw [hv]; simpa using (word_blank hc).2.1)
              rcases inv_seq h₅ with ⟨l5, k9, k10, rfl, h5, h₆⟩ | ⟨rfl, h5⟩
              · obtain ⟨e, hk5⟩ := skip0_ev h5
                cases e
                obtain ⟨rfl, rfl⟩ := inv_seq_nil h₆
                have hle3 := sk_le l4
                exact .inr (.inr (.inl ⟨_, rfl, sk_sk _, hhead, by omega⟩))
              · obtain ⟨e, -⟩ := skip0_ev h5; cases e
            · cases e
              have hpen2 : pen (sk l2) = 0 := pen_zero (by rw [hv]; simpa using (word_blank hc).2.1)
              rcases inv_seq h₅ with ⟨l5, k9, k10, rfl, h5, h₆⟩ | ⟨rfl, h5⟩
              · obtain ⟨e, hk5⟩ := skip0_ev h5
                cases e
                obtain ⟨rfl, rfl⟩ := inv_seq_nil h₆
                have hs : sk ('(' :: u) = '(' :: u := sk_self (by decide) (by decide)
                rw [hs] at hk5 ⊢
                have hp : pen ('(' :: u) = 0 := pen_zero (by simp)
                exact .inr (.inr (.inr ⟨u, rfl, hhead, by omega⟩))
              · obtain ⟨e, -⟩ := skip0_ev h5; cases e
            · cases e
          · rcases expr_sum (fun u hu => H u (by omega)) h4 with ⟨_, c, t, e, -⟩ | ⟨u, kb, c, t, e, -⟩ | ⟨-, hk4⟩
            · cases e
            · cases e
            · have := pen_le (sk l2)
              exact .inr (.inl ⟨rfl, hhead, by omega⟩)
        · obtain ⟨e, -⟩ := skip0_ev h3; cases e
      · cases e'
    · obtain ⟨rfl, ⟨t, e, e'⟩ | ⟨-, hn⟩⟩ := lit1 h2
      · cases e'
      · exact .inl ⟨rfl, hn, by omega⟩
  · obtain ⟨e, -⟩ := skip0_ev h1; cases e

/-- No comma, no more arguments. -/
theorem loop_stop {x r k} (H : ∀ u, u.length < x.length → TailB u) (hn : (sk x).head? ≠ some ',') (h : Ev gRules (.loop gMore) x r k) :
    r = some x ∧ k + 4 * (sk x).length ≤ 4 * x.length + 8 + pen (sk x) := by
  rcases inv_loop h with ⟨l', k1, k2, rfl, h1, h2⟩ | ⟨rfl, h1⟩
  · exfalso
    rcases more_ev H h1 with ⟨e, -⟩ | ⟨e, -⟩ | ⟨y, -, -, hh, -⟩ | ⟨u, -, hh, -⟩
    · cases e
    · cases e
    · exact hn hh
    · exact hn hh
  · rcases more_ev H h1 with ⟨-, -, hk⟩ | ⟨-, hh, -⟩ | ⟨y, e, -⟩ | ⟨u, e, -⟩
    · exact ⟨rfl, hk⟩
    · exact absurd hh hn
    · cases e
    · cases e

/-- The loop over the arguments. -/
theorem args_ev {x r k} (H : ∀ u, u.length < x.length → TailB u) (h : Ev gRules (.loop gMore) x r k) :
    ∃ x', r = some x' ∧
      ((k + 100 * x'.length + 4 * (sk x').length ≤ 100 * x.length + 4 * x'.length + 8 + 2 * pen (sk x')) ∨
       ((sk x').head? = some ',' ∧ k + 94 * x'.length ≤ 100 * x.length + 40) ∨
       (∃ u, x' = '(' :: u ∧ k ≤ 100 * x.length)) := by
  induction hn : x.length using Nat.strongRecOn generalizing x r k with
  | ind n ih =>
    subst hn
    by_cases hc : (sk x).head? = some ','
    · rcases inv_loop h with ⟨l', k1, k2, rfl, h1, h2⟩ | ⟨rfl, h1⟩
      · rcases more_ev H h1 with ⟨e, -⟩ | ⟨e, -⟩ | ⟨y, e, hs, -, hk⟩ | ⟨u, e, -, hk⟩
        · cases e
        · cases e
        · cases e
          have := pen_le l'
          by_cases hp : l'.head? = some '/'
          · have hlt : l'.length ≤ x.length := ev_len h1 _ rfl
            obtain ⟨rfl, hk2⟩ := loop_stop (fun u hu => H u (by omega)) (by rw [hs, hp]; simp) h2
            rw [hs] at hk2
            exact ⟨_, rfl, .inl (by rw [hs]; omega)⟩
          · rw [pen_zero hp] at hk
            obtain ⟨x', rfl, hx⟩ := ih l'.length (by omega) (fun u hu => H u (by omega)) h2 rfl
            refine ⟨x', rfl, ?_⟩
            rcases hx with hx | ⟨hh, hx⟩ | ⟨u, hu, hx⟩
            · exact .inl (by omega)
            · exact .inr (.inl ⟨hh, by omega⟩)
            · exact .inr (.inr ⟨u, hu, by omega⟩)
        · cases e
          have hlt : ('(' :: u).length ≤ x.length := ev_len h1 _ rfl
          have hs : sk ('(' :: u) = '(' :: u := sk_self (by decide) (by decide)
          obtain ⟨rfl, hk2⟩ := loop_stop (fun u hu => H u (by omega)) (by rw [hs]; simp) h2
          rw [hs, pen_zero (by simp)] at hk2
          exact ⟨_, rfl, .inr (.inr ⟨u, rfl, by omega⟩)⟩
      · rcases more_ev H h1 with ⟨-, hh, -⟩ | ⟨-, -, hk⟩ | ⟨y, e, -⟩ | ⟨u, e, -⟩
        · exact absurd hc hh
        · exact ⟨_, rfl, .inr (.inl ⟨hc, by omega⟩)⟩
        · cases e
        · cases e
    · obtain ⟨rfl, hk⟩ := loop_stop H hc h
      have := sk_le x
      exact ⟨_, rfl, .inl (by omega)⟩

/-- The bounds hold. -/
theorem tail_ev (u : List Char) : TailB u := by
  induction hn : u.length using Nat.strongRecOn generalizing u with
  | ind n ih =>
    subst hn
    have H : ∀ u', u'.length < u.length → TailB u' := fun u' hu => ih _ hu u' rfl
    intro r k h
    rcases inv_seq h with ⟨l1, k1, k2, rfl, h1, h₂⟩ | ⟨rfl, h1⟩
    · obtain ⟨e, hk1⟩ := skip0_ev h1
      cases e
      have hle := sk_le u
      rcases inv_seq h₂ with ⟨l2, k3, k4, rfl, h2, h₃⟩ | ⟨rfl, h2⟩
      · have hl2 : l2.length ≤ (sk u).length := ev_len h2 _ rfl
        rcases inv_seq h₃ with ⟨l3, k5, k6, rfl, h3, h₄⟩ | ⟨rfl, h3⟩
        · obtain ⟨_, k7, e, rfl, h3'⟩ := inv_star h3
          cases e
          rcases inv_seq h₄ with ⟨l4, k8, k9, rfl, h4, h₅⟩ | ⟨rfl, h4⟩
          · obtain ⟨e, hk4⟩ := skip0_ev h4
            cases e
            have hle3 := sk_le l3
            -- the closing parenthesis
            have hlast : (∃ z, sk l3 = ')' :: z ∧ r = some z ∧ k9 = 1) ∨ (r = none ∧ k9 = 1 ∧ (sk l3).head? ≠ some ')') := by
              rcases inv_seq h₅ with ⟨l5, k10, k11, rfl, h5, h₆⟩ | ⟨rfl, h5⟩
              · obtain ⟨rfl, rfl⟩ := inv_seq_nil h₆
                obtain ⟨rfl, ⟨z, e, e'⟩ | ⟨e', -⟩⟩ := lit1 h5
                · cases e'; exact .inl ⟨_, e, rfl, rfl⟩
                · cases e'
              · obtain ⟨rfl, ⟨z, e, e'⟩ | ⟨-, hn⟩⟩ := lit1 h5
                · cases e'
                · exact .inr ⟨rfl, rfl, hn⟩
            have hp3 := pen_le (sk l3)
            rcases expr_sum (fun u' hu => H u' (by omega)) h2 with ⟨_, c, t, e, hv, hc, hk2⟩ | ⟨u', kb, c, t, e, hv, hc, -, hkb, hk2⟩ | ⟨e, -⟩
            · cases e
              have hpen : pen (sk u) = 0 := pen_zero (by rw [hv]; simpa using (word_blank hc).2.1)
              have hlt : l2.length < (sk u).length := by omega
              obtain ⟨_, e, hx⟩ := args_ev (fun u' hu => H u' (by omega)) h3'
              cases e
              have hl3 : l3.length ≤ l2.length := ev_len h3' _ rfl
              rcases hlast with ⟨z, hz, rfl, rfl⟩ | ⟨rfl, rfl, hz⟩
              · refine ⟨fun x e => ?_, fun e => by cases e⟩
                cases e
                have hpz : pen (sk l3) = 0 := pen_zero (by rw [hz]; simp)
                rcases hx with hx | ⟨hh, -⟩ | ⟨u', rfl, -⟩
                · have : (sk l3).length = z.length + 1 := by rw [hz]; rfl
                  omega
                · rw [hz] at hh; simp at hh
                · rw [sk_self (by decide) (by decide)] at hz; simp at hz
              · refine ⟨fun x e => (by cases e), fun _ => ?_⟩
                rcases hx with hx | ⟨hh, hx⟩ | ⟨u', rfl, hx⟩
                · omega
                · rw [pen_zero (by rw [hh]; simp)] at hk4
                  omega
                · rw [sk_self (by decide) (by decide), pen_zero (by simp)] at hk4
                  omega
            · cases e
              have hpen : pen (sk u) = 0 := pen_zero (by rw [hv]; simpa using (word_blank hc).2.1)
              have hs : sk ('(' :: u') = '(' :: u' := sk_self (by decide) (by decide)
              simp only [List.length_cons] at hl2
              obtain ⟨e, hk3⟩ := loop_stop (fun u'' hu => H u'' (by simp only [List.length_cons] at hu; omega)) (by rw [hs]; simp) h3'
              cases e
              rw [hs, pen_zero (by simp)] at hk3 hk4
              rcases hlast with ⟨z, hz, -⟩ | ⟨rfl, rfl, hz⟩
              · rw [hs] at hz; simp at hz
              · exact ⟨fun x e => (by cases e), fun _ => by omega⟩
            · cases e
          · obtain ⟨e, -⟩ := skip0_ev h4; cases e
        · obtain ⟨_, _, e, -⟩ := inv_star h3; cases e
      · rcases expr_sum (fun u' hu => H u' (by omega)) h2 with ⟨_, c, t, e, -⟩ | ⟨u', kb, c, t, e, -⟩ | ⟨-, hk⟩
        · cases e
        · cases e
        · have := pen_le (sk u)
          exact ⟨fun x e => (by cases e), fun _ => by omega⟩
    · obtain ⟨e, -⟩ := skip0_ev h1; cases e

end Verif.Proof.Count
